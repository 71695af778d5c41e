import Verif.Spec.Lex

/-! # Helper lemmas about lexing -/

namespace Zia

open Zia.Spec

@[simp] theorem setClosing_text (cp : Nat) (l : Lexeme) : (l.setClosing cp).text = l.text := by
  unfold Lexeme.setClosing; split <;> rfl

@[simp] theorem setClosing_cls (cp : Nat) (l : Lexeme) :
    clsOf (l.setClosing cp).category = clsOf l.category := by
  unfold Lexeme.setClosing; split <;> simp_all [clsOf]

theorem reverse_modify {α} (l : List α) (f : α → α) (i : Nat) (h : i < l.length) :
    (l.modify (l.length - 1 - i) f).reverse = l.reverse.modify i f := by
  apply List.ext_getElem?
  intro k
  by_cases hk : k < l.length
  · rw [List.getElem?_reverse (by simpa using hk), List.getElem?_modify, List.getElem?_modify,
      List.getElem?_reverse hk]
    simp only [List.length_modify]
    by_cases hki : i = k
    · simp [hki]
    · have : l.length - 1 - i ≠ l.length - 1 - k := by omega
      simp [hki, this]
  · rw [List.getElem?_eq_none (by simp; omega), List.getElem?_eq_none (by simp; omega)]

theorem map_modify_eq {α β} (g : α → β) (f : α → α) (hg : ∀ x, g (f x) = g x) (l : List α)
    (i : Nat) : (l.modify i f).map g = l.map g := by
  apply List.ext_getElem?
  intro k
  simp only [List.getElem?_map, List.getElem?_modify]
  cases l[k]? <;> simp
  split <;> simp [hg]

@[simp] theorem clsOf_opening (o) : clsOf (.opening o) = .opening := rfl
@[simp] theorem clsOf_closing (o) : clsOf (.closing o) = .closing := rfl
@[simp] theorem clsOf_ws : clsOf .whitespace = .space := rfl
@[simp] theorem clsOf_concept (k) : clsOf (.concept k) = .symbol := rfl

/-! ## Depth and matching -/

theorem depth_append (a b : List Cls) (d : Nat) :
    depth d (a ++ b) = (depth d a).bind (fun d' => depth d' b) := by
  induction a generalizing d with
  | nil => simp [depth]
  | cons x a ih => cases x <;> cases d <;> simp [depth, ih]

theorem depth_snoc (a : List Cls) (x : Cls) (d : Nat) :
    depth d (a ++ [x]) = (depth d a).bind (fun d' => depth d' [x]) := depth_append a [x] d

/-- After a match, the depth counted from the opening parenthesis is undefined. -/
theorem _root_.Zia.Spec.Matches.depth_none {cs : List Cls} {i j k : Nat} (h : Matches cs i j) (hk : j < k) :
    depth 0 ((cs.take k).drop (i + 1)) = none := by
  obtain ⟨hij, _, hc, hb⟩ := h
  have hj : j < cs.length := by
    rcases Nat.lt_or_ge j cs.length with h | h
    · exact h
    · simp [List.getElem?_eq_none h] at hc
  have e : (cs.take k).drop (i + 1) =
      (cs.take j).drop (i + 1) ++ (.closing :: (cs.take k).drop (j + 1)) := by
    have h1 : cs.take k = cs.take j ++ (cs.take k).drop j := by
      conv => lhs; rw [← List.take_append_drop j (cs.take k)]
      rw [List.take_take, Nat.min_eq_left (by omega)]
    have h2 : (cs.take k).drop j = .closing :: (cs.take k).drop (j + 1) := by
      rw [List.drop_eq_getElem_cons (by simp; omega)]
      congr 1
      simp only [List.getElem_take]
      simpa [List.getElem?_eq_getElem hj] using hc
    conv => lhs; rw [h1]
    rw [List.drop_append_of_le_length (by simp; omega), h2]
  rw [e, depth_append, hb]
  simp [depth]

theorem _root_.Zia.Spec.Matches.lt_length {cs : List Cls} {i j : Nat} (h : Matches cs i j) : j < cs.length := by
  obtain ⟨_, _, hc, _⟩ := h
  rcases Nat.lt_or_ge j cs.length with h | h
  · exact h
  · simp [List.getElem?_eq_none h] at hc

theorem matches_right_unique (cs : List Cls) (i j j' : Nat) (h : Matches cs i j)
    (h' : Matches cs i j') : j = j' := by
  rcases Nat.lt_trichotomy j j' with hlt | heq | hlt
  · have := h.depth_none hlt
    rw [h'.2.2.2] at this; cases this
  · exact heq
  · have := h'.depth_none hlt
    rw [h.2.2.2] at this; cases this

/-- Counting from further left gives a depth at least as large. -/
theorem depth_shift (cs : List Cls) (d e k : Nat) (h : depth d cs = some e) :
    depth (d + k) cs = some (e + k) := by
  induction cs generalizing d with
  | nil => simp [depth] at *; omega
  | cons x cs ih =>
    cases x
    · simp only [depth] at *
      rw [show d + k + 1 = d + 1 + k by omega]; exact ih _ h
    · cases d with
      | zero => simp [depth] at h
      | succ d =>
        rw [show d + 1 + k = (d + k) + 1 by omega]
        simp only [depth] at *; exact ih _ h
    · simp only [depth] at *; exact ih _ h
    · simp only [depth] at *; exact ih _ h

theorem matches_left_unique (cs : List Cls) (i i' j : Nat) (h : Matches cs i j)
    (h' : Matches cs i' j) : i = i' := by
  have key : ∀ a b, a < b → Matches cs a j → Matches cs b j → False := by
    intro a b hab ha hb
    have hlen := ha.lt_length
    have hbj := hb.1
    have e : (cs.take j).drop (a + 1) =
        ((cs.take b).drop (a + 1)) ++ (.opening :: (cs.take j).drop (b + 1)) := by
      have h1 : cs.take j = cs.take b ++ (cs.take j).drop b := by
        conv => lhs; rw [← List.take_append_drop b (cs.take j)]
        rw [List.take_take, Nat.min_eq_left (by omega)]
      have h2 : (cs.take j).drop b = .opening :: (cs.take j).drop (b + 1) := by
        rw [List.drop_eq_getElem_cons (by simp; omega)]
        congr 1
        simp only [List.getElem_take]
        have := hb.2.1
        rw [List.getElem?_eq_getElem (by omega)] at this
        simpa using this
      conv => lhs; rw [h1]
      rw [List.drop_append_of_le_length (by simp; omega), h2]
    have hd := ha.2.2.2
    rw [e, depth_append] at hd
    cases hx : depth 0 ((cs.take b).drop (a + 1)) with
    | none => simp [hx] at hd
    | some x =>
      simp only [hx, Option.bind_some, depth] at hd
      have := depth_shift _ 0 0 (x + 1) hb.2.2.2
      simp only [Nat.zero_add] at this
      rw [this] at hd
      cases hd
  rcases Nat.lt_trichotomy i i' with hlt | heq | hlt
  · exact (key _ _ hlt h h').elim
  · exact heq
  · exact (key _ _ hlt h' h).elim

theorem matches_unique (cs : List Cls) (i j i' j' : Nat) (h : Matches cs i j)
    (h' : Matches cs i' j') : i = i' ↔ j = j' := by
  constructor
  · rintro rfl; exact matches_right_unique cs _ _ _ h h'
  · rintro rfl; exact matches_left_unique cs _ _ _ h h'

/-- Matching among the first lexemes does not depend on later ones. -/
theorem matches_append (cs ds : List Cls) (i j : Nat) (hj : j < cs.length) :
    Matches (cs ++ ds) i j ↔ Matches cs i j := by
  unfold Matches
  constructor
  · rintro ⟨a, b, c, d⟩
    rw [List.getElem?_append_left (by omega)] at b c
    rw [List.take_append_of_le_length (by omega)] at d
    exact ⟨a, b, c, d⟩
  · rintro ⟨a, b, c, d⟩
    rw [List.getElem?_append_left (by omega), List.getElem?_append_left (by omega),
      List.take_append_of_le_length (by omega)]
    exact ⟨a, b, c, d⟩

/-! ## Canonical segmentations -/

theorem canonical_cons {p : Cls × Str} {ps : List (Cls × Str)} (h : Canonical (p :: ps)) :
    HasClass p.1 p.2 ∧ Canonical ps := by
  cases ps with
  | nil => exact ⟨h, trivial⟩
  | cons q qs => exact ⟨h.1, h.2.2⟩

/-- The class of a single character. -/
def charCls (c : Char) : Cls :=
  if c = '(' then .opening else if c = ')' then .closing else if isWs c then .space else .symbol

theorem _root_.Zia.Spec.HasClass.ne_nil {k : Cls} {t : Str} (h : HasClass k t) : t ≠ [] := by
  cases k <;> simp [HasClass] at h
  · simp [h]
  · simp [h]
  · exact h.1
  · exact h.1

theorem _root_.Zia.Spec.HasClass.charCls {k : Cls} {t : Str} (h : HasClass k t) {c : Char} (hc : c ∈ t) :
    charCls c = k := by
  cases k
  · simp [HasClass] at h; subst h; simp at hc; subst hc; rfl
  · simp [HasClass] at h; subst h; simp at hc; subst hc; rfl
  · have := h.2 c hc
    unfold Zia.charCls
    have h1 : c ≠ '(' := by rintro rfl; revert this; decide
    have h2 : c ≠ ')' := by rintro rfl; revert this; decide
    simp [h1, h2, this]
  · have := h.2 c hc
    unfold Zia.charCls
    simp [this.1, this.2.1, this.2.2]

theorem canonical_unique (ps qs : List (Cls × Str)) (hp : Canonical ps) (hq : Canonical qs)
    (h : textOf ps = textOf qs) : ps = qs := by
  induction ps generalizing qs with
  | nil =>
    cases qs with
    | nil => rfl
    | cons q qs =>
      have := (canonical_cons hq).1.ne_nil
      simp [textOf] at h
      exact absurd h.1 this
  | cons p ps ih =>
    cases qs with
    | nil =>
      have := (canonical_cons hp).1.ne_nil
      simp [textOf] at h
      exact absurd h.1 this
    | cons q qs =>
      obtain ⟨kp, tp⟩ := p
      obtain ⟨kq, tq⟩ := q
      have cp := (canonical_cons hp).1
      have cq := (canonical_cons hq).1
      simp only at cp cq
      -- the first characters agree, hence the classes
      have hne := cp.ne_nil
      have hnq := cq.ne_nil
      have htx : tp ++ textOf ps = tq ++ textOf qs := by simpa [textOf] using h
      have hk : kp = kq := by
        cases tp with
        | nil => exact absurd rfl hne
        | cons a tp =>
          cases tq with
          | nil => exact absurd rfl hnq
          | cons b tq =>
            have : a = b := by simp at htx; exact htx.1
            subst this
            rw [← cp.charCls (c := a) (by simp), ← cq.charCls (c := a) (by simp)]
      subst hk
      -- a strictly longer first piece would contain the first character of the next piece
      have key : ∀ (ps qs : List (Cls × Str)) (k : Cls) (s : Str) (tp : Str),
          Canonical ((k, tp) :: ps) → HasClass k (tp ++ s) →
          textOf ps = s ++ textOf qs → s = [] := by
        intro ps qs k s tp hp hc ht
        cases s with
        | nil => rfl
        | cons c s =>
          exfalso
          have hkc := hc.charCls (c := c) (by simp)
          cases ps with
          | nil => simp [textOf] at ht
          | cons r ps =>
            obtain ⟨kr, tr⟩ := r
            have hr := (canonical_cons hp.2.2).1
            simp only at hr
            have hnr := hr.ne_nil
            cases tr with
            | nil => exact hnr rfl
            | cons a tr =>
              have : a = c := by simp [textOf] at ht; exact ht.1
              subst this
              have hkr := hr.charCls (c := a) (by simp)
              have hkk : k = kr := by rw [← hkc, ← hkr]
              refine hp.2.1 ⟨hkk, ?_⟩
              -- a piece of length at least two is a run
              have h1 := (canonical_cons hp).1.ne_nil
              cases k
              · simp [HasClass] at hc
                cases tp with
                | nil => exact absurd rfl h1
                | cons x tp => simp at hc
              · simp [HasClass] at hc
                cases tp with
                | nil => exact absurd rfl h1
                | cons x tp => simp at hc
              · exact Or.inl rfl
              · exact Or.inr rfl
      have htt : tp = tq := by
        rcases List.append_eq_append_iff.mp htx with ⟨s, h1, h2⟩ | ⟨s, h1, h2⟩
        · subst h1
          have := key ps qs kp s tp hp cq h2
          simp [this]
        · subst h1
          have := key qs ps kp s tq hq cp h2
          simp [this]
      subst htt
      rw [ih qs (canonical_cons hp).2 (canonical_cons hq).2 (by simpa using htx)]

theorem canonical_snoc (ps : List (Cls × Str)) (k : Cls) (t : Str) (hc : Canonical ps)
    (ht : HasClass k t)
    (hl : ∀ p, ps.getLast? = some p → ¬ (p.1 = k ∧ (p.1 = .space ∨ p.1 = .symbol))) :
    Canonical (ps ++ [(k, t)]) := by
  induction ps with
  | nil => exact ht
  | cons p ps ih =>
    cases ps with
    | nil => exact ⟨hc, hl p rfl, ht⟩
    | cons q qs =>
      refine ⟨hc.1, hc.2.1, ?_⟩
      exact ih hc.2.2 (fun r hr => hl r (by simpa using hr))

theorem canonical_extend (ps : List (Cls × Str)) (k : Cls) (t t' : Str)
    (hc : Canonical (ps ++ [(k, t)])) (ht : HasClass k t') :
    Canonical (ps ++ [(k, t')]) := by
  induction ps with
  | nil => exact ht
  | cons p ps ih =>
    cases ps with
    | nil => exact ⟨hc.1, hc.2.1, ht⟩
    | cons q qs => exact ⟨hc.1, hc.2.1, ih hc.2.2⟩

/-! ## The loop invariant of `lex` -/

/-- Everything known about the lexemes `ls` produced from the text read so far. -/
structure LexInv (kind : Str → Except Fault Kind) (done : Str) (ls : List Lexeme)
    (stack : List Nat) : Prop where
  text : (ls.map (·.text)).flatten = done
  wf : ∀ l ∈ ls, HasClass (clsOf l.category) l.text ∧
    ∀ k, l.category = .concept k → kind l.text = .ok k
  canonical : Canonical (segments ls)
  opens : ∀ i j, (ls[i]?.map (·.category)) = some (.opening (some j)) ↔
    Matches (ls.map (clsOf ·.category)) i j
  closes : ∀ i j, (ls[j]?.map (·.category)) = some (.closing (some i)) ↔
    Matches (ls.map (clsOf ·.category)) i j
  stack : ∀ i d, stack[d]? = some i ↔
    ((ls.map (clsOf ·.category))[i]? = some .opening ∧
      depth 0 ((ls.map (clsOf ·.category)).drop (i + 1)) = some d)

theorem LexInv.nil (kind) : LexInv kind [] [] [] where
  text := rfl
  wf := by simp
  canonical := trivial
  opens := by simp [Matches]
  closes := by simp [Matches]
  stack := by simp

theorem not_matches_end {cs : List Cls} {i j : Nat} (hj : cs.length ≤ j) : ¬ Matches cs i j :=
  fun h => absurd h.lt_length (by omega)

/-- Adding a lexeme that is not a parenthesis keeps the link part of the invariant. -/
theorem links_other (ls : List Lexeme) (x : Lexeme) (stack : List Nat)
    (hx : clsOf x.category = .space ∨ clsOf x.category = .symbol)
    (ho : ∀ i j, (ls[i]?.map (·.category)) = some (.opening (some j)) ↔
      Matches (ls.map (clsOf ·.category)) i j)
    (hc : ∀ i j, (ls[j]?.map (·.category)) = some (.closing (some i)) ↔
      Matches (ls.map (clsOf ·.category)) i j)
    (hs : ∀ i d, stack[d]? = some i ↔
      ((ls.map (clsOf ·.category))[i]? = some .opening ∧
        depth 0 ((ls.map (clsOf ·.category)).drop (i + 1)) = some d)) :
    (∀ i j, ((ls ++ [x])[i]?.map (·.category)) = some (.opening (some j)) ↔
      Matches ((ls ++ [x]).map (clsOf ·.category)) i j) ∧
    (∀ i j, ((ls ++ [x])[j]?.map (·.category)) = some (.closing (some i)) ↔
      Matches ((ls ++ [x]).map (clsOf ·.category)) i j) ∧
    (∀ i d, stack[d]? = some i ↔
      (((ls ++ [x]).map (clsOf ·.category))[i]? = some .opening ∧
        depth 0 (((ls ++ [x]).map (clsOf ·.category)).drop (i + 1)) = some d)) := by
  have hxo : ∀ c, x.category ≠ .opening c := by
    intro c hc; simp [hc] at hx
  have hxc : ∀ c, x.category ≠ .closing c := by
    intro c hc; simp [hc] at hx
  have hm : ∀ i j, Matches ((ls ++ [x]).map (clsOf ·.category)) i j ↔
      Matches (ls.map (clsOf ·.category)) i j := by
    intro i j
    rcases Nat.lt_trichotomy j ls.length with h | h | h
    · rw [List.map_append, matches_append _ _ _ _ (by simpa using h)]
    · constructor
      · rintro ⟨_, _, h3, _⟩
        subst h
        simp at h3
        rcases hx with h | h <;> simp [h] at h3
      · intro h'; exact absurd h' (not_matches_end (by simp; omega))
    · constructor
      · intro h'; exact absurd h' (not_matches_end (by simp; omega))
      · intro h'; exact absurd h' (not_matches_end (by simp; omega))
  refine ⟨fun i j => ?_, fun i j => ?_, fun i d => ?_⟩
  · rw [hm, ← ho]
    rcases Nat.lt_trichotomy i ls.length with h | h | h
    · rw [List.getElem?_append_left h]
    · subst h; simp [hxo]
    · rw [List.getElem?_eq_none (by simp; omega), List.getElem?_eq_none (by omega)]
  · rw [hm, ← hc]
    rcases Nat.lt_trichotomy j ls.length with h | h | h
    · rw [List.getElem?_append_left h]
    · subst h; simp [hxc]
    · rw [List.getElem?_eq_none (by simp; omega), List.getElem?_eq_none (by omega)]
  · rw [hs]
    rcases Nat.lt_trichotomy i ls.length with h | h | h
    · rw [List.map_append, List.getElem?_append_left (by simpa using h),
        List.drop_append_of_le_length (by simp; omega)]
      have : ∀ e, depth e [clsOf x.category] = some e := by
        intro e; rcases hx with h | h <;> simp [h, depth]
      rw [depth_append]
      cases depth 0 ((ls.map (clsOf ·.category)).drop (i + 1)) <;> simp [this]
    · subst h
      simp
      rcases hx with h | h <;> simp [h]
    · rw [List.getElem?_eq_none (by simp; omega), List.getElem?_eq_none (by simp; omega)]
      simp

theorem segments_snoc (ls : List Lexeme) (x : Lexeme) :
    segments (ls ++ [x]) = segments ls ++ [(clsOf x.category, x.text)] := by simp [segments]

theorem clsmap_snoc (ls : List Lexeme) (x : Lexeme) :
    (ls ++ [x]).map (clsOf ·.category) = ls.map (clsOf ·.category) ++ [clsOf x.category] := by simp

/-- A new lexeme that is a run of a class different from that of the last one. -/
theorem LexInv.push {kind done ls stack} (I : LexInv kind done ls stack) (x : Lexeme)
    (hx : clsOf x.category = .space ∨ clsOf x.category = .symbol)
    (hw : HasClass (clsOf x.category) x.text ∧
      ∀ k, x.category = .concept k → kind x.text = .ok k)
    (hl : ∀ y, ls.getLast? = some y → clsOf y.category ≠ clsOf x.category) :
    LexInv kind (done ++ x.text) (ls ++ [x]) stack := by
  obtain ⟨h1, h2, h3⟩ := links_other ls x stack hx I.opens I.closes I.stack
  refine ⟨by simp [← I.text], ?_, ?_, h1, h2, h3⟩
  · intro l hl
    simp at hl
    rcases hl with hl | rfl
    · exact I.wf l hl
    · exact hw
  · rw [segments_snoc]
    apply canonical_snoc _ _ _ I.canonical hw.1
    intro p hp ⟨he, _⟩
    simp only [segments, List.getLast?_map, Option.map_eq_some_iff] at hp
    obtain ⟨y, hy, rfl⟩ := hp
    exact hl y hy he

/-- The last lexeme grows by a character of the same class. -/
theorem LexInv.extend {kind done ls stack} (y x : Lexeme) (c : Char)
    (I : LexInv kind done (ls ++ [y]) stack)
    (hx : clsOf x.category = .space ∨ clsOf x.category = .symbol)
    (hxy : clsOf x.category = clsOf y.category) (ht : x.text = y.text ++ [c])
    (hw : HasClass (clsOf x.category) x.text ∧
      ∀ k, x.category = .concept k → kind x.text = .ok k) :
    LexInv kind (done ++ [c]) (ls ++ [x]) stack := by
  have hcls : (ls ++ [x]).map (clsOf ·.category) = (ls ++ [y]).map (clsOf ·.category) := by
    rw [clsmap_snoc, clsmap_snoc, hxy]
  have hyo : ∀ c, y.category ≠ .opening c := by
    intro c hc; rw [hxy] at hx; simp [hc] at hx
  have hyc : ∀ c, y.category ≠ .closing c := by
    intro c hc; rw [hxy] at hx; simp [hc] at hx
  have hxo : ∀ c, x.category ≠ .opening c := by
    intro c hc; simp [hc] at hx
  have hxc : ∀ c, x.category ≠ .closing c := by
    intro c hc; simp [hc] at hx
  refine ⟨?_, ?_, ?_, ?_, ?_, ?_⟩
  · rw [← I.text]; simp [ht]
  · intro l hl
    simp at hl
    rcases hl with hl | rfl
    · exact I.wf l (by simp [hl])
    · exact hw
  · rw [segments_snoc]
    have := I.canonical
    rw [segments_snoc] at this
    rw [hxy] at *
    exact canonical_extend _ _ _ _ this hw.1
  · intro i j
    rw [hcls, ← I.opens]
    rcases Nat.lt_trichotomy i ls.length with h | h | h
    · rw [List.getElem?_append_left h, List.getElem?_append_left h]
    · subst h; simp [hyo, hxo]
    · rw [List.getElem?_eq_none (by simp; omega), List.getElem?_eq_none (by simp; omega)]
  · intro i j
    rw [hcls, ← I.closes]
    rcases Nat.lt_trichotomy j ls.length with h | h | h
    · rw [List.getElem?_append_left h, List.getElem?_append_left h]
    · subst h; simp [hyc, hxc]
    · rw [List.getElem?_eq_none (by simp; omega), List.getElem?_eq_none (by simp; omega)]
  · rw [hcls]; exact I.stack

theorem LexInv.opening {kind done ls stack} (I : LexInv kind done ls stack) :
    LexInv kind (done ++ ['(']) (ls ++ [⟨['('], .opening none⟩]) (ls.length :: stack) := by
  have hm : ∀ i j, Matches ((ls ++ [(⟨['('], .opening none⟩ : Lexeme)]).map (clsOf ·.category)) i j ↔
      Matches (ls.map (clsOf ·.category)) i j := by
    intro i j
    rcases Nat.lt_trichotomy j ls.length with h | h | h
    · rw [List.map_append, matches_append _ _ _ _ (by simpa using h)]
    · constructor
      · rintro ⟨_, _, h3, _⟩
        subst h
        simp at h3
      · intro h'; exact absurd h' (not_matches_end (by simp; omega))
    · constructor
      · intro h'; exact absurd h' (not_matches_end (by simp; omega))
      · intro h'; exact absurd h' (not_matches_end (by simp; omega))
  refine ⟨by simp [← I.text], ?_, ?_, ?_, ?_, ?_⟩
  · intro l hl
    simp at hl
    rcases hl with hl | rfl
    · exact I.wf l hl
    · exact ⟨by simp [HasClass], by simp⟩
  · rw [segments_snoc]
    apply canonical_snoc _ _ _ I.canonical (by simp [HasClass])
    intro p hp ⟨he, h⟩
    rw [he] at h; simp at h
  · intro i j
    rw [hm, ← I.opens]
    rcases Nat.lt_trichotomy i ls.length with h | h | h
    · rw [List.getElem?_append_left h]
    · subst h; simp
    · rw [List.getElem?_eq_none (by simp; omega), List.getElem?_eq_none (by omega)]
  · intro i j
    rw [hm, ← I.closes]
    rcases Nat.lt_trichotomy j ls.length with h | h | h
    · rw [List.getElem?_append_left h]
    · subst h; simp
    · rw [List.getElem?_eq_none (by simp; omega), List.getElem?_eq_none (by omega)]
  · intro i d
    rw [clsmap_snoc]
    rcases Nat.lt_trichotomy i ls.length with h | h | h
    · rw [List.getElem?_append_left (by simpa using h),
        List.drop_append_of_le_length (by simp; omega), depth_append]
      cases d with
      | zero =>
        simp only [List.getElem?_cons_zero, Option.some.injEq]
        constructor
        · intro e; omega
        · rintro ⟨_, h2⟩
          cases hx : depth 0 ((ls.map (clsOf ·.category)).drop (i + 1)) <;>
            simp [hx, depth] at h2
      | succ d =>
        simp only [List.getElem?_cons_succ]
        rw [I.stack]
        cases hx : depth 0 ((ls.map (clsOf ·.category)).drop (i + 1)) <;> simp [depth]
    · subst h
      cases d with
      | zero => rw [List.drop_of_length_le (by simp)]; simp [depth]
      | succ d =>
        simp only [List.getElem?_cons_succ]
        rw [I.stack, List.drop_of_length_le (l := _ ++ _) (by simp)]
        simp [depth]
    · rw [List.getElem?_eq_none (l := _ ++ _) (by simp; omega)]
      cases d with
      | zero => simp; omega
      | succ d =>
        simp only [List.getElem?_cons_succ]
        rw [I.stack, List.getElem?_eq_none (by simp; omega)]
        simp

theorem stack_getElem_lt {kind done ls stack} (I : LexInv kind done ls stack) {i : Nat} {d : Nat}
    (h : stack[d]? = some i) : i < ls.length := by
  have := ((I.stack i d).1 h).1
  rcases Nat.lt_or_ge i ls.length with h | h
  · exact h
  · rw [List.getElem?_eq_none (by simpa using h)] at this; cases this

theorem matches_snoc_close (cs : List Cls) (i : Nat) :
    Matches (cs ++ [.closing]) i cs.length ↔
      (cs[i]? = some .opening ∧ depth 0 (cs.drop (i + 1)) = some 0) := by
  unfold Matches
  constructor
  · rintro ⟨a, b, c, d⟩
    rw [List.getElem?_append_left a] at b
    rw [List.take_append_of_le_length (by omega), List.take_length] at d
    exact ⟨b, d⟩
  · rintro ⟨b, d⟩
    have a : i < cs.length := by
      rcases Nat.lt_or_ge i cs.length with h | h
      · exact h
      · rw [List.getElem?_eq_none h] at b; cases b
    refine ⟨a, ?_, by simp, ?_⟩
    · rw [List.getElem?_append_left a]; exact b
    · rw [List.take_append_of_le_length (by omega), List.take_length]; exact d

theorem LexInv.closingNone {kind done ls} (I : LexInv kind done ls []) :
    LexInv kind (done ++ [')']) (ls ++ [⟨[')'], .closing none⟩]) [] := by
  have hm : ∀ i j, Matches ((ls ++ [(⟨[')'], .closing none⟩ : Lexeme)]).map (clsOf ·.category)) i j ↔
      Matches (ls.map (clsOf ·.category)) i j := by
    intro i j
    rcases Nat.lt_trichotomy j ls.length with h | h | h
    · rw [List.map_append, matches_append _ _ _ _ (by simpa using h)]
    · rw [clsmap_snoc]
      have := matches_snoc_close (ls.map (clsOf ·.category)) i
      simp only [List.length_map] at this
      subst h
      simp only [clsOf_opening, clsOf_closing]
      rw [this, ← I.stack]
      simp only [List.getElem?_nil, reduceCtorEq, false_iff]
      exact not_matches_end (by simp)
    · constructor
      · intro h'; exact absurd h' (not_matches_end (by simp; omega))
      · intro h'; exact absurd h' (not_matches_end (by simp; omega))
  refine ⟨by simp [← I.text], ?_, ?_, ?_, ?_, ?_⟩
  · intro l hl
    simp at hl
    rcases hl with hl | rfl
    · exact I.wf l hl
    · exact ⟨by simp [HasClass], by simp⟩
  · rw [segments_snoc]
    apply canonical_snoc _ _ _ I.canonical (by simp [HasClass])
    intro p hp ⟨he, h⟩
    rw [he] at h; simp at h
  · intro i j
    rw [hm, ← I.opens]
    rcases Nat.lt_trichotomy i ls.length with h | h | h
    · rw [List.getElem?_append_left h]
    · subst h; simp
    · rw [List.getElem?_eq_none (by simp; omega), List.getElem?_eq_none (by omega)]
  · intro i j
    rw [hm, ← I.closes]
    rcases Nat.lt_trichotomy j ls.length with h | h | h
    · rw [List.getElem?_append_left h]
    · subst h; simp
    · rw [List.getElem?_eq_none (by simp; omega), List.getElem?_eq_none (by omega)]
  · intro i d
    have hs := I.stack i
    simp only [List.getElem?_nil, reduceCtorEq, false_iff, not_and] at hs ⊢
    rw [clsmap_snoc]
    intro h1 h2
    rcases Nat.lt_trichotomy i ls.length with h | h | h
    · rw [List.getElem?_append_left (by simpa using h)] at h1
      rw [List.drop_append_of_le_length (by simp; omega), depth_append] at h2
      cases hx : depth 0 ((ls.map (clsOf ·.category)).drop (i + 1)) with
      | none => simp [hx] at h2
      | some e => exact hs e h1 hx
    · subst h; simp at h1
    · rw [List.getElem?_eq_none (by simp; omega)] at h1; cases h1

theorem LexInv.closingSome {kind done ls op rest} (I : LexInv kind done ls (op :: rest)) :
    LexInv kind (done ++ [')'])
      (ls.modify op (Lexeme.setClosing ls.length) ++ [⟨[')'], .closing (some op)⟩]) rest := by
  have hop : op < ls.length := stack_getElem_lt I (d := 0) rfl
  have hop' := (I.stack op 0).1 rfl
  have hcls : (ls.modify op (Lexeme.setClosing ls.length)).map (clsOf ·.category) =
      ls.map (clsOf ·.category) :=
    map_modify_eq _ _ (by simp) _ _
  have htx : (ls.modify op (Lexeme.setClosing ls.length)).map (·.text) = ls.map (·.text) :=
    map_modify_eq _ _ (by simp) _ _
  have hlen : (ls.modify op (Lexeme.setClosing ls.length)).length = ls.length := by simp
  have hmlt : ∀ i j, j < ls.length →
      (Matches (ls.map (clsOf ·.category) ++ [.closing]) i j ↔
        Matches (ls.map (clsOf ·.category)) i j) :=
    fun i j h => matches_append _ _ _ _ (by simpa using h)
  have hmend : ∀ i, Matches (ls.map (clsOf ·.category) ++ [.closing]) i ls.length ↔ i = op := by
    intro i
    have := matches_snoc_close (ls.map (clsOf ·.category)) i
    simp only [List.length_map] at this
    rw [this, ← I.stack]; simp [eq_comm]
  have hmgt : ∀ i j, ls.length < j → ¬ Matches (ls.map (clsOf ·.category) ++ [.closing]) i j :=
    fun i j h => not_matches_end (by simp; omega)
  -- the opening parenthesis being closed had no partner so far
  have hopno : ∀ j, ¬ Matches (ls.map (clsOf ·.category)) op j := by
    intro j h
    have h1 := h.depth_none (k := ls.length) (by simpa using h.lt_length)
    rw [List.take_of_length_le (by simp)] at h1
    rw [hop'.2] at h1; cases h1
  have hcat : ∃ o, (ls[op]).category = .opening o := by
    have := hop'.1
    rw [List.getElem?_map, List.getElem?_eq_getElem hop] at this
    simp at this
    cases hc : (ls[op]).category <;> simp [hc] at this
    exact ⟨_, rfl⟩
  obtain ⟨o, ho⟩ := hcat
  refine ⟨?_, ?_, ?_, ?_, ?_, ?_⟩
  · simp [htx, I.text]
  · intro l hl
    simp only [List.mem_append, List.mem_singleton] at hl
    rcases hl with hl | rfl
    · obtain ⟨n, hn, rfl⟩ := List.getElem_of_mem hl
      rw [List.getElem_modify]
      have hn' : n < ls.length := by simpa using hn
      have hw := I.wf ls[n] (List.getElem_mem hn')
      split
      · rename_i he
        subst he
        refine ⟨by simpa using hw.1, ?_⟩
        intro k hk
        simp [Lexeme.setClosing, ho] at hk
      · exact hw
    · exact ⟨by simp [HasClass], by simp⟩
  · rw [segments_snoc]
    have hseg : segments (ls.modify op (Lexeme.setClosing ls.length)) = segments ls :=
      map_modify_eq _ _ (by simp) _ _
    rw [hseg]
    apply canonical_snoc _ _ _ I.canonical (by simp [HasClass])
    intro p hp ⟨he, h⟩
    rw [he] at h; simp at h
  · intro i j
    rw [clsmap_snoc, hcls]
    simp only [clsOf_opening, clsOf_closing]
    rcases Nat.lt_trichotomy i ls.length with h | h | h
    · rw [List.getElem?_append_left (by simpa using h), List.getElem?_modify]
      by_cases hi : op = i
      · subst hi
        have hset : Option.map (·.category) ((fun a => if op = op then Lexeme.setClosing ls.length a
            else a) <$> ls[op]?) = some (.opening (some ls.length)) := by
          simp [List.getElem?_eq_getElem hop, Lexeme.setClosing, ho]
        rw [hset]
        rcases Nat.lt_trichotomy j ls.length with hj | hj | hj
        · rw [hmlt _ _ hj]
          simp only [Option.some.injEq, Category.opening.injEq]
          constructor
          · intro e; omega
          · intro e; exact absurd e (hopno j)
        · subst hj; simp [hmend]
        · simp only [Option.some.injEq, Category.opening.injEq]
          constructor
          · intro e; omega
          · intro e; exact absurd e (hmgt _ _ hj)
      · simp only [hi, if_false, Option.map_eq_map, Option.map_id_fun', id]
        have h0 := I.opens i j
        rw [h0]
        rcases Nat.lt_trichotomy j ls.length with hj | hj | hj
        · rw [hmlt _ _ hj]
        · subst hj
          rw [hmend]
          constructor
          · intro e; exact absurd e (not_matches_end (by simp))
          · intro e; exact absurd e.symm hi
        · constructor
          · intro e; exact absurd e (not_matches_end (by simp; omega))
          · intro e; exact absurd e (hmgt _ _ hj)
    · subst h
      rw [List.getElem?_append_right (by simp)]
      simp
      intro hm
      have := hm.2.1
      simp at this
    · rw [List.getElem?_eq_none (by simp; omega)]
      simp
      intro hm
      have := hm.2.1
      rw [List.getElem?_eq_none (by simp; omega)] at this; cases this
  · intro i j
    rw [clsmap_snoc, hcls]
    simp only [clsOf_opening, clsOf_closing]
    rcases Nat.lt_trichotomy j ls.length with h | h | h
    · rw [List.getElem?_append_left (by simpa using h), List.getElem?_modify, hmlt _ _ h,
        ← I.closes]
      by_cases hi : op = j
      · subst hi
        simp [List.getElem?_eq_getElem hop, Lexeme.setClosing, ho]
      · simp [hi]
    · subst h
      rw [List.getElem?_append_right (by simp), hmend]
      simp [eq_comm]
    · rw [List.getElem?_eq_none (by simp; omega)]
      simp
      exact hmgt _ _ h
  · intro i d
    rw [clsmap_snoc, hcls]
    simp only [clsOf_opening, clsOf_closing]
    have hs := I.stack i (d + 1)
    simp only [List.getElem?_cons_succ] at hs
    rw [hs]
    rcases Nat.lt_trichotomy i ls.length with h | h | h
    · rw [List.getElem?_append_left (by simpa using h),
        List.drop_append_of_le_length (by simp; omega), depth_append]
      cases hx : depth 0 ((ls.map (clsOf ·.category)).drop (i + 1)) with
      | none => simp
      | some e => cases e <;> simp [depth]
    · subst h; simp
    · rw [List.getElem?_eq_none (by simp; omega), List.getElem?_eq_none (by simp; omega)]
      simp

theorem lexStep_inv {kind done st c st'} (I : LexInv kind done st.rev.reverse st.stack)
    (h : lexStep kind st c = .ok st') :
    LexInv kind (done ++ [c]) st'.rev.reverse st'.stack := by
  obtain ⟨rev, stack⟩ := st
  unfold lexStep at h
  simp only at h I
  split at h
  · rename_i hc; subst hc
    cases h
    simpa using I.opening
  split at h
  · rename_i hc; subst hc
    split at h
    · cases h
      simpa using I.closingNone
    · rename_i op rest
      cases h
      have hop : op < rev.length := by
        simpa using stack_getElem_lt I (d := 0) (i := op) rfl
      have := I.closingSome
      simp only [List.reverse_cons]
      rw [reverse_modify _ _ _ hop]
      simpa using this
  split at h
  · rename_i hc1 hc2 hws
    split at h
    · rename_i text rest
      cases h
      simp only [List.reverse_cons] at I ⊢
      have hw := (I.wf ⟨text, .whitespace⟩ (by simp)).1
      refine I.extend ⟨text, .whitespace⟩ ⟨text ++ [c], .whitespace⟩ c (Or.inl rfl) rfl rfl ?_
      refine ⟨⟨by simp, ?_⟩, by simp⟩
      intro x hx
      simp at hx
      rcases hx with hx | rfl
      · exact hw.2 x hx
      · exact hws
    · rename_i hne
      cases h
      simp only [List.reverse_cons]
      refine I.push ⟨[c], .whitespace⟩ (Or.inl rfl) ⟨⟨by simp, by simpa using hws⟩, by simp⟩ ?_
      intro y hy
      simp only [List.getLast?_reverse] at hy
      cases rev with
      | nil => simp at hy
      | cons z zs =>
        simp at hy
        subst hy
        obtain ⟨t, k⟩ := z
        cases k <;> simp
        exact hne t zs rfl
  · rename_i hc1 hc2 hws
    have hsym : SymbolChar c := ⟨hc1, hc2, by simpa using hws⟩
    split at h
    · rename_i text k0 rest
      cases hk : kind (text ++ [c]) with
      | error e => rw [hk] at h; cases h
      | ok k =>
        rw [hk] at h
        cases h
        simp only [List.reverse_cons] at I ⊢
        have hw := (I.wf ⟨text, .concept k0⟩ (by simp)).1
        refine I.extend ⟨text, .concept k0⟩ ⟨text ++ [c], .concept k⟩ c (Or.inr rfl) rfl rfl ?_
        refine ⟨⟨by simp, ?_⟩, by simp [hk]⟩
        intro x hx
        simp at hx
        rcases hx with hx | rfl
        · exact hw.2 x hx
        · exact hsym
    · rename_i hne
      cases hk : kind [c] with
      | error e => rw [hk] at h; cases h
      | ok k =>
        rw [hk] at h
        cases h
        simp only [List.reverse_cons]
        refine I.push ⟨[c], .concept k⟩ (Or.inr rfl)
          ⟨⟨by simp, by simpa using hsym⟩, by simp [hk]⟩ ?_
        intro y hy
        simp only [List.getLast?_reverse] at hy
        cases rev with
        | nil => simp at hy
        | cons z zs =>
          simp at hy
          subst hy
          obtain ⟨t, k⟩ := z
          cases k <;> simp
          rename_i k'
          exact hne t k' zs rfl

theorem lexLoop_inv {kind} : ∀ (cs : Str) (done : Str) (st st' : LexState),
    LexInv kind done st.rev.reverse st.stack → lexLoop kind st cs = .ok st' →
    LexInv kind (done ++ cs) st'.rev.reverse st'.stack
  | [], done, st, st', I, h => by
    simp only [lexLoop] at h; cases h; simpa using I
  | c :: cs, done, st, st', I, h => by
    simp only [lexLoop] at h
    cases hs : lexStep kind st c with
    | error e => rw [hs] at h; cases h
    | ok st1 =>
      rw [hs] at h
      have := lexLoop_inv cs (done ++ [c]) st1 st' (lexStep_inv I hs) h
      simpa using this

theorem lex_inv {kind command ls} (h : lex kind command = .ok ls) :
    ∃ stack, LexInv kind command ls stack := by
  unfold lex at h
  cases hl : lexLoop kind ⟨[], []⟩ command with
  | error e => rw [hl] at h; cases h
  | ok st =>
    rw [hl] at h
    cases h
    exact ⟨st.stack, by simpa using lexLoop_inv command [] ⟨[], []⟩ st (LexInv.nil kind) hl⟩

theorem lexLoop_total {kind : Str → Except Fault Kind} (hk : ∀ s, ∃ k, kind s = .ok k) :
    ∀ (cs : Str) (st : LexState), ∃ st', lexLoop kind st cs = .ok st'
  | [], st => ⟨st, rfl⟩
  | c :: cs, st => by
    have hstep : ∃ st1, lexStep kind st c = .ok st1 := by
      unfold lexStep
      split
      · exact ⟨_, rfl⟩
      split
      · split <;> exact ⟨_, rfl⟩
      split
      · split <;> exact ⟨_, rfl⟩
      · split
        · rename_i text _ _ _
          obtain ⟨k, hk⟩ := hk (text ++ [c]); rw [hk]; exact ⟨_, rfl⟩
        · obtain ⟨k, hk⟩ := hk [c]; rw [hk]; exact ⟨_, rfl⟩
    obtain ⟨st1, h1⟩ := hstep
    obtain ⟨st', h'⟩ := lexLoop_total hk cs st1
    exact ⟨st', by simp only [lexLoop, h1]; exact h'⟩

end Zia

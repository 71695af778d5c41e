import Verif.Lemmas.PendingStand
import Verif.Lemmas.Retold

/-!
# Reading commands that mention new words
-/

namespace Zia
open CM Spec
set_option linter.unusedSectionVars false

variable [HashOrder] {s : Snap}

theorem none_of_new {n : Nat} {d : Delta} {t : Str} (hs : StrInv s) (hn : ∀ k, ¬IsString s k t)
    (hst : d.string.get? t = none) : (View.mk s (.base d)).conceptFromLabel n t = .ok none := by
  unfold View.conceptFromLabel
  rw [string_none hs hn hst]
  rfl

/-- The kind of a word that is not stored. -/
theorem kind_new {n : Nat} {t : Str} {k : Kind} (ht : IsSymbol t) (hv : Syn.isVariableName t = false)
    (hs : StrInv s) (hn : ∀ k, ¬IsString s k t) (hk : Parser.conceptKind ⟨s, Nested.default⟩ n t = .ok k) :
    k = .new := by
  have hsp : ' ' ∉ t := by
    intro hm
    have := (ht.2 _ hm).2.2
    exact absurd this (by decide)
  have hnv : ¬(t.head? = some '_' ∧ t.getLast? = some '_') := by
    rintro ⟨h1, h2⟩
    simp [Syn.isVariableName, h1, h2, hsp] at hv
  have : (View.mk s Nested.default).conceptFromLabel n t = .ok none := none_of_new hs hn rfl
  unfold Parser.conceptKind at hk
  rw [if_neg hnv, this] at hk
  cases hk
  rfl

/-- The leaf of a new word. -/
theorem leaf_fresh {n : Nat} {t : Str} {c c1 : Ctx} {d : Delta} {id : CId} {Q : Except ZiaError Syn → Ctx → Prop}
    (hs : StrInv c.snap) (hn : ∀ k, ¬IsString c.snap k t) (hd : c.delta = .base d) (hst : d.string.get? t = none)
    (hp : Pending c.snap d) (hpin : c.pinned = false)
    (hi : Updater.newLabelledConcept t none (some (.com (builtin .label))) c = .ok (.ok id, c1))
    (hQ : ∀ L, Plain id L → Q (.ok L) c1) : Ends (leafOf n t .new) c Q := by
  unfold leafOf NST.fromConceptKind Parser.astFromLeaf
  dsimp only
  refine Ends.bind (Ends.exclusive (fun _ => ?_) (fun h => by rw [hpin] at h; cases h))
  show Ends _ _ _
  refine Ends.bind (Ends.reading fun o ho => ?_)
  rw [hd, none_of_new hs hn hst] at ho
  cases ho
  show Ends _ _ _
  dsimp only
  refine Ends.bind (Ends.reading fun o ho => ?_)
  have e := hp.label o (hd ▸ ho)
  subst e
  show Ends _ _ _
  refine Ends.bind ?_
  intro r c' h
  rw [hi] at h
  cases h
  exact Ends.pure (hQ _ ⟨_, _, rfl, by simp⟩)

/-- A new word is found once it is introduced. -/
theorem one_lookup (hs : Nameable s) {n : Nat} (hn : 1 ≤ n) (t : Str) :
    (View.mk s (.base (oneName t))).conceptFromLabel n t = .ok (some (.unc 2)) := by
  obtain ⟨n, rfl⟩ : ∃ m, n = m + 1 := ⟨n - 1, by omega⟩
  have st : (View.mk s (.base (oneName t))).stringConcept t = .ok (some (.unc 0)) := by
    unfold View.stringConcept Nested.getString
    simp [oneName, AMap.get?]
    rfl
  unfold View.conceptFromLabel
  rw [st]
  show (View.mk s (.base (oneName t))).labellee (n + 1) (.unc 0) = _
  have r0 : (View.mk s (.base (oneName t))).read (.unc 0) =
      .ok (.unc ⟨.unc 0, [], [], [.unc 1], .str t⟩) := rfl
  have r1 : (View.mk s (.base (oneName t))).read (.unc 1) =
      .ok (.unc ⟨.unc 1, [], [], [], .abst (.comp (.com (builtin .label)) (.unc 2) [] []) (some (.unc 0))⟩) := rfl
  have hcct : (View.mk s (.base (oneName t))).cct (.com (builtin .label)) = .ok (some .label) := by
    obtain ⟨cl, hcl, e⟩ := (hs.concrete _).2 rfl
    have := (Stand.one hs t).cct_built (k := builtin .label) (t := .label) ⟨_, grown_label hcl, by
      show Concept.cct _ = _
      unfold Concept.cct Concept.addLeft
      rw [e]⟩
    have e : (Stand.one hs t).ι (builtin .label) = .com (builtin .label) := pendId_old (label_lt hs)
    rw [e] at this
    exact this
  unfold View.labellee
  rw [r0]
  show View.labelleeLoop _ (n + 1) (HashOrder.order [CId.unc 1]) = _
  have ho : HashOrder.order [CId.unc 1] = [CId.unc 1] := List.perm_singleton.1 (HashOrder.perm _)
  rw [ho, View.labelleeLoop, r1]
  simp only [bind, Except.bind, Mixed.composition, Concept.composition, hcct]
  rfl

/-- The leaf of a new word that is mentioned again. -/
theorem leaf_again {n : Nat} {t : Str} {c : Ctx} {Q : Except ZiaError Syn → Ctx → Prop} (hs : Nameable c.snap)
    (hd : c.delta = .base (oneName t)) (hpin : c.pinned = false) (hn : 1 ≤ n)
    (hQ : ∀ L, Plain (.unc 2) L → Q (.ok L) c) : Ends (leafOf n t .new) c Q := by
  unfold leafOf NST.fromConceptKind Parser.astFromLeaf
  dsimp only
  refine Ends.bind (Ends.exclusive (fun _ => ?_) (fun h => by rw [hpin] at h; cases h))
  show Ends _ _ _
  refine Ends.bind (Ends.reading fun o ho => ?_)
  rw [hd, one_lookup hs hn] at ho
  cases ho
  show Ends _ _ _
  dsimp only
  exact Ends.pure (hQ _ ⟨_, _, rfl, by simp⟩)

/-- How reading a word ends, given how its leaf ends. -/
theorem parse_word_with {n : Nat} {x : Str} (hx : IsSymbol x) {c : Ctx} {Q : Except ZiaError Syn → Ctx → Prop}
    (h : ∀ k, Parser.conceptKind ⟨c.snap, c.delta⟩ n x = .ok k → Ends (leafOf n x k) c Q) :
    Ends (Parser.astFromExpression n x) c Q := by
  unfold Parser.astFromExpression
  refine Ends.bind (Ends.reading fun ls hls => ?_)
  obtain ⟨k, rfl, h1⟩ := lex_word hx hls
  have e : ((fun ls => do
      let t ← ofR (nest ls)
      let ts ← Parser.syntaxList n t
      Parser.astFromList n ts.length ts : List Lexeme → CM Syn) [⟨x, .concept k⟩]) = (do
      let ts ← (do
        let l ← leafOf n x k
        return [l])
      Parser.astFromList n ts.length ts) := rfl
  show Ends ((fun ls => do
      let t ← ofR (nest ls)
      let ts ← Parser.syntaxList n t
      Parser.astFromList n ts.length ts : List Lexeme → CM Syn) _) _ _
  rw [e]
  refine Ends.bind (Ends.bind ((h k h1).mono fun r c' hq => ?_))
  cases r with
  | error e => exact hq
  | ok X => exact Ends.pure (Ends.pure hq)

/-- How reading `forget x` ends, given how the leaf of `x` ends. -/
theorem parse_forgetting_with {n : Nat} {x : Str} (hx : IsSymbol x) {c : Ctx} {f : CId}
    {Q : Except ZiaError Syn → Ctx → Prop}
    (hf : (View.mk c.snap c.delta).conceptFromLabel n (str% "forget") = .ok (some f))
    (h : ∀ k F, Plain f F → Parser.conceptKind ⟨c.snap, c.delta⟩ n x = .ok k →
      Ends (leafOf n x k) c (fun r c' => Q (r.map fun X => .newPair F X) c')) :
    Ends (Parser.astFromExpression n (forgetting x)) c Q := by
  unfold Parser.astFromExpression
  refine Ends.bind (Ends.reading fun ls hls => ?_)
  obtain ⟨kf, kx, rfl, h1, h2⟩ := lex_forgetting hx hls
  obtain ⟨F, pF, eF⟩ := leafOf_known ⟨by decide, by simp [SymbolChar]; decide⟩ (by decide) hf h1
  have e : ((fun ls => do
      let t ← ofR (nest ls)
      let ts ← Parser.syntaxList n t
      Parser.astFromList n ts.length ts : List Lexeme → CM Syn) [⟨str% "forget", .concept kf⟩, ⟨[' '], .whitespace⟩,
        ⟨x, .concept kx⟩]) = (do
      let ts ← (do
        let l ← leafOf n (str% "forget") kf
        let rs ← (do
          let r ← leafOf n x kx
          return [r])
        return l :: rs)
      Parser.astFromList n ts.length ts) := rfl
  show Ends ((fun ls => do
      let t ← ofR (nest ls)
      let ts ← Parser.syntaxList n t
      Parser.astFromList n ts.length ts : List Lexeme → CM Syn) _) _ _
  rw [e, eF, pure_bind]
  refine Ends.bind (Ends.bind (Ends.bind ((h kx F pF h2).mono fun r c' hq => ?_)))
  cases r with
  | error e => exact hq
  | ok X => exact Ends.pure (Ends.pure (Ends.pure hq))

variable {D : Nat → Prop} {W : Stand s}

/-- How reading `let (x (-> y))` ends, given how the leaves of the words end. -/
theorem parse_told_with (A : Asked s D) (T : Ties s D) {n : Nat} {x y : Str} (hx : IsSymbol x) (hy : IsSymbol y)
    {c : Ctx} {i j : Nat} (dj : D j)
    (hl : (View.mk c.snap c.delta).conceptFromLabel n (str% "let") = .ok (some (W.ι (builtin .letCmd))))
    (ha : (View.mk c.snap c.delta).conceptFromLabel n (str% "->") = .ok (some (W.ι (builtin .reduction))))
    (h : ∀ kx ky, Parser.conceptKind ⟨c.snap, c.delta⟩ n x = .ok kx →
      Parser.conceptKind ⟨c.snap, c.delta⟩ n y = .ok ky →
      Ends (do
        let X ← leafOf n x kx
        let Y ← leafOf n y ky
        return (X, Y)) c (fun r c' => Asking W D c' ∧ c'.pinned = false ∧
          ∃ X Y, Plain (W.ι i) X ∧ Plain (W.ι j) Y ∧ r = .ok (X, Y))) :
    Ends (Parser.astFromExpression n (teaching x y)) c (fun r c' => Asking W D c' ∧ c'.pinned = false ∧
      ∃ L X V Y u1 u2 f1 g1 f2 g2, Plain (W.ι (builtin .letCmd)) L ∧ Plain (W.ι i) X ∧
        Plain (W.ι (builtin .reduction)) V ∧ Plain (W.ι j) Y ∧
        r = .ok (.newPair L (.branch u1 none X (.branch u2 none V Y f2 g2) f1 g1))) := by
  unfold Parser.astFromExpression
  refine Ends.bind (Ends.reading fun ls hls => ?_)
  obtain ⟨kl, kx, ka, ky, a, b, cc, d, rfl, h1, h2, h3, h4⟩ := lex_teaching hx hy hls
  obtain ⟨L, pL, eL⟩ := leafOf_known ⟨by decide, by simp [SymbolChar]; decide⟩ (by decide) hl h1
  obtain ⟨V, pV, eV⟩ := leafOf_known ⟨by decide, by simp [SymbolChar]; decide⟩ (by decide) ha h3
  show Ends _ _ _
  rw [nest_let]
  refine Ends.bind (Ends.ofR ?_)
  show Ends _ _ _
  have e : Parser.syntaxList n ((NST.fromConceptKind kl (str% "let")).appendNode
      (((NST.fromConceptKind kx x).appendNode ((NST.fromConceptKind ka (str% "->")).appendNode
        (NST.fromConceptKind ky y)).nest).nest)) = (do
      let p ← (do
        let X ← leafOf n x kx
        let Y ← leafOf n y ky
        return (X, Y))
      let R2 ← Parser.astFromPair n V p.2
      let R ← Parser.astFromPair n p.1 R2
      return [L, R]) := by
    rw [appended]
    simp only [Parser.syntaxList, Parser.astsFromNested, nested_nest_eq, appended, nested_pair_eq, nested_leaf, eL,
      eV, bind_assoc, pure_bind]
  rw [e]
  refine Ends.bind (Ends.bind ((h kx ky h2 h4).mono ?_))
  rintro _ c' ⟨hc, hpin, X, Y, pX, pY, rfl⟩
  show Ends _ _ _
  refine Ends.bind (astFromPair_known pV fun t2 ca2 z2 => ?_)
  obtain ⟨u2, rfl⟩ := Search.combine_unstored (unstored_of A T hc.good dj pV pY) z2
  cases Search.combine_words pV pY z2
  show Ends _ _ _
  refine Ends.bind (astFromPair_known pX fun t1 ca1 z1 => ?_)
  obtain ⟨⟨k1, n1⟩, u1, rfl⟩ := Search.combine_known A T (by exact hc.good) (.inr rfl) pX pV hc.kept hc.known z1
  refine Ends.pure ?_
  exact Ends.pure ⟨⟨hc.snap, hc.delta, hc.bound, k1, n1⟩, hpin, L, X, V, Y, _, _, _, _, _, _, pL, pX, pV, pY, rfl⟩

/-- A word that is not stored. -/
structure NewTo (s : Snap) (t : Str) : Prop where
  symbol : IsSymbol t
  constant : Syn.isVariableName t = false
  new : ∀ k, ¬IsString s k t

/-- The leaf of a new word, when nothing is pending. -/
theorem leaf_first (hs : Nameable s) {n : Nat} {t : Str} (ht : NewTo s t) {c : Ctx} {k : Kind}
    (hk : Parser.conceptKind ⟨s, Nested.default⟩ n t = .ok k) (hc : c.snap = s) (hd : c.delta = Nested.default)
    (hpin : c.pinned = false) {Q : Except ZiaError Syn → Ctx → Prop}
    (hQ : ∀ L, Plain (.unc 2) L → Q (.ok L) { c with delta := .base (oneName t), cache := .empty }) :
    Ends (leafOf n t k) c Q := by
  cases kind_new ht.symbol ht.constant hs.strings ht.new hk
  subst hc
  obtain ⟨s, d, ca, vs, b, p⟩ := c
  cases hd
  exact leaf_fresh hs.strings ht.new rfl rfl (pending_none hs) hpin (introduce_one ..) hQ

/-- The leaf of a new word, when another one is pending. -/
theorem leaf_second (hs : Nameable s) {n : Nat} {t u : Str} (hu : NewTo s u) (hne : t ≠ u) {c : Ctx} {k : Kind}
    (hk : Parser.conceptKind ⟨s, Nested.default⟩ n u = .ok k) (hc : c.snap = s) (hd : c.delta = .base (oneName t))
    (hpin : c.pinned = false) {Q : Except ZiaError Syn → Ctx → Prop}
    (hQ : ∀ L, Plain (.unc 5) L → Q (.ok L) { c with delta := .base (twoNames t u), cache := .empty }) :
    Ends (leafOf n u k) c Q := by
  cases kind_new hu.symbol hu.constant hs.strings hu.new hk
  subst hc
  obtain ⟨s, d, ca, vs, b, p⟩ := c
  cases hd
  exact leaf_fresh hs.strings hu.new rfl (by simp [oneName, AMap.get?, hne]) (pending_one hs t) hpin
    (introduce_two _ _ _ _ _ hne) hQ

end Zia

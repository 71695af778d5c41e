import Verif.Lemmas.Couple
import Verif.Lemmas.SpeechRead

/-!
# How the commands `x y` and `label_of x` end
-/

namespace Zia

open CM Spec Relation

set_option linter.unusedSectionVars false

variable [HashOrder] {s : Snap} {D : Nat → Prop}

theorem lex_couple {x y : Str} (hx : IsSymbol x) (hy : IsSymbol y) {kind : Str → Except Fault Kind}
    {ls : List Lexeme} (h : lex kind (coupleText x y) = .ok ls) :
    ∃ kx ky, ls = [⟨x, .concept kx⟩, ⟨[' '], .whitespace⟩, ⟨y, .concept ky⟩] ∧ kind x = .ok kx ∧ kind y = .ok ky := by
  obtain ⟨stack, I⟩ := lex_inv h
  have hsp : HasClass .space [' '] := ⟨by simp, by decide⟩
  have hcan : Canonical [(.symbol, x), (.space, [' ']), (.symbol, y)] := ⟨hx, by decide, hsp, by decide, hy⟩
  have hs := canonical_unique _ _ I.canonical hcan (by
    have := I.text
    simp only [textOf, segments, List.map_map]
    rw [show ((fun x : Cls × Str => x.2) ∘ fun l : Lexeme => (clsOf l.category, l.text)) = (·.text) from rfl, this]
    simp [coupleText])
  simp only [segments, List.map_eq_cons_iff, List.map_eq_nil_iff, Prod.mk.injEq] at hs
  obtain ⟨⟨t1, k1⟩, _, rfl, ⟨c1, rfl⟩, ⟨t2, k2⟩, _, rfl, ⟨c2, rfl⟩, ⟨t3, k3⟩, _, rfl, ⟨c3, rfl⟩, rfl⟩ := hs
  have hw := fun l hl => (I.wf l hl).2
  clear I hcan h
  obtain ⟨k1, rfl⟩ : ∃ k, k1 = .concept k := by cases k1 <;> simp_all [clsOf]
  obtain ⟨k3, rfl⟩ : ∃ k, k3 = .concept k := by cases k3 <;> simp_all [clsOf]
  obtain rfl : k2 = .whitespace := by cases k2 <;> simp_all [clsOf]
  exact ⟨k1, k3, rfl, hw ⟨t1, .concept k1⟩ (by simp) _ rfl, hw ⟨t3, .concept k3⟩ (by simp) _ rfl⟩

/-- How reading `x y` ends if `x` is known, given how the leaf of `y` ends. -/
theorem parse_couple_with {n : Nat} {x y : Str} (hx : IsSymbol x) (hy : IsSymbol y)
    (vx : Syn.isVariableName x = false) {c : Ctx} {i : CId} {Q : Except ZiaError Syn → Ctx → Prop}
    (hi : (View.mk c.snap c.delta).conceptFromLabel n x = .ok (some i))
    (h : ∀ k X, Plain i X → Parser.conceptKind ⟨c.snap, c.delta⟩ n y = .ok k →
      Ends (leafOf n y k) c (fun r c' => Q (r.map fun Y => .newPair X Y) c')) :
    Ends (Parser.astFromExpression n (coupleText x y)) c Q := by
  unfold Parser.astFromExpression
  refine Ends.bind (Ends.reading fun ls hls => ?_)
  obtain ⟨kx, ky, rfl, h1, h2⟩ := lex_couple hx hy hls
  obtain ⟨X, pX, eX⟩ := leafOf_known hx vx hi h1
  have e : ((fun ls => do
      let t ← ofR (nest ls)
      let ts ← Parser.syntaxList n t
      Parser.astFromList n ts.length ts : List Lexeme → CM Syn) [⟨x, .concept kx⟩, ⟨[' '], .whitespace⟩,
        ⟨y, .concept ky⟩]) = (do
      let ts ← (do
        let l ← leafOf n x kx
        let rs ← (do
          let r ← leafOf n y ky
          return [r])
        return l :: rs)
      Parser.astFromList n ts.length ts) := rfl
  show Ends ((fun ls => do
      let t ← ofR (nest ls)
      let ts ← Parser.syntaxList n t
      Parser.astFromList n ts.length ts : List Lexeme → CM Syn) _) _ _
  rw [e, eX, pure_bind]
  refine Ends.bind (Ends.bind (Ends.bind ((h ky X pX h2).mono fun r c' hq => ?_)))
  cases r with
  | error e => exact hq
  | ok Y => exact Ends.pure (Ends.pure (Ends.pure hq))

/-- How reading `x y` ends for known words. -/
theorem parse_couple {n : Nat} {x y : Str} (hx : IsSymbol x) (hy : IsSymbol y) (vx : Syn.isVariableName x = false)
    (vy : Syn.isVariableName y = false) {c : Ctx} {i j : CId}
    (hi : (View.mk c.snap c.delta).conceptFromLabel n x = .ok (some i))
    (hj : (View.mk c.snap c.delta).conceptFromLabel n y = .ok (some j)) :
    Ends (Parser.astFromExpression n (coupleText x y)) c (fun r c' => c' = c ∧ ∃ X Y, Plain i X ∧ Plain j Y ∧
      r = .ok (.newPair X Y)) := by
  refine parse_couple_with hx hy vx hi fun k X pX hk => ?_
  obtain ⟨Y, pY, eY⟩ := leafOf_known hy vy hj hk
  rw [eY]
  exact Ends.pure ⟨rfl, X, Y, pX, pY, rfl⟩

/-- How the question about two words ends. -/
theorem couple_word (A : Asked s D) (T : Ties s D) {n : Nat} {x y : Str} (hx : IsSymbol x) (hy : IsSymbol y)
    (vx : Syn.isVariableName x = false) (vy : Syn.isVariableName y = false)
    {c : Ctx} (hc : Asking (.rest s) D c) {i j : Nat} (di : D i) (dj : D j)
    (hi : (View.mk c.snap c.delta).conceptFromLabel n x = .ok (some (.com i)))
    (hj : (View.mk c.snap c.delta).conceptFromLabel n y = .ok (some (.com j))) :
    Ends (Context.command n (coupleText x y)) c (fun r c' => Asking (.rest s) D c' ∧
      ∃ t, r = .ok t ∧ Coupled s D i j t) := by
  unfold Context.command
  refine Ends.bind ((parse_couple hx hy vx vy hi hj).mono ?_)
  rintro _ _ ⟨rfl, X, Y, pX, pY, rfl⟩
  show Ends _ _ _
  refine Ends.bind (Ends.searching fun U ca hU => ?_)
  obtain ⟨a, wa⟩ := A.word i di
  obtain ⟨b, wb⟩ := A.word j dj
  obtain ⟨hU, k1, n1⟩ : CoupleTree (.rest s) i j a b U ∧ Kept (.rest s) D ca ∧ Known (.rest s) D ca := by
    cases n with
    | zero => cases hU
    | succ n =>
      obtain ⟨X', Y', ca1, ca2, h1, h2, h3⟩ := Search.expand_pair rfl rfl hU
      obtain ⟨tX, k1, n1⟩ := Search.expand_word A hc.good di pX hc.kept hc.known h1
      obtain ⟨tY, k2, n2⟩ := Search.expand_word A hc.good dj pY k1 n1 h2
      have sX := tX.spelt wa (A.lone.words i di).2.1
      have sY := tY.spelt wb (A.lone.words j dj).2.1
      obtain ⟨hU, rfl⟩ := Search.combine_couple A hc.good di sX sY h3
      exact ⟨hU, k2, n2⟩
  have hcv : Parser.createVariables U = pure U := by
    obtain ⟨X', Y', f, g, sX, sY, rfl⟩ := hU
    simp only [Parser.createVariables, createVariables_plain sX.plain, createVariables_plain sY.plain, pure_bind]
  show Ends _ _ _
  rw [hcv]
  refine Ends.bind (Ends.tryCatch (Ends.pure ?_))
  show Ends _ _ _
  exact Context.call_couple A T n di dj hU ⟨hc.snap, hc.delta, hc.bound, k1, n1⟩

variable {W : Stand s}

theorem callLabel_word {n : Nat} (hs : Orderly s) {c : Ctx} (hc : Asking W D c) {i : Nat} {x : Str}
    (wx : PlainWord s i x) {k : SLeaf} :
    Ends (Context.callLabel n (.leaf (some x) (some (W.ι i)) k)) c (fun r c' => Asking W D c' ∧
      r = .ok (some ('\'' :: x ++ ['\'']))) := by
  unfold Context.callLabel
  dsimp only [Syn.concept]
  refine Ends.bind (Ends.reading fun o ho => ?_)
  cases wx.label hs.names hs.fwd (hc.good.label_rest ho)
  show Ends _ _ _
  exact Ends.bind (Ends.pure (Ends.pure ⟨hc, rfl⟩))

/-- How the command `label_of x` ends, given how reading it ends. -/
theorem name_read (A : Asked s D) (hs : Orderly s) {n : Nat} {c0 : Ctx} {x : Str} {i : Nat} (hi : D i)
    (wx : PlainWord s i x) (cf : ¬MayVary s (builtin .label)) (sf : ∀ l r, ¬ComposedOf s (builtin .label) l r)
    (bf : IsBuiltIn s (builtin .label) .label)
    (hp : Ends (Parser.astFromExpression n (coupleText (str% "label_of") x)) c0 (fun r c => Asking W D c ∧
      ∃ F X, Plain (W.ι (builtin .label)) F ∧ Plain (W.ι i) X ∧ r = .ok (.newPair F X))) :
    Ends (Context.command n (coupleText (str% "label_of") x)) c0 (fun r c' => Asking W D c' ∧
      r = .ok ('\'' :: x ++ ['\''])) := by
  unfold Context.command
  refine Ends.bind (hp.mono ?_)
  rintro _ c ⟨hc, F, X, pF, pX, rfl⟩
  show Ends _ _ _
  refine Ends.bind (Ends.searching fun t ca ht => ?_)
  show Ends _ _ _
  cases n with
  | zero => cases ht
  | succ n =>
    obtain ⟨F', X', ca1, ca2, x1, x2, x3⟩ := Search.expand_pair (hu := rfl) (hx := rfl) ht
    obtain ⟨tF, k1, n1⟩ := Search.expand_simple A hc.good sf pF hc.kept hc.known x1
    obtain ⟨tX, k2, n2⟩ := Search.expand_word A hc.good hi pX k1 n1 x2
    have pF' := tF.plain sf cf
    obtain ⟨w1, w2, _⟩ := A.lone.words i hi
    have pX' := tX.plain w1 w2
    have e3 := Search.combine_words pF' pX' x3
    obtain ⟨u, o, rfl, hk, _⟩ := Search.combine_paired x3
    subst e3
    generalize (Syn.pairVars F' X').1 = f, (Syn.pairVars F' X').2 = b at *
    generalize some u = u at *
    have hc1 : Asking W D { c with cache := ca } := ⟨hc.snap, hc.delta, hc.bound, k2, n2⟩
    have hcv : Parser.createVariables (.branch u o F' X' f b) = pure (.branch u o F' X' f b) := by
      simp only [Parser.createVariables, createVariables_plain pF', createVariables_plain pX', pure_bind]
    rw [hcv]
    refine Ends.bind (Ends.tryCatch (Ends.pure ?_))
    show Ends _ _ _
    unfold Context.call
    have hstr : Ends (Context.stringOf (.branch u o F' X' f b)) { c with cache := ca }
        (fun r c' => r = .ok none ∧ c' = { c with cache := ca }) := by
      unfold Context.stringOf
      cases o with
      | none => exact Ends.pure ⟨rfl, rfl⟩
      | some k =>
        obtain ⟨a, d, m, e1, e2, hm, hk⟩ := hk k rfl
        rw [pF'.concept] at e1; cases e1
        rw [pX'.concept] at e2; cases e2
        obtain ⟨cw, hcw, M⟩ := hc.good.read hm
        rw [M.find] at hk
        cases hfh : cw.findAsHand i .left with
        | none => rw [hfh] at hk; cases hk
        | some q =>
          rw [hfh] at hk; cases hk
          obtain ⟨cq, h1, h2⟩ := (A.lone.rev _ cw i q hcw).1 hfh
          dsimp only [Syn.concept]
          refine Ends.bind (Ends.reading fun m hm => ?_)
          obtain ⟨cw', hcw', M'⟩ := hc1.good.read hm
          have : cw' = cq := by
            have h1 : s.concepts[q]? = some cq := h1
            rw [hcw'] at h1; cases h1; rfl
          subst this
          refine Ends.pure ⟨?_, rfl⟩
          congr 1
          rw [M'.string]
          unfold Concept.string
          cases hsp : cw'.spec <;> simp [hsp, pairOf] at h2 ⊢
    refine Ends.bind (hstr.mono ?_)
    rintro _ _ ⟨rfl, rfl⟩
    show Ends _ _ _
    dsimp only [Syn.expansion]
    refine onError_ends ?_ (fun e c' h => ?_)
    · cases n with
      | zero => exact Ends.fault
      | succ n =>
        unfold Context.callPair
        refine Ends.bind (Ends.get ?_)
        refine Ends.bind (Ends.ofE fun q hq => ?_)
        have hcct : (View.mk c.snap c.delta).cct (W.ι (builtin .label)) = .ok (some .label) := by
          rw [hc.delta, hc.snap]
          exact W.cct_built bf
        rw [cct_of_plain pF'.concept (c := { c with cache := ca }) hcct] at hq
        cases hq
        obtain ⟨kd, rfl, hkd⟩ := tX.named wx w2
        refine Ends.bind ((callLabel_word hs hc1 wx).mono ?_)
        rintro _ c' ⟨h, rfl⟩
        exact Ends.pure ⟨h, rfl⟩
    · cases h.2

/-- Reading `label_of x`. -/
theorem Speech.readName {c : Ctx} {n : Nat} {B : Str → Prop} {K : List Str} {L : Facts} (h : Speech n B K L c.snap)
    (a : Asking (.rest c.snap) (Means n K c.snap) c) (hpin : c.pinned = false) {x : Str} (hx : IsSymbol x)
    (vx : Syn.isVariableName x = false) (bx : ¬B x) :
    ∃ (g : Snap) (W : Stand g) (i : Nat), Pends c W ∧ Speech n B (x :: K) L g ∧ StandsFor n g x i ∧
      Ends (Parser.astFromExpression n (coupleText (str% "label_of") x)) c (fun r c' =>
        Asking W (Means n (x :: K) g) c' ∧ ∃ F X, Plain (W.ι (builtin .label)) F ∧ Plain (W.ι i) X ∧
          r = .ok (.newPair F X)) := by
  have hd : c.delta = Nested.default := a.delta
  have sym : IsSymbol (str% "label_of") := ⟨by decide, by simp [SymbolChar]; decide⟩
  by_cases hm : x ∈ K
  · have hK : ∀ t, t ∈ x :: K ↔ t ∈ K := fun t => ⟨fun h => by
      rcases List.mem_cons.1 h with rfl | h
      exacts [hm, h], fun h => by simp [h]⟩
    obtain ⟨i, hi, _⟩ := h.word x hm
    refine ⟨c.snap, .rest c.snap, i, .rest h.orderly, h.same hK, hi, ?_⟩
    rw [Means.same hK]
    refine (parse_couple sym hx (by decide) vx (by rw [hd]; exact h.labelWord) (by rw [hd]; exact hi)).mono ?_
    rintro r _ ⟨rfl, hX⟩
    exact ⟨a, hX⟩
  · have hN : NewTo c.snap x := ⟨hx, vx, h.new bx hm⟩
    refine ⟨grown c.snap x, .one h.orderly.names x, _, .one h.orderly x, h.grow hN, h.newWord x, ?_⟩
    refine parse_couple_with sym hx (by decide) (i := .com (builtin .label)) (by rw [hd]; exact h.labelWord)
      fun k F pF hk => ?_
    rw [hd] at hk
    refine leaf_first h.orderly.names hN hk rfl hd hpin fun X pX => ?_
    refine ⟨asking_one _ a.bound, F, X, ?_, by rw [one_word]; exact pX, rfl⟩
    rw [(Pends.one h.orderly x).settles.ids _ (h.orderly.built_lt .label)]
    exact pF

end Zia

import Verif.Lemmas.CoupleRead

/-!
# How the command `x ->` ends
-/

namespace Zia

open CM Spec Relation

set_option linter.unusedSectionVars false

variable [HashOrder] {s : Snap} {W : Stand s} {D : Nat → Prop}

/-- The tree of `x ->`. -/
abbrev AskTree (W : Stand s) (i : Nat) (x : Str) (U : Syn) : Prop :=
  CoupleTree W i (builtin .reduction) x (str% "->") U

namespace Search

/-- `x ->` does not reduce if `x` does not. -/
theorem reduce_asked (A : Asked s D) (T : Ties s D) {n : Nat} {e : Env} (he : Good W e) {i : Nat} (hi : D i)
    (no : ∀ k, ¬ReducesTo s i k) {x : Str} {U : Syn} (hU : AskTree W i x U) {ca ca' : Cache} {r : RR}
    (hk : Kept W D ca) (hn : Known W D ca) (h : (search n).reduce e U ca = .ok (r, ca')) :
    r = none ∧ Kept W D ca' ∧ Known W D ca' := by
  suffices hs : r = none ∧ Known W D ca' from
    ⟨hs.1, (search_calm (W := W) A.lone n).reduce _ _ he _ _ _ hk h, hs.2⟩
  obtain ⟨X, Y, f, g, hX, hY, rfl⟩ := hU
  have pX := hX.plain
  have pY := hY.plain
  cases n with
  | zero => cases h
  | succ n =>
    have h : (search n).reduceF e (.branch (some (coupleText x (str% "->"))) none X Y f g) ca = .ok (r, ca') := h
    unfold reduceF at h
    obtain ⟨ca0, _, h0, h⟩ := SM.bind_ok.1 h
    cases h0
    cases hx : ca.reduction? (.branch (some (coupleText x (str% "->"))) none X Y f g) with
    | some x =>
      rw [hx] at h
      cases h
      exact ⟨Noted.ofAsked T.tidy hi hX.1 no (hn.noted rfl rfl hx), hn⟩
    | none =>
      rw [hx] at h
      obtain ⟨o, _, h1, h⟩ := SM.bind_ok.1 h
      cases h1
      obtain ⟨r1, ca1, h1, h⟩ := SM.bind_ok.1 h
      obtain ⟨_, ca2, h2, h⟩ := SM.bind_ok.1 h
      cases h2
      cases h
      suffices hh : r = none ∧ Known W D ca1 from
        ⟨hh.1, hh.2.insert_other rfl rfl (.asked hi hX.1 fun _ => hh.1)⟩
      unfold reduceNow at h1
      dsimp only [Syn.concept, Syn.expansion] at h1
      simp only [pure_bind] at h1
      unfold reducePair at h1
      have xX : X.expansion = none := by
        obtain ⟨_, _, rfl, _⟩ := hX
        rfl
      have xY : Y.expansion = none := by
        obtain ⟨_, _, rfl, _⟩ := hY
        rfl
      rw [xY, xX] at h1
      simp only [pure_bind] at h1
      unfold recursivelyReducePair at h1
      obtain ⟨lr, ca4, h5, h1'⟩ := SM.bind_ok.1 h1
      clear h1
      obtain ⟨hl, k4, n4⟩ := reduce_spelt A he hi hX hk hn h5
      obtain ⟨rr, ca5, h6, h1⟩ := SM.bind_ok.1 h1'
      clear h1'
      obtain ⟨rfl, rfl⟩ := reduce_built he (T.built _) pY n4 h6
      rcases hl with ⟨k, z, Z, why, hz, dk, hZ, rfl⟩ | ⟨hno, rfl⟩
      · exact absurd hz (no k)
      · dsimp only at h1
        obtain ⟨t, ca6, h7, h9⟩ := SM.bind_ok.1 h1
        clear h1
        obtain ⟨⟨_, _, f1, g1, hX', hY', rfl⟩, rfl⟩ := contractPair_couple A he hi hX hY h7
        obtain ⟨gs, _, h8, h10⟩ := SM.bind_ok.1 h9
        clear h9
        obtain ⟨h8', rfl⟩ := SM.lift_ok.1 h8
        obtain ⟨rfl, rfl⟩ := genLoop_none (fun k hk o ho => by
          obtain ⟨q, rfl, hq⟩ := findGeneralisations_words he A.lone T hX'.plain hY'.plain h8' k
            (HashOrder.mem_order.1 hk)
          rcases hq with ⟨z, hq⟩ | ⟨z, hq⟩
          · exact absurd hq ((A.lone.words i hi).2.2 q z)
          · cases T.right _ (.inr rfl) q z hq
            exact checkGeneralisation_fixed he hq T.label (A.lone.builtins _ (.inr rfl)).1 (by
              rw [hX'.plain.concept]
              intro e
              have e : i = builtin .label := W.inj _ _ (Option.some.inj e)
              exact T.foreign i .label hi (e ▸ T.built .label)) ho) h10
        exact ⟨rfl, n4⟩

theorem recReduce_asked (A : Asked s D) (T : Ties s D) {n : Nat} {e : Env} (he : Good W e) {i : Nat} (hi : D i)
    (no : ∀ k, ¬ReducesTo s i k) {x : Str} {U : Syn} (hU : AskTree W i x U) {ca ca' : Cache} {why why' : Option Reason}
    {nf : Syn} (hk : Kept W D ca) (hn : Known W D ca)
    (h : (search n).recReduce e U why ca = .ok ((nf, why'), ca')) :
    nf = U ∧ Kept W D ca' ∧ Known W D ca' := by
  cases n with
  | zero => cases h
  | succ n =>
    have h : (search n).recReduceF e U why ca = .ok ((nf, why'), ca') := h
    unfold recReduceF at h
    obtain ⟨r, ca1, h1, h⟩ := SM.bind_ok.1 h
    obtain ⟨rfl, k1, n1⟩ := reduce_asked A T he hi no hU hk hn h1
    cases h
    exact ⟨rfl, k1, n1⟩

end Search

/-- The answer to `x ->`. -/
def AnswersAsked (s : Snap) (i : Nat) (x t : Str) : Prop :=
  ((∃ j, ReducesTo s i j) ∧ Normal s i t) ∨ ((∀ j, ¬ReducesTo s i j) ∧ t = coupleText x (str% "->"))

namespace Context

theorem asked_inert (A : Asked s D) (T : Ties s D) {i : Nat} (hi : D i) {x : Str} {U : Syn}
    (hU : AskTree W i x U) : Inert W U := by
  obtain ⟨X, Y, f, g, hX, hY, rfl⟩ := hU
  exact .couple hX.plain hY.plain (A.lone.words i hi).2.1 (A.lone.builtins _ (.inr rfl)).1
    (fun k => (A.lone.words i hi).2.2 k _) T.wide.flat

/-- How the question `x ->` ends. -/
theorem call_asked (A : Asked s D) (T : Ties s D) {n k : Nat} {i : Nat} {x : Str} {X Y : Syn} {f g} {c : Ctx}
    (hi : D i) (tX : TreeIn W i X) (hX : Spelt W i x X) (hY : Spelt W (builtin .reduction) (str% "->") Y)
    (hc : Asking W D c) :
    Ends (call n k (.branch (some (coupleText x (str% "->"))) none X Y f g)) c (fun r c' => Asking W D c' ∧
      ∃ t, r = .ok t ∧ AnswersAsked s i x t) := by
  have hU : AskTree W i x (.branch (some (coupleText x (str% "->"))) none X Y f g) := ⟨X, Y, f, g, hX, hY, rfl⟩
  have hin := asked_inert A T hi hU
  cases k with
  | zero => unfold call; exact Ends.fault
  | succ k =>
    unfold call
    unfold stringOf
    dsimp only [Syn.concept, Syn.expansion]
    refine Ends.bind (Ends.pure ?_)
    show Ends _ _ _
    refine Ends.tryCatch ?_
    cases k with
    | zero => unfold callPair; exact Ends.fault
    | succ k =>
      unfold callPair
      refine Ends.bind (Ends.get ?_)
      refine Ends.bind (Ends.ofE fun o ho => ?_)
      cases cctOfAst_spelt T hc.good hi hX ho
      show Ends _ _ _
      refine Ends.bind (Ends.pure ?_)
      refine Ends.bind (Ends.get ?_)
      refine Ends.bind (Ends.ofE fun o ho => ?_)
      have hcct : (View.mk c.snap c.delta).cct (W.ι (builtin .reduction)) = .ok (some .reduction) := by
        rw [hc.delta, hc.snap]
        exact W.cct_built (T.built _)
      rw [cct_of_plain hY.plain.concept hcct] at ho
      cases ho
      show Ends _ _ _
      rw [if_pos rfl]
      refine ((ask_ends A k).2 hi tX hc).mono ?_
      rintro r c1 ⟨hc1, ⟨no, rfl⟩ | ⟨yes, t, rfl, ht⟩⟩
      · show Ends (if _ then _ else _) _ _
        rw [if_pos rfl]
        refine Ends.tryCatch ?_
        unfold tryReducing
        refine Ends.bind (Ends.searching fun p ca h => ?_)
        obtain ⟨nf, why⟩ := p
        obtain ⟨rfl, k2, n2⟩ := Search.recReduce_asked A T hc1.good hi no hU hc1.kept hc1.known h
        have hc2 : Asking W D { c1 with cache := ca } := ⟨hc1.snap, hc1.delta, hc1.bound, k2, n2⟩
        show Ends (if _ then _ else _) _ _
        rw [if_pos rfl]
        refine Ends.bind (Ends.searching fun r ca2 h2 => ?_)
        have hcalm := Search.findInferred_calm (search_calm (W := W) A.lone n) _ hc2.good _ _ _ _ hc2.kept h2
        obtain ⟨rfl, s2⟩ := leaves_inert A.lone (fun m _ => search_calm A.lone m) hc2.good hin _ _ _ hc2.kept h2
        have hc3 : Asking W D { c1 with cache := ca2 } :=
          ⟨hc1.snap, hc1.delta, hc1.bound, hcalm, s2.known n2⟩
        show Ends (MonadExcept.throw _) _ _
        refine Ends.throw ?_
        show Ends (if _ then _ else _) _ _
        rw [if_pos rfl]
        refine Ends.bind (Ends.searching fun t ca3 h3 => ?_)
        obtain ⟨⟨_, _, f', g', _, _, rfl⟩, rfl⟩ := Search.contractPair_couple A hc3.good hi hX hY h3
        show Ends _ _ _
        refine Ends.ofE fun a ha => ?_
        cases ha
        exact ⟨hc3, _, rfl, .inr ⟨no, rfl⟩⟩
      · exact ⟨hc1, t, rfl, .inl ⟨yes, ht⟩⟩

end Context

/-- How reading `x ->` ends, given how the leaf of `x` ends. -/
theorem parse_arrow_with {n : Nat} {x : Str} (hx : IsSymbol x) {c : Ctx} {o : CId}
    {Q : Except ZiaError Syn → Ctx → Prop}
    (ho : (View.mk c.snap c.delta).conceptFromLabel n (str% "->") = .ok (some o))
    (h : ∀ k V, Plain o V → Parser.conceptKind ⟨c.snap, c.delta⟩ n x = .ok k →
      Ends (leafOf n x k) c (fun r c' => Q (r.map fun X => .newPair X V) c')) :
    Ends (Parser.astFromExpression n (coupleText x (str% "->"))) c Q := by
  have sym : IsSymbol (str% "->") := ⟨by decide, by simp [SymbolChar]; decide⟩
  unfold Parser.astFromExpression
  refine Ends.bind (Ends.reading fun ls hls => ?_)
  obtain ⟨kx, ky, rfl, h1, h2⟩ := lex_couple hx sym hls
  obtain ⟨V, pV, eV⟩ := leafOf_known sym (by decide) ho h2
  have e : ((fun ls => do
      let t ← ofR (nest ls)
      let ts ← Parser.syntaxList n t
      Parser.astFromList n ts.length ts : List Lexeme → CM Syn) [⟨x, .concept kx⟩, ⟨[' '], .whitespace⟩,
        ⟨str% "->", .concept ky⟩]) = (do
      let ts ← (do
        let l ← leafOf n x kx
        let rs ← (do
          let r ← leafOf n (str% "->") ky
          return [r])
        return l :: rs)
      Parser.astFromList n ts.length ts) := rfl
  show Ends ((fun ls => do
      let t ← ofR (nest ls)
      let ts ← Parser.syntaxList n t
      Parser.astFromList n ts.length ts : List Lexeme → CM Syn) _) _ _
  rw [e, eV]
  refine Ends.bind (Ends.bind ((h kx V pV h1).mono fun r c' hq => ?_))
  cases r with
  | error e => exact hq
  | ok X => exact Ends.bind (Ends.bind (Ends.pure (Ends.pure (Ends.pure (Ends.pure hq)))))

/-- Reading `x ->`. -/
theorem Speech.readArrow {c : Ctx} {n : Nat} {B : Str → Prop} {K : List Str} {L : Facts} (h : Speech n B K L c.snap)
    (a : Asking (.rest c.snap) (Means n K c.snap) c) (hpin : c.pinned = false) {x : Str} (hx : IsSymbol x)
    (vx : Syn.isVariableName x = false) (bx : ¬B x) :
    ∃ (g : Snap) (W : Stand g) (i : Nat), Pends c W ∧ Speech n B (x :: K) L g ∧ StandsFor n g x i ∧
      Ends (Parser.astFromExpression n (coupleText x (str% "->"))) c (fun r c' =>
        Asking W (Means n (x :: K) g) c' ∧ ∃ X V, Plain (W.ι i) X ∧ Plain (W.ι (builtin .reduction)) V ∧
          r = .ok (.newPair X V)) := by
  have hd : c.delta = Nested.default := a.delta
  obtain ⟨g, W, i, P, S, hi, hl⟩ := h.readLeaf a hpin hx vx bx
  refine ⟨g, W, i, P, S, hi, parse_arrow_with hx (o := .com (builtin .reduction)) (by rw [hd]; exact h.redWord)
    fun k V pV hk => (hl k hk).mono ?_⟩
  rintro _ c' ⟨hc, X, pX, rfl⟩
  exact ⟨hc, X, V, pX, by rw [P.built_id h.orderly]; exact pV, rfl⟩

/-- How the command `x ->` ends, given how it is read. -/
theorem asked_read (A : Asked s D) (T : Ties s D) {n : Nat} {x : Str} {c : Ctx} {i : Nat} (di : D i)
    (wx : PlainWord s i x)
    (hp : Ends (Parser.astFromExpression n (coupleText x (str% "->"))) c (fun r c' => Asking W D c' ∧
      ∃ X V, Plain (W.ι i) X ∧ Plain (W.ι (builtin .reduction)) V ∧ r = .ok (.newPair X V))) :
    Ends (Context.command n (coupleText x (str% "->"))) c (fun r c' => Asking W D c' ∧
      ∃ t, r = .ok t ∧ AnswersAsked s i x t) := by
  unfold Context.command
  refine Ends.bind (hp.mono ?_)
  rintro _ _ ⟨hc, X, Y, pX, pY, rfl⟩
  show Ends _ _ _
  refine Ends.bind (Ends.searching fun U ca hU => ?_)
  have rc := (A.lone.builtins _ (.inr rfl : CCT.reduction = .implication ∨ CCT.reduction = .reduction))
  have wb : PlainWord s (builtin .reduction) (str% "->") := T.wide.names (.reduction, _) (by simp [spoken])
  cases n with
  | zero => cases hU
  | succ n =>
    obtain ⟨X', Y', ca1, ca2, h1, h2, h3⟩ := Search.expand_pair rfl rfl hU
    obtain ⟨tX, k1, n1⟩ := Search.expand_word A hc.good di pX hc.kept hc.known h1
    obtain ⟨tY, k2, n2⟩ := Search.expand_simple A hc.good rc.2 pY k1 n1 h2
    have sX := tX.spelt wx (A.lone.words i di).2.1
    have sY := tY.spelt wb rc.1
    have un := couple_unstored A hc.good di sX.plain sY.plain
    have hU' : ∃ f g, U = .branch (some (coupleText x (str% "->"))) none X' Y' f g ∧ ca = ca2 := by
      obtain ⟨_, kx, eX, _⟩ := id sX
      obtain ⟨_, ky, eY, _⟩ := id sY
      subst eX eY
      obtain ⟨⟨f, g, rfl⟩, rfl⟩ := Search.combine_spells (fun a b m ha hb => un a b m ha hb) h3
      exact ⟨f, g, rfl, rfl⟩
    obtain ⟨f, g, rfl, rfl⟩ := hU'
    have hcv : Parser.createVariables (.branch (some (coupleText x (str% "->"))) none X' Y' f g) =
        pure (.branch (some (coupleText x (str% "->"))) none X' Y' f g) := by
      simp only [Parser.createVariables, createVariables_plain sX.plain, createVariables_plain sY.plain, pure_bind]
    show Ends _ _ _
    rw [hcv]
    refine Ends.bind (Ends.tryCatch (Ends.pure ?_))
    show Ends _ _ _
    exact Context.call_asked A T di tX sX sY ⟨hc.snap, hc.delta, hc.bound, k2, n2⟩

end Zia

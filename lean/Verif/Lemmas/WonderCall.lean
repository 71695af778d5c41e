import Verif.Lemmas.Wonder

/-!
# How the question whether a word reduces to another one ends
-/

namespace Zia

open CM Spec Relation

set_option linter.unusedSectionVars false

variable [HashOrder] {s : Snap} {W : Stand s} {D : Nat → Prop}

/-- The text of the answer. -/
def JudgedText (s : Snap) (D : Nat → Prop) (t : Str) : Bool ⊕ (Nat × Nat) → Prop
  | .inl b => t = if b then str% "true" else str% "false"
  | .inr (p, q) => ∃ x y, D p ∧ D q ∧ PlainWord s p x ∧ PlainWord s q y ∧ t = claimText x y

/-- Which answer is given to the question whether `i` reduces to `j`. -/
def Wondered (s : Snap) (D : Nat → Prop) (i j : Nat) (t : Str) : Prop := ∃ v, Judgement s i j v ∧ JudgedText s D t v

theorem cctOfAst_spelt (T : Ties s D) {e : Env} (he : Good W e) {i : Nat} (hi : D i) {x : Str} {X : Syn}
    (hX : Spelt W i x X) {o : Option CCT} (h : Search.cctOfAst e X = .ok o) : o = none := by
  simp only [Search.cctOfAst, hX.plain.concept, View.cct, Except.bind_eq_ok, Except.pure_eq_ok] at h
  obtain ⟨m, hm, rfl⟩ := h
  obtain ⟨c, hc, M⟩ := he.read hm
  rw [M.cct]
  cases hx : c.cct with
  | none => rfl
  | some t => exact absurd ⟨c, hc, hx⟩ (T.foreign i t hi)

namespace Context

/-- The question is not one of the commands. -/
theorem pair_ends (A : Asked s D) (T : Ties s D) {n : Nat} : ∀ k,
    (∀ {i j : Nat} {x y : Str} {X Y : Syn} {c : Ctx}, D i → D j → Spelt (.rest s) i x X → ArrowTree s j y Y →
      Asking (.rest s) D c → Ends (callPair n k X Y) c (fun r c' => Asking (.rest s) D c' ∧
        r = .error .cannotReduceFurther)) ∧
    ∀ {i j : Nat} {x y : Str} {X Y : Syn} {c : Ctx}, D i → D j → Spelt (.rest s) i x X → ArrowTree s j y Y →
      Asking (.rest s) D c → Ends (reduceAndCallPair n k X Y) c (fun r c' => Asking (.rest s) D c' ∧
        r = .error .cannotReduceFurther) := by
  intro k
  induction k with
  | zero =>
    constructor
    · intros; unfold callPair; exact Ends.fault
    · intros; unfold reduceAndCallPair; exact Ends.fault
  | succ k ih =>
    constructor
    · intro i j x y X Y c hi hj hX hY hc
      unfold callPair
      refine Ends.bind (Ends.get ?_)
      refine Ends.bind (Ends.ofE fun o ho => ?_)
      cases cctOfAst_spelt T hc.good hi hX ho
      show Ends _ _ _
      refine Ends.bind (Ends.pure ?_)
      refine Ends.bind (Ends.get ?_)
      refine Ends.bind (Ends.ofE fun o ho => ?_)
      have : o = none := by
        simp only [Search.cctOfAst, Search.arrow_concept hY] at ho
        cases ho
        rfl
      subst this
      show Ends _ _ _
      rw [if_neg (by simp)]
      exact ih.2 hi hj hX hY hc
    · intro i j x y X Y c hi hj hX hY hc
      unfold reduceAndCallPair
      refine Ends.bind (Ends.searching fun lr ca1 h1 => ?_)
      obtain ⟨hl, k1, n1⟩ := Search.reduce_spelt A hc.good hi hX hc.kept hc.known h1
      have hc1 : Asking (.rest s) D { c with cache := ca1 } := ⟨hc.snap, hc.delta, hc.bound, k1, n1⟩
      refine Ends.bind (Ends.searching fun rr ca2 h2 => ?_)
      obtain ⟨hr, k2, n2⟩ := Search.reduce_arrow A T hc1.good hj hY k1 n1 h2
      have hc2 : Asking (.rest s) D { c with cache := ca2 } := ⟨hc.snap, hc.delta, hc.bound, k2, n2⟩
      show Ends _ _ _
      rcases hl with ⟨i', z, Z, why, hz, di, hZ, rfl⟩ | ⟨hno, rfl⟩
      · by_cases hj' : ∃ j', ReducesTo s j j'
        · obtain ⟨j', hj'⟩ := hj'
          obtain ⟨y', Y', why', rfl, hY'⟩ := hr.1 j' hj'
          exact ih.1 di (A.closed _ _ hj hj') hZ hY' hc2
        · cases hr.2 fun k hk => hj' ⟨k, hk⟩
          exact ih.1 di hj hZ hY hc2
      · by_cases hj' : ∃ j', ReducesTo s j j'
        · obtain ⟨j', hj'⟩ := hj'
          obtain ⟨y', Y', why', rfl, hY'⟩ := hr.1 j' hj'
          exact ih.1 hi (A.closed _ _ hj hj') hX hY' hc2
        · cases hr.2 fun k hk => hj' ⟨k, hk⟩
          exact Ends.throw ⟨hc2, rfl⟩

theorem truth_inert (T : Ties s D) {b : Bool} {t : Syn} (ht : TruthTree s b t) : Inert (.rest s) t := by
  have hm : (if b then CCT.tru else .fls) ∈ [CCT.tru, .fls] := by cases b <;> simp
  refine .word ht.plain (T.wide.constant _ hm) fun k d q hk hq => ?_
  obtain ⟨⟨l, r, h1, h2, h3⟩, h4⟩ := T.wide.truths _ hm k d hk
  rcases hq with rfl | hq
  · refine ⟨fun _ => ⟨_, _, h1⟩, fun l' r' h => ?_⟩
    obtain ⟨rfl, rfl⟩ := composedOf_unique h1 h
    exact ⟨h2, h3⟩
  · exact absurd (T.listed d q hq) (h4 q)

theorem call_truth (A : Asked s D) (T : Ties s D) {n k : Nat} {b : Bool} {t : Syn} (ht : TruthTree s b t) {c : Ctx}
    (hc : Asking (.rest s) D c) : Ends (call n k t) c (fun r c' => Asking (.rest s) D c' ∧
      r = .ok (if b then str% "true" else str% "false")) := by
  have hin := truth_inert T ht
  obtain ⟨wt, kt, rfl, hkt⟩ := id ht
  cases k with
  | zero => unfold call; exact Ends.fault
  | succ k =>
    unfold call
    unfold stringOf
    dsimp only [Syn.concept, Syn.expansion]
    refine Ends.bind (Ends.bind (Ends.reading fun m hm => ?_))
    obtain ⟨cw, hcw, M⟩ := hc.good.read (k := builtin (if b then .tru else .fls)) hm
    refine Ends.pure ?_
    have hstr : m.string = none := by
      rw [M.string]
      cases hx : cw.string with
      | none => rfl
      | some u => exact absurd ⟨cw, hcw, hx⟩ (wt.nostring u)
    show Ends (match m.string with | some s => _ | none => _) _ _
    rw [hstr]
    refine Ends.tryCatch ?_
    cases k with
    | zero => unfold tryReducing; exact Ends.fault
    | succ k =>
      unfold tryReducing
      refine Ends.bind (Ends.searching fun p ca h => ?_)
      obtain ⟨nf, why⟩ := p
      obtain ⟨rfl, rfl⟩ := Search.recReduce_truth T hc.good ht hc.known h
      show Ends (if _ then _ else _) _ _
      rw [if_pos rfl]
      refine Ends.bind (Ends.searching fun r ca2 h2 => ?_)
      have hcalm := Search.findInferred_calm (search_calm (W := .rest s) A.lone n) _ hc.good _ _ _ _ hc.kept h2
      obtain ⟨rfl, s2⟩ := leaves_inert A.lone (fun m _ => search_calm A.lone m) hc.good hin _ _ _ hc.kept h2
      show Ends (MonadExcept.throw _) _ _
      refine Ends.throw ?_
      show Ends (if _ then _ else _) _ _
      rw [if_pos rfl]
      refine Ends.ofE fun a ha => ?_
      cases ha
      exact ⟨⟨hc.snap, hc.delta, hc.bound, hcalm, s2.known hc.known⟩, rfl⟩

theorem claim_inert (A : Asked s D) (T : Ties s D) {i j : Nat} (hi : D i) (hj : D j) {x y : Str} {U : Syn}
    (hU : ClaimTree s i j x y U) : Inert (.rest s) U := by
  obtain ⟨X, Y, f, g, hX, ⟨O, Z, f', g', hO, hZ, rfl⟩, rfl⟩ := hU
  exact .pair hX.plain hO.plain hZ.plain (A.lone.words i hi).2.1 (A.lone.words j hj).2.1
    (A.lone.builtins .reduction (.inr rfl)).1
    (fun k hk => by cases T.right j (.inl hj) k _ hk) T.wide.flat

/-- How a question whether a word reduces to another one ends. -/
theorem call_claim (A : Asked s D) (T : Ties s D) {n : Nat} : ∀ k {i j : Nat} {x y : Str} {U : Syn} {c : Ctx},
    D i → D j → ClaimTree s i j x y U → Asking (.rest s) D c →
    Ends (call n k U) c (fun r c' => Asking (.rest s) D c' ∧ ∃ t, r = .ok t ∧ Wondered s D i j t) := by
  intro k
  induction k using Nat.strongRecOn with
  | _ k ih =>
  intro i j x y U c hi hj hU hc
  cases k with
  | zero => unfold call; exact Ends.fault
  | succ k =>
    have hin := claim_inert A T hi hj hU
    obtain ⟨X, Y, f, g, hX, hY, eU⟩ := id hU
    have wy : PlainWord s j y := by
      obtain ⟨_, _, _, _, _, hZ, _⟩ := hY
      exact hZ.1
    have hUc : U.concept = none := by rw [eU]; rfl
    have hUx : U.expansion = some (X, Y) := by rw [eU]; rfl
    have hUk : U.key = ⟨some (claimText x y), none⟩ := by rw [eU]; rfl
    unfold call
    unfold stringOf
    rw [hUc, hUx]
    refine Ends.bind (Ends.pure ?_)
    show Ends _ _ _
    refine Ends.tryCatch (((pair_ends A T k).1 hi hj hX hY hc).mono ?_)
    rintro _ c1 ⟨hc1, rfl⟩
    show Ends (if _ then _ else _) _ _
    rw [if_pos rfl]
    refine Ends.tryCatch ?_
    cases k with
    | zero => unfold tryReducing; exact Ends.fault
    | succ k =>
      unfold tryReducing
      refine Ends.bind (Ends.searching fun p ca h => ?_)
      obtain ⟨nf, why⟩ := p
      obtain ⟨⟨v, hv, ht⟩, k2, n2⟩ := Search.recReduce_claim A T hc1.good hi hj hU hc1.kept hc1.known h
      have hc2 : Asking (.rest s) D { c1 with cache := ca } := ⟨hc1.snap, hc1.delta, hc1.bound, k2, n2⟩
      show Ends (if _ then _ else _) _ _
      split
      · next e =>
        have hv' : v = .inr (i, j) := by
          rw [hUk] at e
          cases v with
          | inl b =>
            obtain ⟨_, _, rfl, _⟩ := ht
            cases (congrArg Key.concept e : some _ = none)
          | inr pq =>
            obtain ⟨p, q⟩ := pq
            obtain ⟨dp, dq, _, _, _, x', y', X', Y', _, _, hX', hY', rfl⟩ := ht
            have wy' : PlainWord s q y' := by
              obtain ⟨_, _, _, _, _, hZ, _⟩ := hY'
              exact hZ.1
            have e1 : claimText x' y' = claimText x y := Option.some.inj (congrArg Key.syn e)
            obtain ⟨rfl, e2⟩ := split_space (nospace_of (T.tidy.symbols _ _ dp hX'.1).1)
              (nospace_of (T.tidy.symbols _ _ hi hX.1).1) e1
            cases arrowText_inj e2
            cases T.tidy.distinct _ _ _ dp hi hX'.1 hX.1
            cases T.tidy.distinct _ _ _ dq hj wy' wy
            rfl
        subst hv'
        refine Ends.bind (Ends.searching fun r ca2 h2 => ?_)
        have hcalm := Search.findInferred_calm (search_calm (W := .rest s) A.lone n) _ hc2.good _ _ _ _ hc2.kept h2
        obtain ⟨rfl, s2⟩ := leaves_inert A.lone (fun m _ => search_calm A.lone m) hc2.good hin _ _ _ hc2.kept h2
        have hc3 : Asking (.rest s) D { c1 with cache := ca2 } :=
          ⟨hc1.snap, hc1.delta, hc1.bound, hcalm, s2.known n2⟩
        show Ends (MonadExcept.throw _) _ _
        refine Ends.throw ?_
        show Ends (if _ then _ else _) _ _
        rw [if_pos rfl]
        refine Ends.bind (Ends.searching fun t ca3 h3 => ?_)
        obtain ⟨⟨f', g', rfl⟩, k4, n4⟩ := Search.contractPair_claim A T hc3.good hi hX hY hc3.kept hc3.known h3
        show Ends _ _ _
        refine Ends.ofE fun a ha => ?_
        cases ha
        exact ⟨⟨hc1.snap, hc1.delta, hc1.bound, k4, n4⟩, _, rfl, _, hv, _, _, hi, hj, hX.1, wy, rfl⟩
      · unfold pinning
        refine Ends.bind (Ends.get ?_)
        refine Ends.bind (Ends.modify ?_)
        have hend : Ends (call n k nf) { c1 with cache := ca, pinned := true } (fun r c' => Asking (.rest s) D c' ∧
            ∃ t, r = .ok t ∧ Wondered s D i j t) := by
          have hc3 : Asking (.rest s) D { c1 with cache := ca, pinned := true } :=
            ⟨hc1.snap, hc1.delta, hc1.bound, k2, n2⟩
          cases v with
          | inl b =>
            refine (call_truth A T ht hc3).mono ?_
            rintro _ c' ⟨h1, rfl⟩
            exact ⟨h1, _, rfl, _, hv, rfl⟩
          | inr pq =>
            obtain ⟨p, q⟩ := pq
            obtain ⟨dp, dq, ne, np, nq, x', y', hU'⟩ := ht
            refine (ih k (by omega) dp dq hU' hc3).mono ?_
            rintro _ c' ⟨h1, t, rfl, v', hv', ht'⟩
            refine ⟨h1, t, rfl, _, hv, ?_⟩
            have : v' = .inr (p, q) := by
              cases hv' with
              | same => exact absurd rfl ne
              | leads _ r =>
                obtain ⟨k, hk, _⟩ := TransGen.head'_iff.1 r
                exact absurd hk (np k)
              | reverse _ r =>
                obtain ⟨k, hk, _⟩ := TransGen.head'_iff.1 r
                exact absurd hk (nq k)
              | stuck => rfl
              | moved _ _ _ m =>
                obtain ⟨k, hk | hk⟩ := m
                · exact absurd hk (np k)
                · exact absurd hk (nq k)
            subst this
            exact ht'
        refine Ends.bind (Ends.tryCatch (Ends.bind (hend.mono ?_)))
        rintro _ c' ⟨hc', t, rfl, hw⟩
        show Ends _ _ _
        refine Ends.pure ?_
        refine Ends.bind (Ends.modify ?_)
        refine Ends.ofR ⟨⟨hc'.snap, hc'.delta, hc'.bound, hc'.kept, hc'.known⟩, t, rfl, hw⟩

end Context

/-- The text of the question whether `x` reduces to `y`. -/
def wondering (x y : Str) : Str := x ++ str% " (-> " ++ y ++ str% ")"

theorem nest_wondering (kx ka ky : Kind) (x y : Str) (b c : Option Nat) :
    nest [⟨x, .concept kx⟩, ⟨[' '], .whitespace⟩, ⟨['('], .opening b⟩, ⟨str% "->", .concept ka⟩,
      ⟨[' '], .whitespace⟩, ⟨y, .concept ky⟩, ⟨[')'], .closing c⟩] =
    .ok ((NST.fromConceptKind kx x).appendNode ((NST.fromConceptKind ka (str% "->")).appendNode
        (NST.fromConceptKind ky y)).nest) := rfl

theorem lex_wondering {x y : Str} (hx : IsSymbol x) (hy : IsSymbol y) {kind : Str → Except Fault Kind}
    {ls : List Lexeme} (h : lex kind (wondering x y) = .ok ls) :
    ∃ kx ka ky b c, ls = [⟨x, .concept kx⟩, ⟨[' '], .whitespace⟩, ⟨['('], .opening b⟩, ⟨str% "->", .concept ka⟩,
      ⟨[' '], .whitespace⟩, ⟨y, .concept ky⟩, ⟨[')'], .closing c⟩] ∧
      kind x = .ok kx ∧ kind (str% "->") = .ok ka ∧ kind y = .ok ky := by
  obtain ⟨stack, I⟩ := lex_inv h
  have hsp : HasClass .space [' '] := ⟨by simp, by decide⟩
  have hred : HasClass .symbol (str% "->") := ⟨by decide, by simp [SymbolChar]; decide⟩
  have hcan : Canonical [(.symbol, x), (.space, [' ']), (.opening, ['(']), (.symbol, str% "->"), (.space, [' ']),
      (.symbol, y), (.closing, [')'])] :=
    ⟨hx, by decide, hsp, by decide, rfl, by decide, hred, by decide, hsp, by decide, hy, by decide, rfl⟩
  have hs := canonical_unique _ _ I.canonical hcan (by
    have := I.text
    simp only [textOf, segments, List.map_map]
    rw [show ((fun x : Cls × Str => x.2) ∘ fun l : Lexeme => (clsOf l.category, l.text)) = (·.text) from rfl, this]
    simp [wondering])
  simp only [segments, List.map_eq_cons_iff, List.map_eq_nil_iff, Prod.mk.injEq] at hs
  obtain ⟨⟨t4, k4⟩, _, rfl, ⟨c4, rfl⟩, ⟨t5, k5⟩, _, rfl, ⟨c5, rfl⟩, ⟨t6, k6⟩, _, rfl, ⟨c6, rfl⟩,
    ⟨t7, k7⟩, _, rfl, ⟨c7, rfl⟩, ⟨t8, k8⟩, _, rfl, ⟨c8, rfl⟩, ⟨t9, k9⟩, _, rfl, ⟨c9, rfl⟩,
    ⟨t10, k10⟩, _, rfl, ⟨c10, rfl⟩, rfl⟩ := hs
  have hw := fun l hl => (I.wf l hl).2
  clear I hcan h
  obtain ⟨k4, rfl⟩ : ∃ k, k4 = .concept k := by cases k4 <;> simp_all [clsOf]
  obtain ⟨k7, rfl⟩ : ∃ k, k7 = .concept k := by cases k7 <;> simp_all [clsOf]
  obtain ⟨k9, rfl⟩ : ∃ k, k9 = .concept k := by cases k9 <;> simp_all [clsOf]
  obtain rfl : k5 = .whitespace := by cases k5 <;> simp_all [clsOf]
  obtain rfl : k8 = .whitespace := by cases k8 <;> simp_all [clsOf]
  obtain ⟨b, rfl⟩ : ∃ k, k6 = .opening k := by cases k6 <;> simp_all [clsOf]
  obtain ⟨c, rfl⟩ : ∃ k, k10 = .closing k := by cases k10 <;> simp_all [clsOf]
  exact ⟨k4, k7, k9, b, c, rfl, hw ⟨t4, .concept k4⟩ (by simp) _ rfl, hw ⟨str% "->", .concept k7⟩ (by simp) _ rfl,
    hw ⟨t9, .concept k9⟩ (by simp) _ rfl⟩

/-- How reading `x (-> y)` ends for known words. -/
theorem parse_wondering (A : Asked s D) (T : Ties s D) {n : Nat} {x y : Str} (hx : IsSymbol x) (hy : IsSymbol y)
    (vx : Syn.isVariableName x = false) (vy : Syn.isVariableName y = false)
    {c : Ctx} (hc : Asking (.rest s) D c) {i j : Nat} (dj : D j)
    (ha : (View.mk c.snap c.delta).conceptFromLabel n (str% "->") = .ok (some (.com (builtin .reduction))))
    (hi : (View.mk c.snap c.delta).conceptFromLabel n x = .ok (some (.com i)))
    (hj : (View.mk c.snap c.delta).conceptFromLabel n y = .ok (some (.com j))) :
    Ends (Parser.astFromExpression n (wondering x y)) c (fun r c' => Asking (.rest s) D c' ∧
      ∃ X V Y u f g, Plain ((Stand.rest s).ι i) X ∧ Plain ((Stand.rest s).ι (builtin .reduction)) V ∧
        Plain ((Stand.rest s).ι j) Y ∧ r = .ok (.newPair X (.branch u none V Y f g))) := by
  unfold Parser.astFromExpression
  refine Ends.bind (Ends.reading fun ls hls => ?_)
  obtain ⟨kx, ka, ky, b, cc, rfl, h2, h3, h4⟩ := lex_wondering hx hy hls
  obtain ⟨X, pX, eX⟩ := leafOf_known hx vx hi h2
  obtain ⟨V, pV, eV⟩ := leafOf_known ⟨by decide, by simp [SymbolChar]; decide⟩ (by decide) ha h3
  obtain ⟨Y, pY, eY⟩ := leafOf_known hy vy hj h4
  show Ends _ _ _
  rw [nest_wondering]
  refine Ends.bind (Ends.ofR ?_)
  show Ends _ _ _
  have e : Parser.syntaxList n ((NST.fromConceptKind kx x).appendNode ((NST.fromConceptKind ka (str% "->")).appendNode
        (NST.fromConceptKind ky y)).nest) = (do
      let R ← Parser.astFromPair n V Y
      return [X, R]) := by
    rw [appended]
    simp only [Parser.syntaxList, Parser.astsFromNested, nested_nest_eq, appended, nested_pair_eq, nested_leaf, eX,
      eV, eY, bind_assoc, pure_bind]
  rw [e]
  refine Ends.bind (Ends.bind (astFromPair_known pV fun t2 ca2 z2 => ?_))
  obtain ⟨u2, rfl⟩ := Search.combine_unstored (unstored_of (W := .rest s) A T hc.good dj pV pY) z2
  cases Search.combine_words pV pY z2
  refine Ends.pure ?_
  exact Ends.pure ⟨⟨hc.snap, hc.delta, hc.bound, hc.kept, hc.known⟩, X, V, Y, _, _, _, pX, pV, pY, rfl⟩

/-- A text that is read as the question whether the word of `i` reduces to the word of `j`. -/
def AsksWhether (s : Snap) (D : Nat → Prop) (n : Nat) (u : Str) (i j : Nat) (c : Ctx) : Prop :=
  Ends (Parser.astFromExpression n u) c (fun r c' => Asking (.rest s) D c' ∧
    ∃ X V Y u1 u2 f1 g1 f2 g2, Plain ((Stand.rest s).ι i) X ∧ Plain ((Stand.rest s).ι (builtin .reduction)) V ∧
      Plain ((Stand.rest s).ι j) Y ∧ r = .ok (.branch u1 none X (.branch u2 none V Y f2 g2) f1 g1))

theorem asksWhether_wondering (A : Asked s D) (T : Ties s D) {n : Nat} {x y : Str} (hx : IsSymbol x) (hy : IsSymbol y)
    (vx : Syn.isVariableName x = false) (vy : Syn.isVariableName y = false)
    {c : Ctx} (hc : Asking (.rest s) D c) {i j : Nat} (dj : D j)
    (ha : (View.mk c.snap c.delta).conceptFromLabel n (str% "->") = .ok (some (.com (builtin .reduction))))
    (hi : (View.mk c.snap c.delta).conceptFromLabel n x = .ok (some (.com i)))
    (hj : (View.mk c.snap c.delta).conceptFromLabel n y = .ok (some (.com j))) :
    AsksWhether s D n (wondering x y) i j c :=
  (parse_wondering A T hx hy vx vy hc dj ha hi hj).mono
    fun _ _ ⟨h1, X, V, Y, u, f, g, pX, pV, pY, e⟩ => ⟨h1, X, V, Y, _, u, _, _, f, g, pX, pV, pY, e⟩

/-- How the question whether a word reduces to another one ends, given how it is read. -/
theorem wonder_read (A : Asked s D) (T : Ties s D) {n : Nat} {w : Str} {c : Ctx} {i j : Nat} (di : D i) (dj : D j)
    (hp : AsksWhether s D n w i j c) :
    Ends (Context.command n w) c (fun r c' => Asking (.rest s) D c' ∧
      ∃ t, r = .ok t ∧ Wondered s D i j t) := by
  unfold Context.command
  refine Ends.bind (hp.mono ?_)
  rintro _ c2 ⟨hc, X, V, Y, u1, u, f1, g1, f, g, pX, pV, pY, rfl⟩
  show Ends _ _ _
  refine Ends.bind (Ends.searching fun U ca hU => ?_)
  obtain ⟨a, wa⟩ := A.word i di
  obtain ⟨b, wb⟩ := A.word j dj
  obtain ⟨hU, k1, n1⟩ : ClaimTree s i j a b U ∧ Kept (.rest s) D ca ∧ Known (.rest s) D ca := by
    cases n with
    | zero => cases hU
    | succ n =>
      obtain ⟨X', R, ca1, ca2, h1, h2, h3⟩ := Search.expand_pair rfl rfl hU
      obtain ⟨tX, k1, n1⟩ := Search.expand_word A hc.good di pX hc.kept hc.known h1
      cases n with
      | zero => cases h1
      | succ n =>
        obtain ⟨V', Y', ca3, ca4, h4, h5, h6⟩ := Search.expand_pair rfl rfl h2
        have hred := A.lone.builtins .reduction (.inr rfl)
        obtain ⟨tV, k3, n3⟩ := Search.expand_simple A hc.good hred.2 pV k1 n1 h4
        obtain ⟨tY, k4, n4⟩ := Search.expand_word A hc.good dj pY k3 n3 h5
        have sX := tX.spelt wa (A.lone.words i di).2.1
        have sV := tV.spelt (T.wide.names (.reduction, str% "->") (by simp [spoken])) hred.1
        have sY := tY.spelt wb (A.lone.words j dj).2.1
        have un := unstored_of (W := .rest s) A T hc.good dj sV.plain sY.plain
        obtain ⟨_, kv, rfl, _⟩ := id sV
        obtain ⟨_, ky, rfl, _⟩ := id sY
        obtain ⟨⟨f', g', rfl⟩, rfl⟩ := Search.combine_spells un h6
        exact Search.combine_claim A T hc.good di sX ⟨_, _, _, _, sV, sY, rfl⟩ k4 n4 h3
  have hcv : Parser.createVariables U = pure U := by
    obtain ⟨X', R, f1, g1, sX, ⟨O, Z, f2, g2, sO, sZ, rfl⟩, rfl⟩ := hU
    simp only [Parser.createVariables, createVariables_plain sX.plain, createVariables_plain sO.plain,
      createVariables_plain sZ.plain, pure_bind]
  show Ends _ _ _
  rw [hcv]
  refine Ends.bind (Ends.tryCatch (Ends.pure ?_))
  show Ends _ _ _
  exact Context.call_claim A T n di dj hU ⟨hc.snap, hc.delta, hc.bound, k1, n1⟩

/-- How the question whether a word reduces to another one ends. -/
theorem wonder_word (A : Asked s D) (T : Ties s D) {n : Nat} {x y : Str} (hx : IsSymbol x) (hy : IsSymbol y)
    (vx : Syn.isVariableName x = false) (vy : Syn.isVariableName y = false)
    {c : Ctx} (hc : Asking (.rest s) D c) {i j : Nat} (di : D i) (dj : D j)
    (ha : (View.mk c.snap c.delta).conceptFromLabel n (str% "->") = .ok (some (.com (builtin .reduction))))
    (hi : (View.mk c.snap c.delta).conceptFromLabel n x = .ok (some (.com i)))
    (hj : (View.mk c.snap c.delta).conceptFromLabel n y = .ok (some (.com j))) :
    Ends (Context.command n (wondering x y)) c (fun r c' => Asking (.rest s) D c' ∧
      ∃ t, r = .ok t ∧ Wondered s D i j t) :=
  wonder_read A T di dj (asksWhether_wondering A T hx hy vx vy hc dj ha hi hj)

/-- What the question whether a word reduces to another one answers and leaves. -/
theorem wonder_execute (A : Asked s D) (T : Ties s D) (hp : s.prev = []) {n : Nat} {x y r : Str} (hx : IsSymbol x)
    (hy : IsSymbol y) (vx : Syn.isVariableName x = false) (vy : Syn.isVariableName y = false) {c c' : Ctx}
    (hc : Asking (.rest s) D c) {i j : Nat} (di : D i) (dj : D j)
    (ha : (View.mk s Nested.default).conceptFromLabel n (str% "->") = .ok (some (.com (builtin .reduction))))
    (hi : (View.mk s Nested.default).conceptFromLabel n x = .ok (some (.com i)))
    (hj : (View.mk s Nested.default).conceptFromLabel n y = .ok (some (.com j)))
    (he : Context.execute n c (wondering x y) = .ok (r, c')) : Asking (.rest s) D c' ∧ Wondered s D i j r := by
  have e : View.mk c.snap c.delta = View.mk s Nested.default := by rw [hc.snap, hc.delta]; rfl
  rw [← e] at ha hi hj
  simp only [Context.execute, Context.commit, Except.bind_eq_ok, Except.pure_eq_ok] at he
  obtain ⟨⟨q, c3⟩, h4, c4, ⟨s4, h5, rfl⟩, h6⟩ := he
  obtain ⟨a, t, rfl, ht⟩ := wonder_word A T hx hy vx vy hc di dj ha hi hj q c3 h4
  cases h6
  rw [a.snap, a.delta] at h5
  have := apply_nothing hp h5
  subst this
  exact ⟨⟨rfl, rfl, rfl, a.kept, a.known⟩, ht⟩

end Zia

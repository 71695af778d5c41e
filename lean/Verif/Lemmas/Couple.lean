import Verif.Lemmas.WonderCall

/-!
# Questions about two words
-/

namespace Zia

open CM Spec Relation

set_option linter.unusedSectionVars false

variable [HashOrder] {s : Snap} {W : Stand s} {D : Nat → Prop}

/-- There is no composition of two words. -/
theorem couple_unstored (A : Asked s D) {e : Env} (he : Good W e) {i j : Nat} (hi : D i) {X Y : Syn}
    (pX : Plain (W.ι i) X) (pY : Plain (W.ι j) Y) :
    ∀ a b m, X.concept = some a → Y.concept = some b → e.view.read a = .ok m → m.findAsHand b .left = none := by
  intro a b m ha hb hm
  rw [pX.concept] at ha
  rw [pY.concept] at hb
  cases ha
  cases hb
  obtain ⟨c, hc, M⟩ := he.read (W := W) (k := i) hm
  have hf := M.find j .left
  cases hx : c.findAsHand j .left with
  | none => rw [hx] at hf; exact hf
  | some q =>
    obtain ⟨cq, h1, h2⟩ := (A.lone.rev _ c j q hc).1 hx
    exact absurd ⟨cq, h1, by rw [composition_eq]; exact h2⟩ ((A.lone.words i hi).2.2 q j)

namespace Search

theorem contractPair_couple (A : Asked s D) {n : Nat} {e : Env} (he : Good W e) {i j : Nat}
    (hi : D i) {x y : Str} {X Y t : Syn} (hX : Spelt W i x X) (hY : Spelt W j y Y) {ca ca' : Cache}
    (h : (search n).contractPair e X Y ca = .ok (t, ca')) : CoupleTree W i j x y t ∧ ca' = ca := by
  have un := couple_unstored A he hi hX.plain hY.plain
  obtain ⟨wx, kx, eX, _⟩ := id hX
  obtain ⟨wy, ky, eY, _⟩ := id hY
  subst eX eY
  obtain ⟨⟨f, g, rfl⟩, rfl⟩ := contractPair_spells (fun a b m ha hb => un a b m ha hb) h
  exact ⟨⟨_, _, f, g, hX, hY, rfl⟩, rfl⟩

theorem combine_couple (A : Asked s D) {n : Nat} {e : Env} (he : Good W e) {i j : Nat}
    (hi : D i) {x y : Str} {X Y t : Syn} (hX : Spelt W i x X) (hY : Spelt W j y Y) {ca ca' : Cache}
    (h : (search n).combine e X Y ca = .ok (t, ca')) : CoupleTree W i j x y t ∧ ca' = ca := by
  have un := couple_unstored A he hi hX.plain hY.plain
  obtain ⟨wx, kx, eX, _⟩ := id hX
  obtain ⟨wy, ky, eY, _⟩ := id hY
  subst eX eY
  obtain ⟨⟨f, g, rfl⟩, rfl⟩ := combine_spells (fun a b m ha hb => un a b m ha hb) h
  exact ⟨⟨_, _, f, g, hX, hY, rfl⟩, rfl⟩

/-- One step of the reduction of `x y`. -/
theorem reduce_couple (A : Asked s D) (T : Ties s D) {n : Nat} {e : Env} (he : Good (.rest s) e) {i j : Nat} (hi : D i)
    (hj : D j) {x y : Str} {U : Syn} (hU : CoupleTree (.rest s) i j x y U) {ca ca' : Cache} {r : RR} (hk : Kept (.rest s) D ca)
    (hn : Known (.rest s) D ca) (h : (search n).reduce e U ca = .ok (r, ca')) :
    RightCouple s i j r ∧ Kept (.rest s) D ca' ∧ Known (.rest s) D ca' := by
  suffices hs : RightCouple s i j r ∧ Known (.rest s) D ca' from
    ⟨hs.1, (search_calm (W := .rest s) A.lone n).reduce _ _ he _ _ _ hk h, hs.2⟩
  obtain ⟨X, Y, f, g, hX, hY, rfl⟩ := hU
  have pX := hX.plain
  have pY := hY.plain
  cases n with
  | zero => cases h
  | succ n =>
    have h : (search n).reduceF e (.branch (some (coupleText x y)) none X Y f g) ca = .ok (r, ca') := h
    unfold reduceF at h
    obtain ⟨ca0, _, h0, h⟩ := SM.bind_ok.1 h
    cases h0
    cases hx : ca.reduction? (.branch (some (coupleText x y)) none X Y f g) with
    | some x =>
      rw [hx] at h
      cases h
      exact ⟨Noted.ofCouple T.tidy hi hj hX.1 hY.1 (hn.noted rfl rfl hx), hn⟩
    | none =>
      rw [hx] at h
      obtain ⟨o, _, h1, h⟩ := SM.bind_ok.1 h
      cases h1
      obtain ⟨r1, ca1, h1, h⟩ := SM.bind_ok.1 h
      obtain ⟨_, ca2, h2, h⟩ := SM.bind_ok.1 h
      cases h2
      cases h
      suffices hh : RightCouple s i j r ∧ Known (.rest s) D ca1 from
        ⟨hh.1, hh.2.insert_other rfl rfl (.couple hi hj hX.1 hY.1 hh.1)⟩
      unfold reduceNow at h1
      dsimp only [Syn.concept, Syn.expansion] at h1
      simp only [pure_bind] at h1
      unfold reducePair at h1
      have xX : X.expansion = none := by
        obtain ⟨_, _, rfl, _⟩ := hX
        rfl
      have xY : Y.expansion = none := by
        obtain ⟨_, _, rfl, _⟩ := hY
        rfl
      rw [xY, xX] at h1
      simp only [pure_bind] at h1
      unfold recursivelyReducePair at h1
      obtain ⟨lr, ca4, h5, h1'⟩ := SM.bind_ok.1 h1
      clear h1
      obtain ⟨hl, k4, n4⟩ := reduce_spelt A he hi hX hk hn h5
      obtain ⟨rr, ca5, h6, h1⟩ := SM.bind_ok.1 h1'
      clear h1'
      obtain ⟨hr, k5, n5⟩ := reduce_spelt A he hj hY k4 n4 h6
      have mX := unmasked he (A.lone.words i hi).2.1
      have mY := unmasked he (A.lone.words j hj).2.1
      rcases hl with ⟨k, z, Z, why, hz, dk, hZ, rfl⟩ | ⟨hno, rfl⟩
      · rcases hr with ⟨k', z', Z', why', hz', dk', hZ', rfl⟩ | ⟨hno', rfl⟩
        · dsimp only at h1
          obtain ⟨t, ca6, h7, h1⟩ := SM.bind_ok.1 h1
          cases h1
          obtain ⟨ht, rfl⟩ := contractPair_couple A he dk hZ hZ' h7
          exact ⟨.moved ⟨k, .inl hz⟩ (.inl hz) (.inl hz') ht, n5⟩
        · dsimp only at h1
          obtain ⟨t, ca6, h7, h1⟩ := SM.bind_ok.1 h1
          cases h1
          rw [pY.concept, Option.bind_some, mY] at h7
          have h7 : (search n).contractPair e Z Y ca5 = .ok (t, ca1) := h7
          obtain ⟨ht, rfl⟩ := contractPair_couple A he dk hZ hY h7
          exact ⟨.moved ⟨k, .inl hz⟩ (.inl hz) (.inr ⟨rfl, hno'⟩) ht, n5⟩
      · rcases hr with ⟨k', z', Z', why', hz', dk', hZ', rfl⟩ | ⟨hno', rfl⟩
        · dsimp only at h1
          obtain ⟨t, ca6, h7, h1⟩ := SM.bind_ok.1 h1
          cases h1
          rw [pX.concept, Option.bind_some, mX] at h7
          have h7 : (search n).contractPair e X Z' ca5 = .ok (t, ca1) := h7
          obtain ⟨ht, rfl⟩ := contractPair_couple A he hi hX hZ' h7
          exact ⟨.moved ⟨k', .inr hz'⟩ (.inr ⟨rfl, hno⟩) (.inl hz') ht, n5⟩
        · dsimp only at h1
          obtain ⟨t, ca6, h7, h9⟩ := SM.bind_ok.1 h1
          clear h1
          obtain ⟨⟨_, _, f1, g1, hX', hY', rfl⟩, rfl⟩ := contractPair_couple A he hi hX hY h7
          obtain ⟨gs, _, h8, h10⟩ := SM.bind_ok.1 h9
          clear h9
          obtain ⟨h8', rfl⟩ := SM.lift_ok.1 h8
          obtain ⟨rfl, rfl⟩ := genLoop_none (fun k hk o ho => by
            obtain ⟨q, rfl, hq⟩ := findGeneralisations_words he A.lone T hX'.plain hY'.plain h8' k
              (HashOrder.mem_order.1 hk)
            rcases hq with ⟨z, hq⟩ | ⟨z, hq⟩
            · exact absurd hq ((A.lone.words i hi).2.2 q z)
            · cases T.right j (.inl hj) q z hq
              exact checkGeneralisation_fixed he hq T.label (A.lone.words j hj).2.1 (by
                rw [hX'.plain.concept]
                intro e
                have e : i = builtin .label := (Stand.rest s).inj _ _ (Option.some.inj e)
                exact T.foreign i .label hi (e ▸ T.built .label)) ho) h10
          exact ⟨.stuck hno hno', n5⟩

/-- What repeated reduction of `x y` ends with. -/
theorem recReduce_couple (A : Asked s D) (T : Ties s D) {n : Nat} {e : Env} (he : Good (.rest s) e) {i j : Nat}
    (hi : D i) (hj : D j) {x y : Str} {U : Syn} (hU : CoupleTree (.rest s) i j x y U) {ca ca' : Cache} {why why' : Option Reason}
    {nf : Syn} (hk : Kept (.rest s) D ca) (hn : Known (.rest s) D ca)
    (h : (search n).recReduce e U why ca = .ok ((nf, why'), ca')) :
    (∃ p q a b, ReflTransGen (ReducesTo s) i p ∧ ReflTransGen (ReducesTo s) j q ∧ (∀ k, ¬ReducesTo s p k) ∧
      (∀ k, ¬ReducesTo s q k) ∧ D p ∧ D q ∧ CoupleTree (.rest s) p q a b nf) ∧
      Kept (.rest s) D ca' ∧ Known (.rest s) D ca' := by
  have next : ∀ {i i'}, Next s i i' → ReflTransGen (ReducesTo s) i i' := by
    rintro i i' (h | ⟨rfl, _⟩)
    exacts [.single h, .refl]
  induction n generalizing i j x y U ca why with
  | zero => cases h
  | succ n ih =>
    have h : (search n).recReduceF e U why ca = .ok ((nf, why'), ca') := h
    unfold recReduceF at h
    obtain ⟨r, ca1, h1, h⟩ := SM.bind_ok.1 h
    obtain ⟨hr, k1, n1⟩ := reduce_couple A T he hi hj hU hk hn h1
    cases hr with
    | stuck h2 h3 =>
      cases h
      exact ⟨⟨i, j, _, _, .refl, .refl, h2, h3, hi, hj, hU⟩, k1, n1⟩
    | moved m h2 h3 ht =>
      obtain ⟨⟨p, q, a, b, g1, g2, g3⟩, k2, n2⟩ := ih (h2.word A hi) (h3.word A hj) ht k1 n1 h
      exact ⟨⟨p, q, a, b, (next h2).trans g1, (next h3).trans g2, g3⟩, k2, n2⟩

end Search

/-- Which answer is given to the question about two words. -/
def Coupled (s : Snap) (D : Nat → Prop) (i j : Nat) (t : Str) : Prop :=
  ∃ p q a b, ReflTransGen (ReducesTo s) i p ∧ ReflTransGen (ReducesTo s) j q ∧ (∀ k, ¬ReducesTo s p k) ∧
    (∀ k, ¬ReducesTo s q k) ∧ D p ∧ D q ∧ PlainWord s p a ∧ PlainWord s q b ∧ t = coupleText a b

namespace Context

/-- The question is not one of the commands. -/
theorem couple_ends (A : Asked s D) (T : Ties s D) {n : Nat} : ∀ k,
    (∀ {i j : Nat} {x y : Str} {X Y : Syn} {c : Ctx}, D i → D j → Spelt (.rest s) i x X → Spelt (.rest s) j y Y →
      Asking (.rest s) D c → Ends (callPair n k X Y) c (fun r c' => Asking (.rest s) D c' ∧
        r = .error .cannotReduceFurther)) ∧
    ∀ {i j : Nat} {x y : Str} {X Y : Syn} {c : Ctx}, D i → D j → Spelt (.rest s) i x X → Spelt (.rest s) j y Y →
      Asking (.rest s) D c → Ends (reduceAndCallPair n k X Y) c (fun r c' => Asking (.rest s) D c' ∧
        r = .error .cannotReduceFurther) := by
  intro k
  induction k with
  | zero =>
    constructor
    · intros; unfold callPair; exact Ends.fault
    · intros; unfold reduceAndCallPair; exact Ends.fault
  | succ k ih =>
    constructor
    · intro i j x y X Y c hi hj hX hY hc
      unfold callPair
      refine Ends.bind (Ends.get ?_)
      refine Ends.bind (Ends.ofE fun o ho => ?_)
      cases cctOfAst_spelt T hc.good hi hX ho
      show Ends _ _ _
      refine Ends.bind (Ends.pure ?_)
      refine Ends.bind (Ends.get ?_)
      refine Ends.bind (Ends.ofE fun o ho => ?_)
      cases cctOfAst_spelt T hc.good hj hY ho
      show Ends _ _ _
      rw [if_neg (by simp)]
      exact ih.2 hi hj hX hY hc
    · intro i j x y X Y c hi hj hX hY hc
      unfold reduceAndCallPair
      refine Ends.bind (Ends.searching fun lr ca1 h1 => ?_)
      obtain ⟨hl, k1, n1⟩ := Search.reduce_spelt A hc.good hi hX hc.kept hc.known h1
      have hc1 : Asking (.rest s) D { c with cache := ca1 } := ⟨hc.snap, hc.delta, hc.bound, k1, n1⟩
      refine Ends.bind (Ends.searching fun rr ca2 h2 => ?_)
      obtain ⟨hr, k2, n2⟩ := Search.reduce_spelt A hc1.good hj hY k1 n1 h2
      have hc2 : Asking (.rest s) D { c with cache := ca2 } := ⟨hc.snap, hc.delta, hc.bound, k2, n2⟩
      show Ends _ _ _
      rcases hl with ⟨i', z, Z, why, hz, di, hZ, rfl⟩ | ⟨hno, rfl⟩
      · rcases hr with ⟨j', z', Z', why', hz', dj, hZ', rfl⟩ | ⟨hno', rfl⟩
        · exact ih.1 di dj hZ hZ' hc2
        · exact ih.1 di hj hZ hY hc2
      · rcases hr with ⟨j', z', Z', why', hz', dj, hZ', rfl⟩ | ⟨hno', rfl⟩
        · exact ih.1 hi dj hX hZ' hc2
        · exact Ends.throw ⟨hc2, rfl⟩

theorem couple_inert (A : Asked s D) (T : Ties s D) {i j : Nat} (hi : D i) (hj : D j) {x y : Str} {U : Syn}
    (hU : CoupleTree (.rest s) i j x y U) : Inert (.rest s) U := by
  obtain ⟨X, Y, f, g, hX, hY, rfl⟩ := hU
  exact .couple hX.plain hY.plain (A.lone.words i hi).2.1 (A.lone.words j hj).2.1
    (fun k => (A.lone.words i hi).2.2 k j) T.wide.flat

/-- How a question about two words ends. -/
theorem call_couple (A : Asked s D) (T : Ties s D) {n : Nat} : ∀ k {i j : Nat} {x y : Str} {U : Syn} {c : Ctx},
    D i → D j → CoupleTree (.rest s) i j x y U → Asking (.rest s) D c →
    Ends (call n k U) c (fun r c' => Asking (.rest s) D c' ∧ ∃ t, r = .ok t ∧ Coupled s D i j t) := by
  intro k
  induction k using Nat.strongRecOn with
  | _ k ih =>
  intro i j x y U c hi hj hU hc
  cases k with
  | zero => unfold call; exact Ends.fault
  | succ k =>
    have hin := couple_inert A T hi hj hU
    obtain ⟨X, Y, f, g, hX, hY, eU⟩ := id hU
    have hUc : U.concept = none := by rw [eU]; rfl
    have hUx : U.expansion = some (X, Y) := by rw [eU]; rfl
    have hUk : U.key = ⟨some (coupleText x y), none⟩ := by rw [eU]; rfl
    unfold call
    unfold stringOf
    rw [hUc, hUx]
    refine Ends.bind (Ends.pure ?_)
    show Ends _ _ _
    refine Ends.tryCatch (((couple_ends A T k).1 hi hj hX hY hc).mono ?_)
    rintro _ c1 ⟨hc1, rfl⟩
    show Ends (if _ then _ else _) _ _
    rw [if_pos rfl]
    refine Ends.tryCatch ?_
    cases k with
    | zero => unfold tryReducing; exact Ends.fault
    | succ k =>
      unfold tryReducing
      refine Ends.bind (Ends.searching fun p ca h => ?_)
      obtain ⟨nf, why⟩ := p
      obtain ⟨⟨p, q, a, b, r1, r2, e1, e2, dp, dq, ht⟩, k2, n2⟩ :=
        Search.recReduce_couple A T hc1.good hi hj hU hc1.kept hc1.known h
      have hc2 : Asking (.rest s) D { c1 with cache := ca } := ⟨hc1.snap, hc1.delta, hc1.bound, k2, n2⟩
      show Ends (if _ then _ else _) _ _
      split
      · next e =>
        obtain ⟨rfl, rfl⟩ : p = i ∧ q = j := by
          rw [hUk] at e
          obtain ⟨X', Y', _, _, hX', hY', rfl⟩ := ht
          have e1 : coupleText a b = coupleText x y := Option.some.inj (congrArg Key.syn e)
          obtain ⟨rfl, rfl⟩ := split_space (nospace_of (T.tidy.symbols _ _ dp hX'.1).1)
            (nospace_of (T.tidy.symbols _ _ hi hX.1).1) e1
          exact ⟨T.tidy.distinct _ _ _ dp hi hX'.1 hX.1, T.tidy.distinct _ _ _ dq hj hY'.1 hY.1⟩
        refine Ends.bind (Ends.searching fun r ca2 h2 => ?_)
        have hcalm := Search.findInferred_calm (search_calm (W := .rest s) A.lone n) _ hc2.good _ _ _ _ hc2.kept h2
        obtain ⟨rfl, s2⟩ := leaves_inert A.lone (fun m _ => search_calm A.lone m) hc2.good hin _ _ _ hc2.kept h2
        have hc3 : Asking (.rest s) D { c1 with cache := ca2 } :=
          ⟨hc1.snap, hc1.delta, hc1.bound, hcalm, s2.known n2⟩
        show Ends (MonadExcept.throw _) _ _
        refine Ends.throw ?_
        show Ends (if _ then _ else _) _ _
        rw [if_pos rfl]
        refine Ends.bind (Ends.searching fun t ca3 h3 => ?_)
        obtain ⟨⟨_, _, f', g', _, _, rfl⟩, rfl⟩ := Search.contractPair_couple A hc3.good hi hX hY h3
        show Ends _ _ _
        refine Ends.ofE fun a ha => ?_
        cases ha
        exact ⟨hc3, _, rfl, _, _, _, _, r1, r2, e1, e2, hi, hj, hX.1, hY.1, rfl⟩
      · unfold pinning
        refine Ends.bind (Ends.get ?_)
        refine Ends.bind (Ends.modify ?_)
        have hend : Ends (call n k nf) { c1 with cache := ca, pinned := true } (fun r c' => Asking (.rest s) D c' ∧
            ∃ t, r = .ok t ∧ Coupled s D i j t) := by
          have hc3 : Asking (.rest s) D { c1 with cache := ca, pinned := true } :=
            ⟨hc1.snap, hc1.delta, hc1.bound, k2, n2⟩
          refine (ih k (by omega) dp dq ht hc3).mono ?_
          rintro _ c' ⟨h1, t, rfl, p', q', a', b', r3, r4, h2⟩
          exact ⟨h1, t, rfl, p', q', a', b', r1.trans r3, r2.trans r4, h2⟩
        refine Ends.bind (Ends.tryCatch (Ends.bind (hend.mono ?_)))
        rintro _ c' ⟨hc', t, rfl, hw⟩
        show Ends _ _ _
        refine Ends.pure ?_
        refine Ends.bind (Ends.modify ?_)
        refine Ends.ofR ⟨⟨hc'.snap, hc'.delta, hc'.bound, hc'.kept, hc'.known⟩, t, rfl, hw⟩

end Context

end Zia

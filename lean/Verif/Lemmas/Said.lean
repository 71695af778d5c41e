import Verif.Lemmas.LearnStore
import Verif.Lemmas.Teach
import Verif.Lemmas.Quiet
import Verif.Spec.Accepted

/-!
# The concept of a tree that is said

What `concept_from_ast` finds or makes for the parts of a tree, before and after the commit.
-/

namespace Zia

open CM Spec

set_option linter.unusedSectionVars false

/-! ## What a concept is the left part of -/

/-- Effect of a recorded change on what a concept is the left part of. -/
def leftEff (f : CId → Option CId) : CDelta → CId → Option CId
  | .indirect (.lefthandOf c r), y => if r = y then some c else f y
  | .indirect (.noLongerLefthandOf r), y => if r = y then none else f y
  | _, y => f y

theorem readStep_left {a : CId} {m m' : Mixed} {e : CDelta} (h : View.readStep a (some m) e = .ok (some m'))
    (y : CId) : m'.findAsHand y .left = leftEff (fun y => m.findAsHand y .left) e y := by
  cases e with
  | direct dd =>
    cases dd with
    | new nd => simp [View.readStep] at h
    | compose c ch => simp [View.readStep] at h
    | remove x =>
      simp only [View.readStep] at h
      split at h <;> cases h
    | reduce u ch =>
      simp only [View.readStep, orPanic] at h
      split at h
      · simp only [Except.bind_eq_ok, Except.pure_eq_ok] at h
        obtain ⟨m0, e0, m1, h1, h2⟩ := h
        cases e0
        cases h2
        cases m with
        | prev c l r f u' red => cases ch <;> (cases h1; rfl)
        | unc c =>
          simp only [Mixed.changeReduction, Except.bind_eq_ok, Except.pure_eq_ok] at h1
          obtain ⟨c', h1, rfl⟩ := h1
          unfold Concept.changeReduction at h1
          split at h1
          · split at h1
            · cases h1; rfl
            · cases h1; rfl
            · split at h1 <;> cases h1
              rfl
          · cases h1; rfl
      · cases h
  | indirect i =>
    simp only [View.readStep, orPanic, Except.bind_eq_ok, Except.pure_eq_ok] at h
    obtain ⟨m0, e0, m1, h1, h2⟩ := h
    cases e0
    cases h2
    cases m with
    | prev c l r f u' red =>
      cases i <;> cases h1 <;> try rfl
      · next z =>
        simp only [Mixed.findAsHand, AMap.get?_insert, leftEff]
        by_cases e : z = y
        · rw [if_pos e, if_pos e]
        · rw [if_neg e, if_neg e]
      · next z =>
        simp only [Mixed.findAsHand, AMap.get?_insert, leftEff]
        by_cases e : z = y
        · rw [if_pos e, if_pos e]
        · rw [if_neg e, if_neg e]
    | unc c =>
      simp only [Mixed.applyIndirect, Except.bind_eq_ok, Except.pure_eq_ok] at h1
      obtain ⟨c', h1, rfl⟩ := h1
      cases i with
      | composedOf p =>
        simp only [Concept.applyIndirect] at h1
        split at h1 <;> cases h1
        rfl
      | lefthandOf x y' =>
        simp only [Concept.applyIndirect, Except.bind_eq_ok, Except.pure_eq_ok] at h1
        obtain ⟨lo, h1, rfl⟩ := h1
        have : lo = c.leftOf.insert y' x := by
          unfold insertInto at h1
          split at h1
          · split at h1 <;> cases h1; rfl
          · cases h1; rfl
        subst this
        simp only [Mixed.findAsHand, Concept.findAsHand, Concept.handOf, AMap.get?_insert, leftEff]
      | righthandOf x y' =>
        simp only [Concept.applyIndirect, Except.bind_eq_ok, Except.pure_eq_ok] at h1
        obtain ⟨_, _, rfl⟩ := h1; rfl
      | noLongerLefthandOf x =>
        cases h1
        simp only [Mixed.findAsHand, Concept.findAsHand, Concept.handOf, AMap.get?_erase, leftEff]
      | noLongerRighthandOf x => cases h1; rfl
      | reducesFrom x => cases h1; rfl
      | noLongerReducesFrom x => cases h1; rfl

/-- What is made by changes, and what they make something the left part with, exists. -/
def KeyOk (num : Nat) (a : CId) : CDelta → Prop
  | .indirect (.lefthandOf _ y) => ∀ u, y = .unc u → u < num
  | .direct (.new (.left _ _ _)) => False
  | .direct (.new (.double _ _)) => False
  | .direct (.new _) => ∀ u, a = .unc u → u < num
  | .direct (.remove _) => False
  | _ => True

theorem KeyOk.mono {n m : Nat} (h : n ≤ m) {a : CId} {e : CDelta} (he : KeyOk n a e) : KeyOk m a e := by
  cases e with
  | indirect i =>
    cases i <;> first | trivial | exact fun u hu => Nat.lt_of_lt_of_le (he u hu) h
  | direct dd =>
    cases dd with
    | new nd => cases nd <;> first | exact he | exact fun u hu => Nat.lt_of_lt_of_le (he u hu) h
    | remove x => exact he
    | compose c ch => trivial
    | reduce c ch => trivial

/-- All changes of a layer are such. -/
def KeysOk (d : Delta) : Prop := ∀ a, ∀ e ∈ d.entries a, KeyOk d.num a e

theorem KeysOk.start : KeysOk (Delta.empty 0) := by
  intro a e he
  simp [Delta.entries, Delta.empty] at he

theorem KeysOk.step {d d' : Delta} {dd : Direct CId} (h : KeysOk d) (hu : Updated d d' dd)
    (hi : Introduces (dd.subject d.num, dd)) : KeysOk d' := by
  have hn := hu.num
  intro a e he
  rw [hu.entries, List.mem_append] at he
  rcases he with he | he
  · exact (h a e he).mono (by omega)
  have hp := mem_about.1 he
  have hlt : ∀ nd, dd = .new nd → ∀ u, CId.unc d.num = .unc u → u < d'.num := by
    rintro nd rfl u hu
    cases hu
    rw [hn]; simp [Direct.uses]
  unfold Introduces at hi
  dsimp only at hi
  split at hi <;> first | exact hi.elim | skip
  all_goals
    simp only [recorded, Direct.subject, List.mem_cons, List.not_mem_nil, or_false, Prod.mk.injEq] at hp
  · obtain ⟨rfl, rfl⟩ := hp; exact hlt _ rfl
  · obtain ⟨rfl, rfl⟩ := hp; exact hlt _ rfl
  · obtain ⟨rfl, rfl⟩ := hp; exact hlt _ rfl
  · rcases hp with ⟨rfl, rfl⟩ | ⟨rfl, rfl⟩
    · exact hlt _ rfl
    · trivial
  · rcases hp with ⟨rfl, rfl⟩ | ⟨rfl, rfl⟩ | ⟨rfl, rfl⟩
    · exact hlt _ rfl
    · exact hlt _ rfl
    · trivial

theorem KeysOk.trace {s : Snap} {d : Nested} (ht : Trace s Nested.default d) (hi : ∀ p ∈ d.order, Introduces p) :
    ∃ o, d = .base o ∧ KeysOk o := by
  induction ht with
  | refl => exact ⟨_, rfl, KeysOk.start⟩
  | tail _ hm ih =>
    cases hm with
    | emit dd he hd =>
      have ho := Nested.update_order hd
      obtain ⟨o, rfl, hk⟩ := ih (fun p hp => hi p (by rw [ho]; exact List.mem_append_left _ hp))
      obtain ⟨o', rfl, rfl, hu⟩ := Nested.update_base hd
      exact ⟨o', rfl, hk.step hu (hi _ (by rw [ho]; simp))⟩
    | labelled t hl h1 h2 h3 =>
      have ho1 := Nested.update_order h1
      have ho2 := Nested.update_order h2
      have ho3 := Nested.update_order h3
      obtain ⟨o, rfl, hk⟩ := ih (fun p hp => hi p (by
        rw [ho3, ho2, ho1]
        exact List.mem_append_left _ (List.mem_append_left _ (List.mem_append_left _ hp))))
      obtain ⟨o1, rfl, rfl, hu1⟩ := Nested.update_base h1
      obtain ⟨o2, rfl, rfl, hu2⟩ := Nested.update_base h2
      obtain ⟨o3, rfl, rfl, hu3⟩ := Nested.update_base h3
      exact ⟨o3, rfl, ((hk.step hu1 trivial).step hu2 trivial).step hu3 trivial⟩

/-- What is found by reading was stored, or was recorded. -/
theorem left_known {a : CId} {num : Nat} {L : List CDelta} (hL : ∀ e ∈ L, KeyOk num a e) {o : Option Mixed} {m : Mixed}
    (h : View.readSteps a o L = .ok (some m)) {u : Nat} {z : CId} (hz : m.findAsHand (.unc u) .left = some z)
    (ho : ∀ m, o = some m → ∀ z, m.findAsHand (.unc u) .left = some z → u < num) : u < num := by
  induction L generalizing o with
  | nil => cases h; exact ho m rfl z hz
  | cons e L ih =>
    simp only [View.readSteps, Except.bind_eq_ok] at h
    obtain ⟨o1, h1, h2⟩ := h
    refine ih (fun e he => hL e (.tail _ he)) h2 ?_
    rintro m1 rfl z1 hz1
    have he := hL e (.head _)
    cases o with
    | some m0 =>
      rw [readStep_left h1] at hz1
      unfold leftEff at hz1
      split at hz1
      · split at hz1
        · next e => subst e; exact he u rfl
        · exact ho m0 rfl z1 hz1
      · split at hz1
        · cases hz1
        · exact ho m0 rfl z1 hz1
      · exact ho m0 rfl z1 hz1
    | none =>
      exfalso
      cases e with
      | indirect i => simp [View.readStep, orPanic] at h1; cases h1
      | direct dd =>
        cases dd with
        | compose c ch => simp [View.readStep] at h1
        | remove x => exact he
        | reduce u ch =>
          simp only [View.readStep, orPanic] at h1
          split at h1 <;> cases h1
        | new nd =>
          simp only [View.readStep] at h1
          cases h1
          cases nd <;> first
            | exact he
            | simp [Mixed.findAsHand, Concept.ofNew, Concept.findAsHand, Concept.handOf, Concept.mk'] at hz1

/-! ## Reading without removals -/

theorem readSteps_of_read {s : Snap} {d : Delta} {a : CId} (hr : ∀ x, .direct (.remove x) ∉ d.entries a) {m : Mixed}
    (hm : (View.mk s (.base d)).read a = .ok m) :
    View.readSteps a (stored s a) (d.entries a) = .ok (some m) := by
  simp only [View.read, View.maybeRead, Nested.getConcept, getConcept_eq, Except.bind_eq_ok] at hm
  obtain ⟨o, h1, h2⟩ := hm
  have h1' : View.readSteps a (stored s a) (d.entries a) = .ok o ∨ (d.entries a = [] ∧ o = none) := by
    cases hg : d.concept.get? a with
    | none => rw [hg] at h1; cases h1; exact .inr ⟨by simp [Delta.entries, hg], rfl⟩
    | some ds =>
      rw [hg] at h1
      exact .inl (by simp only [Delta.entries, hg, Option.getD_some]; exact h1)
  cases o with
  | some x =>
    cases h2
    rcases h1' with h1 | ⟨_, e⟩
    · exact h1
    · cases e
  | none =>
    simp only at h2
    cases hs : stored s a with
    | none => rw [hs] at h2; cases h2
    | some m0 =>
      rw [hs] at h2
      cases h2
      rcases h1' with h1 | ⟨e, _⟩
      · rw [hs] at h1
        have := readSteps_some h1 hr
        cases this
      · rw [e]; rfl

theorem read_of_readSteps {s : Snap} {d : Delta} {a : CId} {m : Mixed}
    (hm : View.readSteps a (stored s a) (d.entries a) = .ok (some m)) : (View.mk s (.base d)).read a = .ok m := by
  simp only [View.read, View.maybeRead, Nested.getConcept, getConcept_eq, Except.bind_eq_ok]
  cases hg : d.concept.get? a with
  | none =>
    simp only [Delta.entries, hg, Option.getD_none, View.readSteps] at hm
    refine ⟨none, rfl, ?_⟩
    dsimp only
    cases h : stored s a with
    | none => rw [h] at hm; cases hm
    | some x => rw [h] at hm; cases hm; rfl
  | some ds =>
    simp only [Delta.entries, hg, Option.getD_some] at hm
    exact ⟨some m, hm, rfl⟩

/-! ## Compositions that are made -/

/-- Only compositions are made; they are listed with their parts. -/
inductive Composes (o : Delta) : Delta → List (CId × CId × CId) → Prop
  | refl : Composes o o []
  | snoc {o1 o2 : Delta} {M : List (CId × CId × CId)} {x y : CId} (h : Composes o o1 M)
      (hu : Updated o1 o2 (.new (.composition ⟨x, y⟩))) : Composes o o2 (M ++ [(.unc o1.num, x, y)])

/-- The records of such changes about a concept. -/
def Mention (M : List (CId × CId × CId)) (a : CId) : CDelta → Prop
  | .direct (.new (.composition _)) => True
  | .indirect (.lefthandOf z y) => (z, a, y) ∈ M
  | .indirect (.righthandOf _ _) => True
  | _ => False

theorem Mention.mono {M M' : List (CId × CId × CId)} (h : ∀ p ∈ M, p ∈ M') {a : CId} {e : CDelta}
    (he : Mention M a e) : Mention M' a e := by
  cases e with
  | indirect i => cases i <;> first | trivial | exact h _ he
  | direct dd =>
    cases dd with
    | new nd => cases nd <;> exact he
    | remove x => exact he
    | compose c ch => exact he
    | reduce c ch => exact he

theorem Composes.num {o o' : Delta} {M : List (CId × CId × CId)} (h : Composes o o' M) :
    o.num ≤ o'.num ∧ ∀ p ∈ M, ∃ u, p.1 = .unc u ∧ o.num ≤ u := by
  induction h with
  | refl => exact ⟨Nat.le_refl _, by simp⟩
  | snoc h hu ih =>
    refine ⟨by rw [hu.num]; omega, fun p hp => ?_⟩
    rcases List.mem_append.1 hp with hp | hp
    · exact ih.2 p hp
    · obtain rfl := List.mem_singleton.1 hp
      exact ⟨_, rfl, ih.1⟩

theorem Composes.string {o o' : Delta} {M : List (CId × CId × CId)} (h : Composes o o' M) :
    o'.string = o.string := by
  induction h with
  | refl => rfl
  | snoc h hu ih => rw [hu.string.2 (by simp), ih]

theorem Composes.entries {o o' : Delta} {M : List (CId × CId × CId)} (h : Composes o o' M) (a : CId) :
    ∃ L, o'.entries a = o.entries a ++ L ∧ ∀ e ∈ L, Mention M a e := by
  induction h with
  | refl => exact ⟨[], by simp, by simp⟩
  | snoc h hu ih =>
    obtain ⟨L, h1, h2⟩ := ih
    refine ⟨L ++ _, by rw [hu.entries, h1, List.append_assoc], fun e he => ?_⟩
    rcases List.mem_append.1 he with he | he
    · exact (h2 e he).mono fun p hp => List.mem_append_left _ hp
    · have hp := mem_about.1 he
      simp only [recorded, Direct.subject, List.mem_cons, List.not_mem_nil, or_false, Prod.mk.injEq] at hp
      rcases hp with ⟨rfl, rfl⟩ | ⟨rfl, rfl⟩ | ⟨rfl, rfl⟩
      · trivial
      · exact List.mem_append_right _ (by simp)
      · trivial

theorem left_made {M : List (CId × CId × CId)} {a y z : CId} {L : List CDelta} (hL : ∀ e ∈ L, Mention M a e)
    {o : Option Mixed} {m : Mixed} (h : View.readSteps a o L = .ok (some m)) (hz : m.findAsHand y .left = some z) :
    (z, a, y) ∈ M ∨ ∃ m0, o = some m0 ∧ m0.findAsHand y .left = some z := by
  induction L generalizing o with
  | nil => cases h; exact .inr ⟨m, rfl, hz⟩
  | cons e L ih =>
    simp only [View.readSteps, Except.bind_eq_ok] at h
    obtain ⟨o1, h1, h2⟩ := h
    rcases ih (fun e he => hL e (.tail _ he)) h2 with h | ⟨m1, rfl, hz1⟩
    · exact .inl h
    have he := hL e (.head _)
    cases o with
    | some m0 =>
      rw [readStep_left h1] at hz1
      unfold leftEff at hz1
      split at hz1
      · split at hz1
        · next e =>
          subst e
          cases hz1
          exact .inl he
        · exact .inr ⟨m0, rfl, hz1⟩
      · exact he.elim
      · exact .inr ⟨m0, rfl, hz1⟩
    | none =>
      exfalso
      cases e with
      | indirect i => simp [View.readStep, orPanic] at h1; cases h1
      | direct dd =>
        cases dd with
        | compose c ch => exact he
        | remove x => exact he
        | reduce u ch => exact he
        | new nd =>
          simp only [View.readStep] at h1
          cases h1
          cases nd <;> first
            | exact he
            | simp [Mixed.findAsHand, Concept.ofNew, Concept.findAsHand, Concept.handOf, Concept.mk'] at hz1

/-- A pair that is found was made, or could be found before. -/
theorem Composes.found {s : Snap} {o o' : Delta} {M : List (CId × CId × CId)} (h : Composes o o' M) (hk : KeysOk o)
    {x y z : CId} {m : Mixed} (hm : (View.mk s (.base o')).read x = .ok m) (hz : m.findAsHand y .left = some z) :
    (z, x, y) ∈ M ∨ (∀ u, x = .unc u → u < o.num) ∧ (∀ u, y = .unc u → u < o.num) ∧
      ∃ m0, (View.mk s (.base o)).read x = .ok m0 ∧ m0.findAsHand y .left = some z := by
  obtain ⟨L, h1, h2⟩ := h.entries x
  have hr : ∀ w, .direct (.remove w) ∉ o'.entries x := by
    intro w hw
    rw [h1] at hw
    rcases List.mem_append.1 hw with hw | hw
    · exact hk x _ hw
    · exact h2 _ hw
  have hs := readSteps_of_read hr hm
  rw [h1, readSteps_append, Except.bind_eq_ok] at hs
  obtain ⟨mid, e1, e2⟩ := hs
  rcases left_made h2 e2 hz with h | ⟨m0, rfl, hz0⟩
  · exact .inl h
  refine .inr ⟨?_, ?_, m0, read_of_readSteps e1, hz0⟩
  · rintro u rfl
    obtain ⟨nd, hnd⟩ := readSteps_none e1
    have := hk _ _ hnd
    cases nd <;> first | exact this.elim | exact this u rfl
  · rintro u rfl
    refine left_known (hk x) e1 hz0 ?_
    rintro m1 hm1 z1 hz1
    exfalso
    cases x with
    | unc v => cases hm1
    | com k =>
      simp only [stored, Option.map_eq_some_iff] at hm1
      obtain ⟨c, _, rfl⟩ := hm1
      simp [Mixed.ofCon, Mixed.findAsHand] at hz1

theorem Composes.stringConcept [HashOrder] {s : Snap} {o o' : Delta} {M : List (CId × CId × CId)} (h : Composes o o' M)
    (u : Str) : (View.mk s (.base o')).stringConcept u = (View.mk s (.base o)).stringConcept u := by
  simp only [View.stringConcept, Nested.getString, h.string]

/-! ## The concept of a tree -/

/-- The concept of a tree: its own, or the composition that was made of those of its parts. -/
inductive Said (M : List (CId × CId × CId)) : Syn → CId → Prop
  | known {t : Syn} {a : CId} (h : t.concept = some a) : Said M t a
  | pair {t l r : Syn} {a x y : CId} (h : t.concept = none) (he : t.expansion = some (l, r)) (hl : Said M l x)
      (hr : Said M r y) (hm : (a, x, y) ∈ M) : Said M t a

theorem Said.mono {M M' : List (CId × CId × CId)} (h : ∀ p ∈ M, p ∈ M') {t : Syn} {a : CId} (hs : Said M t a) :
    Said M' t a := by
  induction hs with
  | known h => exact .known h
  | pair h1 h2 _ _ h3 ih1 ih2 => exact .pair h1 h2 ih1 ih2 (h _ h3)

/-- What a step of making concepts ends in. -/
def Coins (s : Snap) (o : Delta) (M : List (CId × CId × CId)) (P : List (CId × CId × CId) → Prop) (c : Ctx) : Prop :=
  c.snap = s ∧ ∃ o' M', c.delta = .base o' ∧ (∀ p ∈ M, p ∈ M') ∧ Composes o o' M' ∧ P M'

theorem conceptFromAst_known [HashOrder] {n : Nat} {t : Syn} {a : CId} (h : t.concept = some a) :
    Updater.conceptFromAst n t = pure a := by
  cases t <;> (cases h; rfl)

theorem conceptFromAst_said [HashOrder] {n : Nat} {s : Snap} {o : Delta} (hk : KeysOk o) {t : Syn}
    (ht : Sayable ⟨s, .base o⟩ t) {c : Ctx} {M : List (CId × CId × CId)} (hc : Coins s o [] (· = M) c) :
    Ends (Updater.conceptFromAst n t) c (fun r c' => ∃ a, r = .ok a ∧ Coins s o M (fun M' => Said M' t a) c') := by
  induction ht generalizing c M with
  | known h =>
    obtain ⟨a, ha⟩ := Option.isSome_iff_exists.1 h
    obtain ⟨h1, o1, _, h2, _, h3, rfl⟩ := hc
    rw [conceptFromAst_known ha]
    exact Ends.pure ⟨a, rfl, h1, o1, _, h2, fun _ h => h, h3, .known ha⟩
  | @pair t l r h0 hx hl hr hu hf ihl ihr =>
    cases t with
    | leaf _ _ _ => cases hx
    | branch ss oo l' r' fr bd =>
      cases h0
      cases hx
      obtain ⟨u, hu, hsp, hn⟩ := hu
      unfold Updater.conceptFromAst
      dsimp only
      refine Ends.bind (Ends.ofE fun u' hu' => ?_)
      rw [hu] at hu'
      cases hu'
      have hc' := hc
      obtain ⟨h1, o1, _, h2, _, h3, rfl⟩ := hc'
      refine Ends.bind (Ends.reading fun w hw => ?_)
      have hw : w = none := by
        rw [h1, h2] at hw
        simp only [View.conceptFromLabel, h3.stringConcept, hn, Except.bind_eq_ok] at hw
        obtain ⟨w1, e, hw⟩ := hw
        cases e
        cases hw
        rfl
      subst hw
      show Ends _ _ _
      dsimp only
      refine Ends.bind ((ihl hc).mono ?_)
      rintro _ c1 ⟨x, rfl, k1, o2, M2, k2, k3, k4, k5⟩
      show Ends _ _ _
      refine Ends.bind ((ihr (M := M2) ⟨k1, o2, M2, k2, (by simp), k4, rfl⟩).mono ?_)
      rintro _ c2 ⟨y, rfl, j1, o3, M3, j2, j3, j4, j5⟩
      show Ends _ _ _
      unfold Updater.findOrInsertComposition
      refine Ends.bind (Ends.bind (Ends.reading fun m hm => ?_))
      rw [j1, j2] at hm
      show Ends _ _ _
      cases hz : m.findAsHand y .left with
      | some z =>
        refine Ends.pure ?_
        show Ends _ _ _
        rw [if_neg (by simp [hsp])]
        refine Ends.pure ⟨z, rfl, j1, o3, M3, j2, fun p hp => j3 _ (k3 _ hp), j4, .pair rfl rfl (k5.mono j3) j5 ?_⟩
        rcases j4.found hk hm hz with h | ⟨g1, g2, m0, g3, g4⟩
        · exact h
        exfalso
        have low : ∀ {t a M}, Said M t a → Composes o o3 M → (∀ u, a = .unc u → u < o.num) → t.concept = some a := by
          intro t a M hs hC hlt
          cases hs with
          | known h => exact h
          | pair _ _ _ _ hm =>
            obtain ⟨u, e, hge⟩ := hC.num.2 _ hm
            exact absurd (hlt u e) (by omega)
        obtain ⟨m1, q1, q2⟩ := hf x y (low (k5.mono j3) j4 g1) (low j5 j4 g2)
        rw [q1] at g3
        cases g3
        rw [q2] at g4
        cases g4
      | none =>
        refine Ends.update fun d id hd => ?_
        show Ends _ _ _
        rw [if_neg (by simp [hsp])]
        rw [j2] at hd
        obtain ⟨o4, rfl, rfl, hup⟩ := Nested.update_base hd
        exact Ends.pure ⟨_, rfl, j1, o4, _, rfl, fun p hp => List.mem_append_left _ (j3 _ (k3 _ hp)), j4.snoc hup,
          .pair rfl rfl ((k5.mono j3).mono fun p hp => List.mem_append_left _ hp)
            (j5.mono fun p hp => List.mem_append_left _ hp) (List.mem_append_right _ (by simp [Direct.subject]))⟩

end Zia

import Verif.Spec.Accepted
import Verif.Lemmas.HashOrder
import Verif.Lemmas.Rest
import Verif.Lemmas.Concrete
import Verif.Witness.Reachable

/-!
# Properties C18–C24, C27: the stored context

`Reachable c` are the contexts a user can come to hold by any sequence of commands.
`History ReducesFresh c` are those reached by commands that give reductions only to concepts that have
none, `History KeepsDefinitions c` those reached by commands that replace no definition.
-/

namespace Zia.Props

open Zia Zia.Spec Relation

/-! ## C24 -/

/-- C24. Stored references never dangle. -/
theorem references_valid {c : Ctx} (h : Reachable c) : RefsValid c.snap :=
  (History.settled h).refs.valid

example : RefsValid Witness.comp9.snap := references_valid Witness.comp9_reachable

/-! ## C18 -/

/-- C18. The reduction of a concept lists the concept. -/
theorem reduction_listed {c : Ctx} (h : Reachable c) {i j : Nat} (hr : ReducesTo c.snap i j) :
    ListsReduced c.snap j i := by
  obtain ⟨k, hk, hr⟩ := hr
  rw [reduction_eq] at hr
  exact History.redFwd h i k j hk hr

example : ListsReduced Witness.cyc3.snap 86 82 :=
  reduction_listed Witness.cyc3_reachable ⟨_, rfl, rfl⟩

/-- C18, partial: links are two-way in every history that gives reductions only to concepts without one.
What is missing is false: `reductions_not_two_way`. -/
theorem reductions_two_way_partial {c : Ctx} (h : History ReducesFresh c) (i j : Nat) :
    ReducesTo c.snap i j ↔ ListsReduced c.snap j i := by
  refine ⟨reduction_listed (History.reachable h), ?_⟩
  rintro ⟨k, hk, hi⟩
  rw [reducesTo_iff]
  exact History.redRev h j k i hk hi

theorem boot_fresh : History ReducesFresh boot := History.mono (fun _ _ h => h.1) boot_calm

example : ReducesTo boot.snap 75 14 ↔ ListsReduced boot.snap 14 75 :=
  reductions_two_way_partial boot_fresh 75 14

/-- C18 is false: after `let foo -> _x_` and `let foo -> r` the concept of `_x_` still lists `foo`, whose
reduction is `r`. -/
theorem reductions_not_two_way :
    ∃ c, Reachable c ∧ ∃ i j, ListsReduced c.snap j i ∧ ¬ ReducesTo c.snap i j := by
  refine ⟨Witness.stale2, Witness.stale2_reachable, 82, 83, ⟨_, rfl, by decide⟩, ?_⟩
  rintro ⟨k, hk, hr⟩
  cases hk
  exact absurd hr (by decide)

/-! ## C19 -/

/-- C19, partial: links between a composition and its parts are two-way in every history that replaces no
definition. What is missing is false: `composition_links_not_two_way`. -/
theorem composition_links_two_way_partial {c : Ctx} (h : History KeepsDefinitions c) (k l r : Nat) :
    ComposedOf c.snap k l r ↔ LeftIn c.snap l r k ∧ RightIn c.snap r l k := by
  obtain ⟨hf, hb⟩ := History.comps h
  constructor
  · rintro ⟨ck, hk, hp⟩
    rw [composition_eq] at hp
    exact hf k ck l r hk hp
  · rintro ⟨⟨cl, hl, hk⟩, _⟩
    obtain ⟨ck, hck, hp⟩ := (hb l cl r k hl).1 hk
    exact ⟨ck, hck, by rw [composition_eq]; exact hp⟩

/-- C19, partial: in such a history either back link alone shows the composition. -/
theorem back_link_composed_partial {c : Ctx} (h : History KeepsDefinitions c) (k l r : Nat)
    (hk : LeftIn c.snap l r k ∨ RightIn c.snap r l k) : ComposedOf c.snap k l r := by
  obtain ⟨_, hb⟩ := History.comps h
  rcases hk with ⟨cl, hl, hk⟩ | ⟨cr, hr, hk⟩
  · obtain ⟨ck, hck, hp⟩ := (hb l cl r k hl).1 hk
    exact ⟨ck, hck, by rw [composition_eq]; exact hp⟩
  · obtain ⟨ck, hck, hp⟩ := (hb r cr l k hr).2 hk
    exact ⟨ck, hck, by rw [composition_eq]; exact hp⟩

theorem boot_keeps : History KeepsDefinitions boot := History.mono (fun _ _ h => h.2) boot_calm

example : LeftIn boot.snap 2 44 43 ∧ RightIn boot.snap 44 2 43 :=
  (composition_links_two_way_partial boot_keeps 43 2 44).1 ⟨_, rfl, rfl⟩

/-- C19 is false: a concept whose parts are replaced stays listed with its old parts. After `let k := g y`
and `set (z := e f)`, where `z` reduces to `k`, the concept of `k` is composed of `e` and `f`, but `g` still
records it as its composition with `y`. -/
theorem composition_links_not_two_way :
    ∃ c, Reachable c ∧ ∃ k l r, LeftIn c.snap l r k ∧ RightIn c.snap r l k ∧
      ¬ ComposedOf c.snap k l r := by
  refine ⟨Witness.comp6, Witness.comp6_reachable, 88, 94, 97, ⟨_, rfl, by decide⟩,
    ⟨_, rfl, by decide⟩, ?_⟩
  rintro ⟨k, hk, hr⟩
  cases hk
  exact absurd hr (by decide)

/-! ## C20 -/

/-- C20, partial: in every history that replaces no definition, no two concepts are composed of the same
pair. What is missing is false: `pair_composed_twice`. -/
theorem one_concept_per_pair_partial {c : Ctx} (h : History KeepsDefinitions c) :
    OnePerPair c.snap := by
  intro k k' l r h1 h2
  obtain ⟨⟨cl, hl, hk⟩, _⟩ := (composition_links_two_way_partial h k l r).1 h1
  obtain ⟨⟨cl', hl', hk'⟩, _⟩ := (composition_links_two_way_partial h k' l r).1 h2
  rw [hl] at hl'
  cases hl'
  rw [hk] at hk'
  cases hk'
  rfl

example : OnePerPair boot.snap := one_concept_per_pair_partial boot_keeps

/-- C20 is false: a history with two replaced definitions ends with two concepts of the same pair. -/
theorem pair_composed_twice : ∃ c, Reachable c ∧ ¬ OnePerPair c.snap := by
  refine ⟨Witness.comp9, Witness.comp9_reachable, fun h => ?_⟩
  have := h 100 118 94 88 ⟨_, rfl, by decide⟩ ⟨_, rfl, by decide⟩
  cases this

/-! ## C21 -/

/-- C21, partial: in every history that gives reductions only to concepts without one, chains of
reductions never loop. What is missing is false: `reductions_loop`. -/
theorem reductions_acyclic_partial {c : Ctx} (h : History ReducesFresh c) :
    ReductionsAcyclic c.snap := by
  intro i hi
  refine History.redAcyclic h i ?_
  exact TransGen.mono (fun a b hab => reducesTo_iff.1 hab) i i hi

/-- C21, partial: in such a history asking for a normal form ends, at the end of the chain of
reductions. -/
theorem normalForm_terminates_partial {c : Ctx} (h : History ReducesFresh c) {k : Nat}
    (hk : k < c.snap.concepts.length) :
    ∃ n x, (∀ m, n ≤ m → (View.mk c.snap c.delta).normalForm m (.com k) = .ok (x.map CId.com)) ∧
      (x = none ↔ ∀ j, ¬ ReducesTo c.snap k j) ∧
      ∀ j, x = some j ↔ TransGen (ReducesTo c.snap) k j ∧ ∀ i, ¬ ReducesTo c.snap j i := by
  have e : Red (look c.snap.concepts) = ReducesTo c.snap := by
    funext i j
    exact propext reducesTo_iff.symm
  have hs := History.settled h
  have := normalForm_ends hs.refs (History.redAcyclic h) k hk
  rw [hs.delta, ← e]
  exact this

example : ∃ n x, ∀ m, n ≤ m →
    (View.mk boot.snap boot.delta).normalForm m (.com 75) = .ok (Option.map CId.com x) :=
  have ⟨n, x, h, _⟩ := normalForm_terminates_partial boot_fresh (k := 75) (by decide)
  ⟨n, x, h⟩

/-- A pair of concepts that reduce to each other has no normal form. -/
theorem normalForm_diverges {s : Snap} {i j : Nat} (hi : ReducesTo s i j) (hj : ReducesTo s j i)
    (n : Nat) : (View.mk s Nested.default).normalForm n (.com i) = .error .diverge := by
  induction n generalizing i j with
  | zero => rfl
  | succ n ih =>
    obtain ⟨k, hk, hr⟩ := hi
    rw [View.normalForm, rest_read hk]
    show (match (Mixed.ofCon k).reduction with | none => _ | some r => _) = _
    have e : (Mixed.ofCon k).reduction = some (.com j) := by
      show k.reduction.map _ = _
      rw [hr]; rfl
    rw [e]
    show ((View.mk s Nested.default).normalForm n (.com j) >>= _) = _
    rw [ih hj ⟨k, hk, hr⟩]
    rfl

/-- C21 is false: after `let foo -> _x_`, `let r -> foo` and `let foo -> r` the concepts of `foo` and `r`
reduce to each other, and no amount of fuel lets a request for the normal form end. -/
theorem reductions_loop : ∃ c, Reachable c ∧ ¬ ReductionsAcyclic c.snap ∧
    ∃ i < c.snap.concepts.length, ∀ n, (View.mk c.snap c.delta).normalForm n (.com i) = .error .diverge := by
  have h1 : ReducesTo Witness.cyc3.snap 82 86 := ⟨_, rfl, by decide⟩
  have h2 : ReducesTo Witness.cyc3.snap 86 82 := ⟨_, rfl, by decide⟩
  refine ⟨Witness.cyc3, Witness.cyc3_reachable, fun h => h 82 (.tail (.single h1) h2),
    82, by decide, ?_⟩
  rw [(History.settled Witness.cyc3_reachable).delta]
  exact normalForm_diverges h1 h2

/-! ## C22 -/

/-- C22. No concept is part of itself. -/
theorem parts_acyclic {c : Ctx} (h : Reachable c) : PartsAcyclic c.snap := by
  intro i hi
  refine History.partAcyclic h i ?_
  exact TransGen.mono (fun a b hab => partOf_iff.1 hab) i i hi

/-- C22. Containment queries end, and answer whether there is a chain of parts. -/
theorem contains_terminates {c : Ctx} (h : Reachable c) {i k : Nat}
    (hk : k < c.snap.concepts.length) :
    ∃ n b, (∀ m, n ≤ m → (View.mk c.snap c.delta).contains m (.com k) (.com i) = .ok b) ∧
      (b = true ↔ TransGen (PartOf c.snap) i k) := by
  have e : Part (look c.snap.concepts) = PartOf c.snap := by
    funext i j
    exact propext partOf_iff.symm
  have hs := History.settled h
  have := contains_ends hs.refs (History.partAcyclic h) i k hk
  rw [hs.delta, ← e]
  exact this

example : PartsAcyclic Witness.comp9.snap ∧ PartOf Witness.comp9.snap 94 100 :=
  ⟨parts_acyclic Witness.comp9_reachable, _, _, ⟨_, rfl, rfl⟩, .inl rfl⟩

/-! ## C23 -/

theorem conc_boot0 (i : Nat) (t : CCT) : Conc boot0.snap i t ↔ i = builtin t := by
  constructor
  · rintro ⟨k, hk, hs⟩
    have h : everywhere boot0.snap (fun i c => match c.spec with
        | .concrete t => i == builtin t
        | _ => true) = true := by decide +kernel
    have := of_everywhere h hk
    rw [hs] at this
    simpa using this
  · rintro rfl
    cases t <;> exact ⟨_, rfl, rfl⟩

/-- C23. A built-in concept is found at the same place in every reachable context. -/
theorem builtin_found [HashOrder] {c : Ctx} (h : Reachable c) (t : CCT) :
    (View.mk c.snap c.delta).concreteId t = .ok (some (.com (builtin t))) := by
  have hc := (History.concrete h).1
  rw [(History.settled h).delta]
  have : (View.mk c.snap Nested.default).concreteId t = .ok ((byRight c.snap.concrete t).map .com) := by
    unfold View.concreteId
    rw [show Nested.default.iterConcepts = [] from rfl, HashOrder.order_nil]
    rfl
  rw [this, hc]
  cases t <;> rfl

/-- C23. The concept stored there, and no other, is of that built-in type in every reachable context; it
has neither a definition nor a reduction. -/
theorem builtin_permanent {c : Ctx} (h : Reachable c) (t : CCT) :
    (∃ k, c.snap.concepts[builtin t]? = some k ∧ k.id = builtin t ∧ k.cct = some t ∧
      k.composition = none ∧ k.reduction = none) ∧
    ∀ i k, c.snap.concepts[i]? = some k → k.cct = some t → i = builtin t := by
  have hc := (History.concrete h).2
  constructor
  · obtain ⟨k, hk, hs⟩ := (hc (builtin t) t).2 ((conc_boot0 _ _).2 rfl)
    refine ⟨k, hk, (references_valid h).ids _ _ hk, ?_, ?_, ?_⟩
    · simp only [Concept.cct, hs]
    · simp only [Concept.composition, hs]
    · simp only [Concept.reduction, hs]
  · intro i k hk ht
    rw [← conc_boot0, ← hc]
    refine ⟨k, hk, ?_⟩
    unfold Concept.cct at ht
    split at ht
    · next s hs => cases ht; exact hs
    · cases ht

open Insertion in
example : (View.mk Witness.comp9.snap Witness.comp9.delta).concreteId .letCmd = .ok (some (.com 11)) :=
  builtin_found Witness.comp9_reachable .letCmd

/-! ## C27 -/

/-- What the ids of a store with pending changes stand for. -/
def standsFor (g : Snap) : CId → Option Nat
  | .com n => some n
  | .unc u => g.prev.get? u

theorem standsFor_iff {g : Snap} {a : CId} {i : Nat} : standsFor g a = some i ↔ Conv g a i := by
  cases a with
  | com n => simp [standsFor, Conv, Snap.convert]
  | unc u =>
    simp only [standsFor, Conv, Snap.convert]
    cases g.prev.get? u <;> simp

/-- The correspondence of the ids before the commit to the concepts after it. -/
theorem stored_correspond [HashOrder] {n : Nat} {c c1 : Ctx} {s : Str} {x : Except ZiaError Str} {s' : Snap}
    (h : Reachable c) (hcmd : Context.command n s c = .ok (x, c1)) (ha : c.snap.apply c1.delta = .ok s') :
    ∃ g, c.snap.applyAll c1.delta.order = .ok g ∧ s'.concepts = g.concepts ∧
      Corresponds ⟨c1.snap, c1.delta⟩ s' (standsFor g) := by
  obtain ⟨e1, ht⟩ := Context.command_traced n s c x c1 hcmd
  have hs := History.settled h
  rw [hs.delta] at ht
  obtain ⟨o, e, _, hr⟩ := Trace.replay (Q := fun _ _ => True) (P := fun _ _ => True) hs.refs hs.prev
    trivial (fun _ _ _ _ _ _ _ _ _ _ _ => trivial)
    (fun _ _ _ _ _ _ _ _ _ _ _ _ _ _ _ _ _ _ _ _ _ _ => trivial) ht
    (fun _ _ _ _ _ _ => trivial)
  rw [e] at hr ⊢
  rw [e1]
  rw [e] at ha
  obtain ⟨g, g', h1, h2, e'⟩ := apply_base ha
  obtain ⟨sim, _⟩ := hr g h1
  have hcon : s'.concepts = g.concepts := by
    rw [e', applyStrings_only h2]
  refine ⟨g, h1, hcon, fun _ => rfl, ?_, ?_⟩
  · intro a b m m' ha hb hab
    obtain ⟨i, li⟩ := sim.live ha
    obtain ⟨j, lj⟩ := sim.live hb
    rw [standsFor_iff.2 li.conv, standsFor_iff.2 lj.conv] at hab
    cases hab
    exact sim.live_inj li lj
  · intro a m ha
    obtain ⟨i, sp, li, hsp, hag⟩ := sim.read ha
    obtain ⟨k, hk, rfl⟩ := specs_look hsp
    refine ⟨i, k, standsFor_iff.2 li.conv, ?_, ?_, ?_, ?_, ?_⟩
    · rw [hcon]; exact hk
    · have hr := hag.red
      show m.core.red.map _ = _
      rw [reduction_eq]
      revert hr
      generalize m.core.red = a
      generalize redOf k.spec = b
      rintro (⟨_⟩ | ⟨hr⟩) <;> simp_all [standsFor_iff]
    · have hr := hag.comp
      show m.core.comp.map _ = _
      rw [composition_eq]
      revert hr
      generalize m.core.comp = a
      generalize pairOf k.spec = b
      rintro (⟨_⟩ | ⟨hr⟩) <;> simp_all [standsFor_iff]
    · refine hag.str.trans ?_
      unfold Concept.string
      split <;> simp_all
    · refine hag.cct.trans ?_
      unfold Concept.cct
      split <;> simp_all

/-- C27. What a command sees before the commit is what is stored after it: there is a correspondence of
ids, the identity on stored concepts and one-to-one on the concepts that can be read through the pending
changes, by which each of these has the reduction, composition, string and built-in type of a stored
concept. -/
theorem reads_what_is_stored [HashOrder] {n : Nat} {c c1 c' : Ctx} {s : Str} {x : Except ZiaError Str}
    (h : Reachable c) (hcmd : Context.command n s c = .ok (x, c1)) (hc : Context.commit c1 = .ok c') :
    ∃ f : CId → Option Nat, (∀ i, f (.com i) = some i) ∧
      (∀ a b m m', (View.mk c1.snap c1.delta).read a = .ok m →
        (View.mk c1.snap c1.delta).read b = .ok m' → f a = f b → a = b) ∧
      ∀ a m, (View.mk c1.snap c1.delta).read a = .ok m →
        ∃ i k, f a = some i ∧ c'.snap.concepts[i]? = some k ∧ ReadsAs f m k := by
  simp only [Context.commit, Except.bind_eq_ok, Except.pure_eq_ok] at hc
  obtain ⟨s', ha, rfl⟩ := hc
  rw [(Context.command_traced n s c x c1 hcmd).1] at ha
  obtain ⟨g, _, _, hg⟩ := stored_correspond h hcmd ha
  exact ⟨standsFor g, hg.stored, hg.distinct, hg.reads⟩

open Insertion in
/-- `let foo -> _x_` in a new context makes pending changes that commit. -/
example : ∃ x c1 c', Context.command 60 (str% "let foo -> _x_") boot = .ok (x, c1) ∧
    Context.commit c1 = .ok c' := by
  have h := Witness.cyc1_eq
  simp only [Context.execute, Except.bind_eq_ok] at h
  obtain ⟨⟨x, c1⟩, h1, c2, h2, _⟩ := h
  exact ⟨x, c1, c2, h1, h2⟩

end Zia.Props

import Verif.Lemmas.Layers
import Verif.Lemmas.Fits
import Verif.Lemmas.Check
import Verif.Witness.Crash

/-!
# Properties of change sets
-/

namespace Zia.Props

open Spec

/-! ## C25: new concepts get fresh ids -/

/-- C25: a concept made in a change set gets an id about which neither the change set nor any of its
parents has recorded anything. Afterwards something is recorded about it. -/
theorem new_concept_fresh {n n' : Nested} {nd : NewDelta CId} {id : CId} (h : Grown n)
    (hu : n.update (.new nd) = .ok (n', id)) : changes n id = [] ∧ changes n' id ≠ [] := by
  obtain ⟨e, _, hc⟩ := nested_update hu
  have hid : id = .unc n.overlay.num := e
  subst hid
  refine ⟨?_, ?_⟩
  · by_contra hne
    exact Nat.lt_irrefl _ (Grown.bound h hne)
  · rw [hc]
    cases nd <;> simp [recorded, about]

/-- C25 for concepts made without their links. -/
theorem inserted_concept_fresh {n n' : Nested} {nd : NewDelta CId} {id : CId} (h : Grown n)
    (hu : n.insertNew nd = .ok (n', id)) : changes n id = [] ∧ changes n' id ≠ [] := by
  obtain ⟨rfl, _, hc⟩ := nested_insertNew hu
  refine ⟨?_, ?_⟩
  · by_contra hne
    exact Nat.lt_irrefl _ (Grown.bound h hne)
  · rw [hc]
    simp [about]

/-- The ids of the concepts that a change set has made, in the order of the changes. -/
def madeIds (n : Nested) : List CId :=
  n.order.filterMap (fun p => match p.2 with | .new _ => some p.1 | _ => none)

/-- C25: the concepts that the changes of a command make have different ids. -/
theorem made_ids_distinct [HashOrder] {c c1 : Ctx} (h : Reachable c) {n : Nat} {s : Str}
    {x : Except ZiaError Str} (hc : Context.command n s c = .ok (x, c1)) :
    (madeIds c1.delta).Nodup := by
  have ht := (Context.command_traced n s c x c1 hc).2
  rw [(History.settled h).delta] at ht
  exact Trace.made ht

/-- A change set with a concept. -/
def grown1 : Nested :=
  ((Nested.default.update (.new (.str (str% "a")))).toOption.getD (Nested.default, .unc 0)).1

/-- A change set spawned from it, with a concept that reduces to the first one. -/
def grown2 : Nested :=
  ((grown1.spawn.update (.new (.reducesTo (.unc 0)))).toOption.getD (Nested.default, .unc 0)).1

theorem grown1_eq : Nested.default.update (.new (.str (str% "a"))) = .ok (grown1, .unc 0) := by
  decide +kernel

theorem grown2_eq : grown1.spawn.update (.new (.reducesTo (.unc 0))) = .ok (grown2, .unc 1) := by
  decide +kernel

theorem grown1_grown : Grown grown1 :=
  .update .start (by intro u hu; cases hu) grown1_eq

theorem grown2_grown : Grown grown2 := by
  refine .update (.spawn grown1_grown) ?_ grown2_eq
  intro u hu
  simp only [mentions, List.mem_singleton, CId.unc.injEq] at hu
  subst hu
  decide +kernel

example : changes grown1.spawn (.unc 1) = [] ∧ changes grown2 (.unc 1) ≠ [] :=
  new_concept_fresh (.spawn grown1_grown) grown2_eq

/-! ## C26: a nested change set reads like its layers applied in order -/

/-- C26, concepts: the changes read about a concept are those of the layers, innermost first. -/
theorem concept_through_layers (n : Nested) (a : CId) :
    n.getConcept a = conceptThrough (layers n) a :=
  layers_getConcept n a

/-- C26, strings: the state of a string can be read exactly when each layer's change starts where the
layers inside it end, and what is read ends where the outermost change ends. -/
theorem string_through_layers (n : Nested) (s : Str) :
    (Chained (stringChanges n s) → ∃ x, n.getString s = .ok x ∧
      x.map idAfter = (stringChanges n s).getLast?.map idAfter) ∧
    (¬ Chained (stringChanges n s) → n.getString s = .error (.panic .stringDelta)) :=
  layers_getString n s

/-- C26, strings: what is read also starts where the innermost change starts, unless a layer removes the string. -/
theorem string_start_through_layers {n : Nested} {s : Str} {x : Option (VChange CId)} (h : n.getString s = .ok x)
    (hr : ∀ y ∈ stringChanges n s, idAfter y ≠ none) :
    x.map idBefore = (stringChanges n s).head?.map idBefore :=
  (layers_getString_start n s h hr).1

/-- A layer in which a string has a change. -/
def layerWith (s : Str) (x : VChange CId) : Delta := { Delta.empty 2 with string := [(s, x)] }

/-- The hypotheses are met by a string that one layer adds and the next one gives to another concept. -/
example : (Nested.over (.base (layerWith (str% "a") (.create (.unc 0))))
      (layerWith (str% "a") (.update (.unc 0) (.unc 1)))).getString (str% "a") = .ok (some (.create (.unc 1))) ∧
    ∀ y ∈ stringChanges (Nested.over (.base (layerWith (str% "a") (.create (.unc 0))))
      (layerWith (str% "a") (.update (.unc 0) (.unc 1)))) (str% "a"), idAfter y ≠ none := by decide +kernel

/-- C26, strings: with a removal it does not. A string given to another concept by one layer and removed by the next
is read as if it had been that of the other concept before. -/
theorem string_start_lost : ∃ n s x, n.getString s = .ok x ∧ Chained (stringChanges n s) ∧
    x.map idBefore ≠ (stringChanges n s).head?.map idBefore := by
  refine ⟨.over (.base (layerWith (str% "a") (.update (.com 0) (.unc 1)))) (layerWith (str% "a") (.remove (.unc 1))),
    str% "a", some (.remove (.unc 1)), by decide +kernel, ?_, by decide +kernel⟩
  show List.IsChain _ [VChange.update (CId.com 0) (CId.unc 1), .remove (CId.unc 1)]
  simp [idAfter, idBefore]

/-- C26, order of application. -/
theorem order_through_layers (n : Nested) : n.order = (layers n).flatMap (·.order) :=
  layers_order n

/-- C26: going through all concepts with changes finds each of them with what reading it gives. -/
theorem all_concepts_through_layers {n : Nested} (h : Grown n) (a : CId) (v : List CDelta) :
    (a, v) ∈ n.iterConcepts ↔ conceptThrough (layers n) a = some v := by
  rw [← layers_getConcept]
  exact layers_iterConcepts n (Grown.layered h) a v

/-- C26: going through all changed strings finds each of them with what reading it gives. -/
theorem all_strings_through_layers {n : Nested} (h : Grown n) {L : List (Str × VChange CId)}
    (hL : n.iterString = .ok L) (s : Str) (v : VChange CId) :
    (s, v) ∈ L ↔ n.getString s = .ok (some v) :=
  (layers_iterString n (Grown.layered h) hL s).2 v

example : conceptThrough (layers grown2) (.unc 0) =
    some [.direct (.new (.str (str% "a"))), .indirect (.reducesFrom (.unc 1))] := by decide +kernel

example : grown2.getConcept (.unc 0) =
    some [.direct (.new (.str (str% "a"))), .indirect (.reducesFrom (.unc 1))] := by decide +kernel

example : Chained (stringChanges grown2 (str% "a")) := by
  have : stringChanges grown2 (str% "a") = [.create (.unc 0)] := by decide +kernel
  rw [this]
  exact .singleton _

example : (str% "a", .create (.unc 0)) ∈ ([(str% "a", .create (.unc 0))] : List (Str × VChange CId)) ↔
    grown2.getString (str% "a") = .ok (some (.create (.unc 0))) :=
  all_strings_through_layers grown2_grown (by decide +kernel) _ _

/-! ## C28: committing never crashes -/

/-- C28: a command can be committed exactly when each of its changes fits the store with the changes
before it: the concepts involved are stored and pairwise different, what gets parts or a reduction is
neither built in nor a string, and a pair of concepts has at most one composition. Nothing else makes
a commit crash; in particular the string table never does. -/
theorem commits_iff_changes_fit [HashOrder] {c c1 : Ctx} (h : Reachable c) {n : Nat} {s : Str}
    {x : Except ZiaError Str} (hc : Context.command n s c = .ok (x, c1)) :
    (∃ y, Context.execute n c s = .ok y) ↔
      ∀ before p rest g, c1.delta.order = before ++ p :: rest → c.snap.applyAll before = .ok g →
        CanApply g p :=
  execute_ok (History.settled h) hc

/-- C28, partial: a command that only introduces symbols and variables is always committed. Missing:
commands that define or reduce; some of them crash (`commit_crashes`). -/
theorem introductions_commit_partial [HashOrder] {c c1 : Ctx} (h : Reachable c) {n : Nat} {s : Str}
    {x : Except ZiaError Str} (hc : Context.command n s c = .ok (x, c1))
    (hi : ∀ p ∈ c1.delta.order, Introduces p) : ∃ y, Context.execute n c s = .ok y := by
  have hs := History.settled h
  have ht := (Context.command_traced n s c x c1 hc).2
  rw [hs.delta] at ht
  obtain ⟨o, g, _, hg, _⟩ := Trace.introduces hs.refs hs.prev ht hi
  exact (execute_ok hs hc).2 ((applyAll_ok hs.refs).1 ⟨g, hg⟩)

open Insertion in
/-- C28 is false: in a new context, `let let` gives the built-in concept `let` a reduction. The command
ends and its commit crashes. -/
theorem commit_crashes : Reachable boot ∧
    (∃ y, Context.command 60 (str% "let let") boot = .ok y) ∧
    Context.execute 60 boot (str% "let let") = .error (.panic .reduceConcrete) := by
  refine ⟨History.reachable boot_calm, ?_, Witness.crash_let⟩
  have e := Witness.let_command
  cases hc : Context.command 60 (str% "let let") boot with
  | error f => rw [hc] at e; cases e
  | ok p => exact ⟨p, rfl⟩

open Insertion in
/-- C28 is false in another way: two equal symbols side by side crash a new context. -/
theorem equal_pair_crashes :
    Context.execute 60 boot (str% "let b b -> c") = .error (.panic .notDisjoint) :=
  Witness.crash_pair

open Insertion in
example : ∃ y, Context.execute 60 boot (str% "foo") = .ok y := by
  have e := Witness.foo_command
  cases hc : Context.command 60 (str% "foo") boot with
  | error f => rw [hc] at e; cases e
  | ok p =>
    obtain ⟨x, c1⟩ := p
    rw [hc] at e
    simp only [Except.toOption, Option.map_some, Option.some.injEq, Prod.mk.injEq] at e
    refine introductions_commit_partial (History.reachable boot_calm) hc ?_
    intro p hp
    rw [e.2] at hp
    simp only [List.mem_cons, List.not_mem_nil, or_false] at hp
    rcases hp with rfl | rfl | rfl <;> trivial

end Zia.Props

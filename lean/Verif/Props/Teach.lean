import Verif.Lemmas.Teach
import Verif.Lemmas.Fits
import Verif.Witness.Cache
import Verif.Witness.Crash

/-!
# Only `let` and `forget` change what is known
-/

namespace Zia.Props

open Spec

/-- The answer of a command, and the command's end. -/
theorem answers_of_text {x : Except ZiaError Str} {out : Str}
    (e : out = match x with | .ok a => a | .error e => e.message) (ho : out ≠ [])
    (hl : ∀ e : ZiaError, FoundLate e = true → out ≠ e.message) : Answers x := by
  cases x with
  | ok a => subst e; exact ho
  | error e' =>
    subst e
    show FoundLate e' = false
    cases h : FoundLate e' with
    | false => rfl
    | true => exact absurd rfl (hl e' h)

/-! ## C53: a command answered with text teaches nothing -/

/-- C53: in any history, a command that is answered with a text, other than the messages of the errors that
are found when a part of the change is made, teaches nothing and forgets nothing: every stored concept
keeps its reduction, its definition, its string and its meaning to the program, nothing new reduces to it,
and everything added is a name or has no content. -/
theorem answered_teaches_nothing [HashOrder] {c c' : Ctx} (h : Reachable c) {n : Nat} {s out : Str}
    (he : Context.execute n c s = .ok (out, c')) (ho : out ≠ [])
    (hl : ∀ e : ZiaError, FoundLate e = true → out ≠ e.message) : OnlyNames c.snap c'.snap := by
  obtain ⟨x, c1, hc, ht, ha, _, _, _, e⟩ := execute_command he
  have hs := History.settled h
  have hi : ∀ p ∈ c1.delta.order, Introduces p := by
    obtain ⟨_, L, hL, hq⟩ := Context.command_introduces hc (answers_of_text e ho hl)
    rw [hs.delta] at hL
    intro p hp
    rw [hL] at hp
    rcases List.mem_append.1 hp with hp | hp
    · cases hp
    · exact hq p hp
  rw [hs.delta] at ht
  exact introduces_names (History.nameable h) hs.prev ht hi ha

open Insertion in
/-- After `let a -> b`, the question `a foo` introduces a name, and what is known stays. -/
example : Witness.kept1.snap ≠ Witness.kept2.snap ∧ OnlyNames Witness.kept1.snap Witness.kept2.snap := by
  refine ⟨by decide +kernel, answered_teaches_nothing
    (Reachable.next (History.reachable boot_calm) Witness.kept1_eq) Witness.kept2_eq (by decide) ?_⟩
  intro e he
  cases e with
  | redundantReduction t =>
    intro h
    have := congrArg List.head? h
    revert this
    simp [ZiaError.message]
  | _ => first | (cases he; done) | decide

/-- C53, the other side: what `let` teaches is a change that is not allowed there. -/
theorem teaching_is_not_answered [HashOrder] {c c' : Ctx} (h : Reachable c) {n : Nat} {s out : Str}
    (he : Context.execute n c s = .ok (out, c')) {i j : Nat} (hi : i < c.snap.concepts.length)
    (ht : ¬ReducesTo c.snap i j) (ht' : ReducesTo c'.snap i j) :
    out = [] ∨ ∃ e : ZiaError, FoundLate e = true ∧ out = e.message := by
  by_contra hn
  rw [not_or] at hn
  obtain ⟨h1, h2⟩ := hn
  have := answered_teaches_nothing h he h1 (fun e hl ho => h2 ⟨e, hl, ho⟩)
  exact ht ((this.reductions i j hi).1 ht')

/-! ## C28: such a command is committed -/

/-- C28, partial: a command that is answered with a text, or rejected with an error found before any change
is made, is always committed. Missing: commands that define or reduce. -/
theorem answered_commits_partial [HashOrder] {c c1 : Ctx} (h : Reachable c) {n : Nat} {s : Str}
    {x : Except ZiaError Str} (hc : Context.command n s c = .ok (x, c1)) (hx : Answers x) :
    ∃ y, Context.execute n c s = .ok y := by
  have hs := History.settled h
  have ht := (Context.command_traced n s c x c1 hc).2
  rw [hs.delta] at ht
  obtain ⟨_, L, hL, hq⟩ := Context.command_introduces hc hx
  obtain ⟨o, g, _, hg, _⟩ := Trace.introduces hs.refs hs.prev ht (by
    rw [hs.delta] at hL
    intro p hp
    rw [hL] at hp
    rcases List.mem_append.1 hp with hp | hp
    · cases hp
    · exact hq p hp)
  exact (execute_ok hs hc).2 ((applyAll_ok hs.refs).1 ⟨g, hg⟩)

open Insertion in
example : ∃ x c1, Context.command 60 (str% "foo") boot = .ok (x, c1) ∧ Answers x := by
  have e := Witness.foo_command
  cases hc : Context.command 60 (str% "foo") boot with
  | error f => rw [hc] at e; cases e
  | ok p =>
    obtain ⟨x, c1⟩ := p
    rw [hc] at e
    simp only [Except.toOption, Option.map_some, Option.some.injEq, Prod.mk.injEq] at e
    refine ⟨x, c1, rfl, ?_⟩
    cases x with
    | error e' => cases e.1
    | ok a => cases e.1; simp [Answers]

/-! ## C39: errors that are found early -/

/-- C39, partial: a command rejected with an error that is found before any change is made teaches nothing.
Missing: names are introduced all the same (`rejected_changes_store`), and an error found late leaves a
part of the change. -/
theorem rejected_early_partial [HashOrder] {c c1 c' : Ctx} (h : Reachable c) {n : Nat} {s : Str}
    {e : ZiaError} (hc : Context.command n s c = .ok (.error e, c1)) (hl : FoundLate e = false)
    {out : Str} (he : Context.execute n c s = .ok (out, c')) : OnlyNames c.snap c'.snap := by
  obtain ⟨x, c2, hc', ht, ha, _⟩ := execute_command he
  rw [hc] at hc'
  cases hc'
  have hs := History.settled h
  obtain ⟨_, L, hL, hq⟩ := Context.command_introduces hc (r := .error e) hl
  rw [hs.delta] at ht hL
  refine introduces_names (History.nameable h) hs.prev ht (fun p hp => ?_) ha
  rw [hL] at hp
  rcases List.mem_append.1 hp with hp | hp
  · cases hp
  · exact hq p hp

open Insertion in
example : ∃ c1 out c', Context.command 60 (str% "let a := b") boot = .ok (.error .redundantRefactor, c1) ∧
    FoundLate .redundantRefactor = false ∧ Context.execute 60 boot (str% "let a := b") = .ok (out, c') := by
  have h := Witness.refused_command
  have h' := Witness.refused_execute
  match hx : Context.command 60 (str% "let a := b") boot, h with
  | .ok (x, c1), h =>
    match hy : Context.execute 60 boot (str% "let a := b"), h' with
    | .ok (y, c'), h' =>
      simp only [Except.toOption, Option.map_some, Option.some.injEq, decide_eq_true_eq] at h
      rw [h]
      exact ⟨c1, y, c', rfl, rfl, rfl⟩

end Zia.Props

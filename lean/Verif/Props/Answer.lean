import Verif.Lemmas.Reach
import Verif.Lemmas.Parse
import Verif.Lemmas.Check
import Verif.Witness.Crash
import Verif.Props.Search
import Verif.Props.Nest

/-!
# Properties of the answers to commands
-/

namespace Zia.Props

open Spec CM

set_option maxRecDepth 100000

/-- Nothing to commit. -/
theorem commit_nothing {c : Ctx} (h : Reachable c) : Context.commit c = .ok c := by
  have hs := History.settled h
  obtain ⟨snap, delta, cache, vars, bound, pinned⟩ := c
  obtain ⟨sm, cs, cc, prev⟩ := snap
  have h1 : prev = [] := hs.prev
  have h2 : delta = Nested.default := hs.delta
  subst h1 h2
  rfl

/-! ## C39: rejected commands -/

/-- The part of C39 that holds: a command without symbols, with an empty group or with parentheses that do
not match is answered by the message for that mistake and leaves everything as it was, in every reachable
context. Missing: later errors, which come after changes have been made (`rejected_changes_store`). -/
theorem rejected_by_grouping_partial [HashOrder] {n : Nat} {c : Ctx} {s : Str} {ls : List Lexeme}
    {e : ZiaError} (h : Reachable c) (hl : lex (Parser.conceptKind ⟨c.snap, c.delta⟩ n) s = .ok ls)
    (hn : nest ls = .error e) : Context.execute n c s = .ok (e.message, c) := by
  have hc : Context.command n s c = .ok (.error e, c) := by
    unfold Context.command Parser.astFromExpression
    simp only [bind_apply, reading_apply, CM.ofE, hl]
    simp only [bind, Except.bind, pure, Except.pure, hn]
    rfl
  have hs := History.settled h
  unfold Context.execute
  rw [hc]
  show (Context.commit c >>= fun c => _) = _
  rw [commit_nothing h]
  show Except.ok (e.message, _) = _
  rw [← hs.vars, ← hs.bound]

open Insertion in
/-- `(a` is such a command, in a new context. -/
example : Context.execute 60 boot (str% "(a") = .ok (ZiaError.unmatchedParentheses.message, boot) := by
  refine rejected_by_grouping_partial (ls := [⟨['('], .opening none⟩, ⟨['a'], .concept .new⟩])
    (History.reachable boot_calm) ?_ ?_
  · decide +kernel
  · rfl

/-- C39 is false: `let a := b` is rejected in a new context, and yet what is stored changes. -/
theorem rejected_changes_store : ∃ (o : HashOrder) (c c' c₁ : Ctx) (n : Nat) (s : Str) (e : ZiaError),
    Reachable c ∧ @Context.command o n s c = .ok (.error e, c₁) ∧
    @Context.execute o n c s = .ok (e.message, c') ∧ c'.snap ≠ c.snap := by
  have h := Witness.refused_command
  have h' := Witness.refused_execute
  match hx : @Context.command .insertion 60 (str% "let a := b") boot, h with
  | .ok (x, c₁), h =>
    match hy : @Context.execute .insertion 60 boot (str% "let a := b"), h' with
    | .ok (y, c'), h' =>
      simp only [Except.toOption, Option.map_some, Option.some.injEq, decide_eq_true_eq, Prod.mk.injEq,
        decide_eq_false_iff_not] at h h'
      rw [h] at hx
      rw [h'.1] at hy
      exact ⟨_, _, _, _, _, _, _, History.reachable boot_calm, hx, hy, h'.2⟩

/-! ## C40: every command is answered -/

/-- C40 is false: there is a command that crashes a new context, however long it may run. -/
theorem not_every_command_answered : ∃ (o : HashOrder) (c : Ctx) (s : Str), Reachable c ∧
    ∀ n r, @Context.execute o n c s ≠ .ok r := by
  refine ⟨.insertion, boot, str% "let let", History.reachable boot_calm, fun n r h => ?_⟩
  have hp := Witness.crash_let
  rcases Nat.le_total n 60 with hn | hn
  · rw [(@outcome_stable .insertion _ _ hn _ _).1 _ h] at hp
    cases hp
  · rw [(@outcome_stable .insertion _ _ hn _ _).2 _ hp] at h
    cases h

/-- The part of C40 that holds: commands that are rejected because of their parentheses are answered.
Missing: the other commands, some of which crash (`not_every_command_answered`). -/
theorem grouping_answered_partial [HashOrder] {n : Nat} {c : Ctx} {s : Str} {ls : List Lexeme}
    (h : Reachable c) (hl : lex (Parser.conceptKind ⟨c.snap, c.delta⟩ n) s = .ok ls)
    (hn : ¬ (toks ls ≠ [] ∧ Viable (toks ls) 0)) : ∃ e c', Context.execute n c s = .ok (ZiaError.message e, c') := by
  rw [← nest_accepts_iff] at hn
  cases ht : nest ls with
  | ok t => exact absurd ⟨t, ht⟩ hn
  | error e => exact ⟨e, c, rejected_by_grouping_partial h hl ht⟩

section

open Insertion

/-- `(a` is lexed in a new context and is not well formed. -/
example : ∃ e c', Context.execute 60 boot (str% "(a") = .ok (ZiaError.message e, c') := by
  refine grouping_answered_partial (ls := [⟨['('], .opening none⟩, ⟨['a'], .concept .new⟩])
    (History.reachable boot_calm) (by decide +kernel) ?_
  rw [← nest_accepts_iff]
  rintro ⟨t, ht⟩
  cases ht

end

end Zia.Props

import Verif.Props.Cache
import Verif.Props.Search
import Verif.Props.Session

/-!
# Asking the same question again
-/

namespace Zia.Props

open Spec

/-! ## C63: a question asked again is answered in the same way -/

/-- C63 is false: there is a question that is answered, and that crashes when it is asked again, however long it may
run. -/
theorem repeated_question_crashes : ∃ (o : HashOrder) (c c₁ : Ctx) (n : Nat) (q a : Str), Reachable c ∧
    @Context.execute o n c q = .ok (a, c₁) ∧ ∀ m r, @Context.execute o m c₁ q ≠ .ok r := by
  letI : HashOrder := .insertion
  refine ⟨.insertion, _, _, _, _, _, Reachable.next (History.reachable boot_calm) Witness.kept1_eq, Witness.kept2_eq,
    fun m r h => ?_⟩
  have hp := Witness.kept_crash
  rcases Nat.le_total m 60 with hm | hm
  · rw [(@outcome_stable .insertion _ _ hm _ _).1 _ h] at hp
    cases hp
  · rw [(@outcome_stable .insertion _ _ hm _ _).2 _ hp] at h
    cases h

/-- A question leaves what was told as it is. -/
theorem after_question {q : Say} (h : q.Question) (L : Facts) : L.after q = L := by
  cases q <;> first | rfl | exact h.elim

theorem after_questions {qs : List Say} (h : ∀ q ∈ qs, q.Question) (L : Facts) : qs.foldl Facts.after L = L := by
  induction qs with
  | nil => rfl
  | cons q qs ih =>
    rw [List.foldl_cons, after_question (h q (List.mem_cons_self ..))]
    exact ih fun p hp => h p (List.mem_cons_of_mem _ hp)

/-- The answer to a question does not depend on what comes after. -/
theorem talk_question {L : Facts} {q : Say} (hq : q.Question) {rest : List Say} {outs : List Str}
    (h : Talk L (q :: rest) outs) : ∃ a o, outs = a :: o ∧ Talk L [q] [a] ∧ Talk L rest o := by
  generalize hs : q :: rest = all at h
  cases h with
  | nil => cases hs
  | tell => cases hs; exact hq.elim
  | existing => cases hs; exact hq.elim
  | cyclic => cases hs; exact hq.elim
  | itself => cases hs; exact hq.elim
  | idle => cases hs; exact hq.elim
  | forget => cases hs; exact hq.elim
  | nothing => cases hs; exact hq.elim
  | ask hz t => cases hs; exact ⟨_, _, rfl, .ask hz .nil, t⟩
  | wonder hz t => cases hs; exact ⟨_, _, rfl, .wonder hz .nil, t⟩
  | pair hx hy t => cases hs; exact ⟨_, _, rfl, .pair hx hy .nil, t⟩
  | name t => cases hs; exact ⟨_, _, rfl, .name .nil, t⟩
  | arrow hz ht t => cases hs; exact ⟨_, _, rfl, .arrow hz ht .nil, t⟩
  | arrowIdle no t => cases hs; exact ⟨_, _, rfl, .arrowIdle no .nil, t⟩

/-- The part of C63 that holds for sessions about words. Let a session be as in `words_session`, and let a question be
asked twice in it, with any number of other questions but no telling and no forgetting in between. Then both answers are
the same, also if the question is written with brackets one time and without them the other time. Missing: other sessions,
that the question is answered the second time (it may crash, `repeated_question_crashes`, also in sessions about words if
the words of a pair are new the first time), and answers after commands that change nothing that matters to the
question. -/
theorem repeated_question_partial [HashOrder] {n : Nat} (hn : 1 ≤ n) {said more : List Say} {q : Say} {us outs : List Str}
    {c' : Ctx} (hq : q.Question) (hm : ∀ s ∈ more, s.Question)
    (hw : ∀ s ∈ said ++ q :: (more ++ [q]), ∀ t ∈ s.words,
      IsSymbol t ∧ Syn.isVariableName t = false ∧ NewWord boot.snap t)
    (hh : Heard [] (said ++ q :: (more ++ [q]))) (hs : Written (said ++ q :: (more ++ [q])) us)
    (he : Context.run n boot us = .ok (outs, c')) :
    ∃ before a between, outs = before ++ a :: (between ++ [a]) ∧ before.length = said.length ∧
      between.length = more.length := by
  obtain ⟨o1, o2, rfl, l1, t⟩ := (words_session hn hw hh hs he).split
  have hL := Facts.sound_nil.foldl said
  obtain ⟨a, o, rfl, ta, t⟩ := talk_question hq t
  obtain ⟨o3, o4, rfl, l3, t⟩ := t.split
  rw [after_questions hm] at t
  exact ⟨o1, a, o3, by rw [Talk.unique hL t ta], l1, l3⟩

section

open Insertion

/-- The session `let (a (-> b))`, `a (-> b)`, `a`, `a -> b` meets the hypotheses. -/
example : ∃ outs c', Written ([Say.tell (str% "a") (str% "b")] ++ .wonder (str% "a") (str% "b") ::
      ([.ask (str% "a")] ++ [.wonder (str% "a") (str% "b")]))
      [str% "let (a (-> b))", str% "a (-> b)", str% "a", str% "a -> b"] ∧
    Context.run 60 boot [str% "let (a (-> b))", str% "a (-> b)", str% "a", str% "a -> b"] = .ok (outs, c') ∧
    outs = [[]] ++ str% "true" :: ([str% "b"] ++ [str% "true"]) := by
  have h : (Context.run 60 boot [str% "let (a (-> b))", str% "a (-> b)", str% "a", str% "a -> b"]).map (·.1) =
      .ok [[], str% "true", str% "b", str% "true"] := by decide +kernel
  match hr : Context.run 60 boot [str% "let (a (-> b))", str% "a (-> b)", str% "a", str% "a -> b"], h with
  | .ok (outs, c'), h =>
    cases h
    exact ⟨_, c', .cons (.full (.tell (str% "a") (str% "b"))) (.cons (.full (.wonder (str% "a") (str% "b")))
      (.cons (.full (.ask (str% "a"))) (.cons (.wonder (str% "a") (str% "b")) .nil))), rfl, rfl⟩

end

end Zia.Props

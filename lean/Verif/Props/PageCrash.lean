import Verif.Props.Page
import Verif.Witness.Page

/-!
# Properties C47 and C49: what goes wrong on the page

And cases that meet the hypotheses of the theorems about the page.
-/

namespace Zia.Props

open Zia Zia.Spec Zia.Page Zia.Witness Insertion

/-- Every step of every tutorial can be reached with commands that are answered with nothing. -/
theorem visit_any {t : Tutorial} (ht : t ∈ Tutorials.all) (k : Nat) (hk : k < t.steps.length) :
    ∃ a s, Visit 60 a ∧ a.screen = some (some s) ∧ a.onHome = true ∧ a.pending = [] ∧
      a.home.tutorial = some ⟨t.steps, k, false⟩ ∧
      ∃ cmd c, Context.execute 60 a.home.context cmd = .ok ([], c) ∧ (c = silent1 ∨ c = silent2) := by
  induction k with
  | zero =>
    obtain ⟨a, s, h1, -, h2, h3, h4, h5, h6, h7⟩ := visit_first new_eq ht
    exact ⟨a, s, h1, h2, h3, h4, h5, _, _, by rw [h6]; exact silent1_eq, .inl rfl⟩
  | succ k ih =>
    obtain ⟨a, s, h1, h2, h3, h4, h5, cmd, c, hx, hc⟩ := ih (by omega)
    obtain ⟨b, u, g1, g2, g3, g4, g5, g6⟩ := visit_advance h1 h3 h2 h4 h5 hk hx
    refine ⟨b, u, g1, g3, g2, g4, g5, ?_⟩
    rw [g6]
    rcases hc with rfl | rfl
    · exact ⟨_, _, silent2_eq, .inr rfl⟩
    · exact ⟨_, _, silent3_eq, .inl rfl⟩

/-- C47 is false: in each of the three tutorials a visitor can make the page crash with nothing but
commands that the interpreter accepts and answers with nothing. -/
theorem page_crashes {t : Tutorial} (ht : t ∈ Tutorials.all) :
    ∃ a l, Visit 60 a ∧ a.home.tutorial = some l ∧ l.steps = t.steps ∧
      a.step 60 .frame = .error .index := by
  have hpos : 0 < t.steps.length := by
    simp only [Tutorials.all, List.mem_cons, List.not_mem_nil, or_false] at ht
    rcases ht with rfl | rfl | rfl <;> exact Nat.succ_pos _
  obtain ⟨a, s, h1, h2, h3, h4, h5, cmd, c, hx, -⟩ :=
    visit_any ht (t.steps.length - 1) (by omega)
  have hv := visit_enter h1 h2 h4 hx (.inr ⟨_, _, h5, answered_ok _ _, rfl⟩)
  refine ⟨_, _, hv, rfl, rfl, ?_⟩
  have hnone : t.steps[t.steps.length - 1 + 1]? = none := by
    rw [List.getElem?_eq_none_iff]; omega
  simp [App.step, App.frame, App.render, h3, view, noteOf, stepAt, hnone, bind, Except.bind]

/-- C49 is false of a session that a visitor can have: a tutorial is started, the menu opened again and
an empty session started; the explanation of the tutorial is still there. -/
theorem empty_session_false : ∃ a b c t s, Visit 60 a ∧ Possible a (.msg .startEmpty) ∧
    a.step 60 (.msg .startEmpty) = .ok b ∧ b.step 60 .frame = .ok c ∧ c.screen = some (some t) ∧
    t.note = .explanation s ∧ s ≠ [] := by
  obtain ⟨a, s, h1, hled, h2, h3, h4, h5, h6, h7⟩ := visit_first new_eq (t := Tutorials.arrays)
    (by simp [Tutorials.all])
  have hin : a.step 60 (.msg (.input [])) = .ok { a with home := { a.home with input := [] } } := by
    simp [App.step, App.handle, update, bind, Except.bind, pure, Except.pure]
  have v1 := h1.event (e := .msg (.input [])) (by rw [Possible, h2]; exact .input) hin
  have hm : ({ a with home := { a.home with input := [] } } : App).step 60 (.msg .toggleMenu) =
      .ok { a with home := { a.home with input := [], isOpen := true } } := by
    simp [App.step, App.handle, update, h7, bind, Except.bind, pure, Except.pure]
  have v2 := v1.event (e := .msg .toggleMenu) (by simp only [Possible, h2]; exact .menu) hm
  have hnote : noteOf (some ⟨Tutorials.arrays.steps, 0, false⟩) =
      .ok (.explanation (str% "Define the base case for array access")) := by
    decide +kernel
  obtain ⟨b, u, hb, i1, -, i2, i3, i4, i5, i6, i7⟩ := frame_view (n := 60)
    (a := { a with home := { a.home with input := [], isOpen := true } }) h3 rfl
    (by rw [h5]; exact hnote)
  have v3 := v2.event (e := .frame) trivial hb
  have hopen : u.menu = some Tutorials.all := by
    obtain ⟨v, hv, rfl⟩ := frame_ok hb
    simp only [Option.some.injEq] at i1
    subst i1
    rcases render_ok hv with ⟨h0, -⟩ | ⟨u', -, he, hw⟩
    · rw [show _ = true from h3] at h0; simp at h0
    simp only [Option.some.injEq] at he
    subst he
    obtain ⟨ls, -, -, -, -, -, hm⟩ := view_ok hw
    exact hm
  have hp : Possible b (.msg .startEmpty) := by
    rw [Possible, i1]; exact .empty (by simp [hopen])
  have hs : b.step 60 (.msg .startEmpty) =
      .ok { b with home := { b.home with context := boot, history := [], isOpen := false } } := by
    simp [App.step, App.handle, update, Home.reset, new_eq, ofContext, bind, Except.bind, pure,
      Except.pure]
  obtain ⟨c, w, hc, j1, j2, -⟩ := frame_view (n := 60)
    (a := { b with home := { b.home with context := boot, history := [], isOpen := false } }) i2
    (by simpa [h4] using i7) (by simp only [i6, h5]; exact hnote)
  exact ⟨b, _, c, w, _, v3, hp, hs, hc, j1, j2, by simp⟩

/-- The context of a visitor who is led by a tutorial. -/
theorem led_context {n : Nat} {steps : List TutorialStep} {k : Nat} {a : App} {c d : Ctx}
    {rs : List Str} (h : Led n steps k a) (hc : Context.new n = .ok c)
    (hr : Context.run n c ((steps.take k).map (·.command)) = .ok (rs, d)) :
    a.home.context = d ∧ ∃ s, steps[k]? = some s ∧ a.home.input = s.command := by
  obtain ⟨s, h1, h2, -, answers, -, -, e, he, hx⟩ := tutorial_followed h
  rw [hc, Except.ok.injEq] at he
  subst he
  rw [hr, Except.ok.injEq, Prod.mk.injEq] at hx
  exact ⟨hx.2.symm, s, h1, h2⟩

theorem echo_run : Context.run 60 boot [str% "let a -> b", str% "a"] = .ok ([[], str% "b"], echo2) := by
  simp [Context.run, echo1_eq, echo2_eq, bind, Except.bind, pure, Except.pure]

/-- A visitor is led through a tutorial of three steps: the first is answered with nothing, the others
with something. -/
theorem led_last : ∃ a, Led 60 Witness.steps 2 a ∧ a.home.context = echo2 ∧
    a.home.input = str% "a" := by
  have h0 : ∃ a, Led 60 Witness.steps 0 a := by
    obtain ⟨a, ha⟩ : ∃ a, (⟨true, ⟨boot, [], [], true, none⟩, [], none⟩ : App).step 60
        (.msg (.startTutorial Witness.steps)) = .ok a := by
      simp [App.step, App.handle, update, Home.reset, new_eq, ofContext, stepAt, Witness.steps, bind,
        Except.bind, pure, Except.pure]
    obtain ⟨h', o, hu, rfl⟩ := handle_ok ha
    obtain ⟨c, s, -, -, -, rfl⟩ := update_startTutorial hu
    obtain ⟨b, -, hb, -⟩ := frame_view (n := 60) (s := .explanation (str% "Define a"))
      (a := { onHome := true,
              home := ⟨c, [], [], false, some ⟨Witness.steps, 0, false⟩⟩,
              pending := [] ++ o.toList, screen := none }) rfl rfl
      (by simp [noteOf, stepAt, Witness.steps, bind, Except.bind, pure, Except.pure])
    exact ⟨b, .start rfl ha hb⟩
  obtain ⟨a, ha⟩ := h0
  obtain ⟨e1, s, hs, e2⟩ := led_context ha new_eq rfl
  simp only [Witness.steps, List.getElem?_cons_zero, Option.some.injEq] at hs
  subst hs
  obtain ⟨b, hb⟩ := tutorial_proceeds ha (by decide) (by rw [e1, e2]; exact echo1_eq)
  have r1 : Context.run 60 boot ((Witness.steps.take 1).map (·.command)) = .ok ([[]], echo1) := by
    simp [Witness.steps, Context.run, echo1_eq, bind, Except.bind, pure, Except.pure]
  obtain ⟨e1, s, hs, e2⟩ := led_context hb new_eq r1
  simp only [Witness.steps, List.getElem?_cons_succ, List.getElem?_cons_zero,
    Option.some.injEq] at hs
  subst hs
  obtain ⟨c, hc⟩ := tutorial_proceeds hb (by decide) (by rw [e1, e2]; exact echo2_eq)
  obtain ⟨e1, s, hs, e2⟩ := led_context hc new_eq echo_run
  simp only [Witness.steps, List.getElem?_cons_succ, List.getElem?_cons_zero,
    Option.some.injEq] at hs
  subst hs
  exact ⟨c, hc, e1, e2⟩

/-- And completes it. -/
example : ∃ (b d : App) (answers : List Str), b.step 60 .frame = .ok d ∧
    Conversation 60 d.home (Witness.steps.map (·.command)) answers ∧
    answers.getLast? = some (str% "b") := by
  obtain ⟨a, ha, e1, e2⟩ := led_last
  obtain ⟨b, d, t, answers, -, h1, h2, h3, -⟩ := tutorial_completed ha rfl
    (by rw [e1, e2]; exact echo3_eq) (by decide)
  exact ⟨b, d, answers, h1, h2, h3⟩

/-- A text with symbols of several kinds, and parentheses with and without partners. -/
example : view 60 ⟨boot, str% "let) (a _x_", [], false, none⟩ = .ok
    ⟨[], .empty, [(some .concrete, str% "let"), (some .unmatched, str% ")"), (none, str% " "),
      (some .unmatched, str% "("), (some .new, str% "a"), (none, str% " "),
      (some .variable, str% "_x_")], str% "let) (a _x_", none⟩ := by
  decide +kernel

/-- A session of the shell. -/
example : Shell.loop 60 boot [str% "let a -> b", str% "a"] =
    ([[], str% "b", str% "Exiting"], .exiting) := by
  simpa using (shell_prints 60 boot _).1 _ _ echo_run

end Zia.Props

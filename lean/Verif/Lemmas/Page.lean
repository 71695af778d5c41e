import Verif.Spec.Page

/-!
# Facts about the machine of the page
-/

namespace Zia

open Spec Page

variable [HashOrder]

theorem ofContext_ok {α : Type} {m : Except Fault α} {a : α} (h : ofContext m = .ok a) :
    m = .ok a := by
  cases m with
  | ok x => simpa [ofContext] using h
  | error f => simp [ofContext] at h

theorem ofContext_index {α : Type} {m : Except Fault α} : ofContext m ≠ .error .index := by
  cases m <;> simp [ofContext]

theorem ofContext_error {α : Type} {m : Except Fault α} {f : Fault}
    (h : ofContext m = .error (.context f)) : m = .error f := by
  cases m with
  | ok x => simp [ofContext] at h
  | error g => simpa [ofContext] using h

theorem stepAt_ok {steps : List TutorialStep} {i : Nat} {s : TutorialStep} :
    stepAt steps i = .ok s ↔ steps[i]? = some s := by
  unfold stepAt
  cases steps[i]? <;> simp

theorem stepAt_lt {steps : List TutorialStep} {i : Nat} (h : i < steps.length) :
    stepAt steps i = .ok steps[i] := by
  simp [stepAt, h]

theorem stepAt_error {steps : List TutorialStep} {i : Nat} {e : Crash}
    (h : stepAt steps i = .error e) : e = .index ∧ steps.length ≤ i := by
  unfold stepAt at h
  cases hs : steps[i]? with
  | some s => simp [hs] at h
  | none =>
    simp only [hs, Except.error.injEq] at h
    exact ⟨h.symm, by simpa using hs⟩

theorem entries_snoc {cs rs : List Str} (h : cs.length = rs.length) (c r : Str) :
    entries (cs ++ [c]) (rs ++ [r]) = entries cs rs ++ [.command c, .evaluation r] := by
  induction cs generalizing rs with
  | nil =>
    cases rs with
    | nil => rfl
    | cons => simp at h
  | cons x xs ih =>
    cases rs with
    | nil => simp at h
    | cons y ys => simpa [entries] using ih (by simpa using h)

theorem run_snoc {n : Nat} {c d e : Ctx} {cs rs : List Str} {s r : Str}
    (h : Context.run n c cs = .ok (rs, d)) (h' : Context.execute n d s = .ok (r, e)) :
    Context.run n c (cs ++ [s]) = .ok (rs ++ [r], e) := by
  induction cs generalizing c rs with
  | nil =>
    simp only [Context.run, Except.ok.injEq, Prod.mk.injEq] at h
    obtain ⟨rfl, rfl⟩ := h
    simp [Context.run, h', bind, Except.bind, pure, Except.pure]
  | cons x xs ih =>
    simp only [Context.run, bind, Except.bind] at h
    cases hx : Context.execute n c x with
    | error f => simp [hx] at h
    | ok p =>
      obtain ⟨r0, c0⟩ := p
      simp only [hx] at h
      cases hr : Context.run n c0 xs with
      | error f => simp [hr] at h
      | ok q =>
        obtain ⟨rs0, d0⟩ := q
        simp only [hr, pure, Except.pure, Except.ok.injEq, Prod.mk.injEq] at h
        obtain ⟨rfl, rfl⟩ := h
        have := ih hr
        simp [Context.run, hx, this, bind, Except.bind, pure, Except.pure]

theorem run_length {n : Nat} {c d : Ctx} {cs rs : List Str}
    (h : Context.run n c cs = .ok (rs, d)) : cs.length = rs.length := by
  induction cs generalizing c rs with
  | nil =>
    simp only [Context.run, Except.ok.injEq, Prod.mk.injEq] at h
    simp [← h.1]
  | cons x xs ih =>
    simp only [Context.run, bind, Except.bind] at h
    cases hx : Context.execute n c x with
    | error f => simp [hx] at h
    | ok p =>
      obtain ⟨r0, c0⟩ := p
      simp only [hx] at h
      cases hr : Context.run n c0 xs with
      | error f => simp [hr] at h
      | ok q =>
        obtain ⟨rs0, d0⟩ := q
        simp only [hr, pure, Except.pure, Except.ok.injEq, Prod.mk.injEq] at h
        obtain ⟨rfl, rfl⟩ := h
        simp [ih hr]

/-- What submitting does. -/
theorem update_submit {n : Nat} {area : Bool} {h h' : Home} {o : Option Str}
    (e : update n area .submit h = .ok (h', o)) :
    ∃ r c, Context.execute n h.context h.input = .ok (r, c) ∧ h'.context = c ∧ h'.input = [] ∧
      h'.history = h.history ++ [.command h.input, .evaluation r] ∧ h'.isOpen = h.isOpen ∧
      ((h.tutorial = none ∧ h'.tutorial = none ∧ o = some []) ∨
        ∃ l l' next, h.tutorial = some l ∧ l.answered r = .ok (l', next) ∧ h'.tutorial = some l' ∧
          o = some next) := by
  simp only [update, bind, Except.bind] at e
  cases hx : ofContext (Context.execute n h.context h.input) with
  | error f => simp [hx] at e
  | ok p =>
    obtain ⟨r, c⟩ := p
    simp only [hx] at e
    refine ⟨r, c, ofContext_ok hx, ?_⟩
    cases ht : h.tutorial with
    | none =>
      simp only [ht, pure, Except.pure, Except.ok.injEq, Prod.mk.injEq] at e
      obtain ⟨rfl, rfl⟩ := e
      simp
    | some l =>
      simp only [ht] at e
      cases ha : l.answered r with
      | error f => simp [ha] at e
      | ok q =>
        obtain ⟨l', next⟩ := q
        simp only [ha, pure, Except.pure, Except.ok.injEq, Prod.mk.injEq] at e
        obtain ⟨rfl, rfl⟩ := e
        simp [ha]

theorem answered_ok (l : Lesson) (r : Str) :
    l.answered r = .ok (if r = [] then { l with current := l.current + 1 }
        else { l with showing := true },
      if r = [] then ((l.steps[l.current + 1]?).map (·.command)).getD [] else []) := by
  unfold Lesson.answered
  by_cases hr : r = []
  · subst hr
    by_cases hl : l.current + 1 < l.steps.length
    · simp [hl, stepAt, bind, Except.bind, pure, Except.pure]
    · simp [hl, pure, Except.pure]
  · simp [hr, pure, Except.pure]

/-- What a reset does. -/
theorem reset_ok {n : Nat} {h h' : Home} (e : h.reset n = .ok h') :
    ∃ c, Context.new n = .ok c ∧ h' = { h with context := c, history := [], isOpen := false } := by
  simp only [Home.reset, bind, Except.bind] at e
  cases hx : ofContext (Context.new n) with
  | error f => simp [hx] at e
  | ok c =>
    simp only [hx, pure, Except.pure, Except.ok.injEq] at e
    exact ⟨c, ofContext_ok hx, e.symm⟩

/-- The messages that change neither the context nor the conversation. -/
theorem update_other {n : Nat} {area : Bool} {m : Msg} {h h' : Home} {o : Option Str}
    (e : update n area m h = .ok (h', o)) (h1 : m ≠ .submit) (h2 : m ≠ .startEmpty)
    (h3 : ∀ s, m ≠ .startTutorial s) : h'.context = h.context ∧ h'.history = h.history := by
  cases m with
  | toggleMenu =>
    simp only [update, pure, Except.pure, Except.ok.injEq, Prod.mk.injEq] at e
    simp [← e.1]
  | input s =>
    simp only [update, pure, Except.pure, Except.ok.injEq, Prod.mk.injEq] at e
    simp [← e.1]
  | submit => exact absurd rfl h1
  | startEmpty => exact absurd rfl h2
  | startTutorial s => exact absurd rfl (h3 s)
  | setInput s =>
    cases area <;>
      simp only [update, pure, Except.pure, if_true, if_false, Bool.false_eq_true,
        Except.ok.injEq, Prod.mk.injEq] at e <;> simp [← e.1]
  | skip steps i =>
    simp only [update, bind, Except.bind] at e
    cases hs : stepAt steps (i + 1) with
    | error f => simp [hs] at e
    | ok s =>
      simp only [hs, pure, Except.pure, Except.ok.injEq, Prod.mk.injEq] at e
      simp [← e.1]

theorem update_startEmpty {n : Nat} {area : Bool} {h h' : Home} {o : Option Str}
    (e : update n area .startEmpty h = .ok (h', o)) :
    ∃ c, Context.new n = .ok c ∧ o = none ∧
      h' = { h with context := c, history := [], isOpen := false } := by
  simp only [update, bind, Except.bind] at e
  cases hr : h.reset n with
  | error f => simp [hr] at e
  | ok g =>
    simp only [hr, pure, Except.pure, Except.ok.injEq, Prod.mk.injEq] at e
    obtain ⟨rfl, rfl⟩ := e
    obtain ⟨c, hc, rfl⟩ := reset_ok hr
    exact ⟨c, hc, rfl, rfl⟩

theorem update_startTutorial {n : Nat} {area : Bool} {h h' : Home} {o : Option Str}
    {steps : List TutorialStep} (e : update n area (.startTutorial steps) h = .ok (h', o)) :
    ∃ c s, Context.new n = .ok c ∧ steps[0]? = some s ∧ o = some s.command ∧
      h' = { h with context := c, history := [], isOpen := false,
                    tutorial := some ⟨steps, 0, false⟩ } := by
  simp only [update, bind, Except.bind] at e
  cases hr : h.reset n with
  | error f => simp [hr] at e
  | ok g =>
    simp only [hr] at e
    cases hs : stepAt steps 0 with
    | error f => simp [hs] at e
    | ok s =>
      simp only [hs, pure, Except.pure, Except.ok.injEq, Prod.mk.injEq] at e
      obtain ⟨rfl, rfl⟩ := e
      obtain ⟨c, hc, rfl⟩ := reset_ok hr
      exact ⟨c, s, hc, stepAt_ok.1 hs, rfl, rfl⟩

theorem update_skip {n : Nat} {area : Bool} {h h' : Home} {o : Option Str} {i : Nat}
    {steps : List TutorialStep} (e : update n area (.skip steps i) h = .ok (h', o)) :
    ∃ s, steps[i + 1]? = some s ∧ o = some s.command ∧
      h' = { h with tutorial := some ⟨steps, i + 1, false⟩ } := by
  simp only [update, bind, Except.bind] at e
  cases hs : stepAt steps (i + 1) with
  | error f => simp [hs] at e
  | ok s =>
    simp only [hs, pure, Except.pure, Except.ok.injEq, Prod.mk.injEq] at e
    obtain ⟨rfl, rfl⟩ := e
    exact ⟨s, stepAt_ok.1 hs, rfl, rfl⟩

theorem handle_ok {n : Nat} {m : Msg} {a a' : App} (e : a.handle n m = .ok a') :
    ∃ h o, update n a.area m a.home = .ok (h, o) ∧
      a' = { a with home := h, pending := a.pending ++ o.toList } := by
  simp only [App.handle, bind, Except.bind] at e
  cases hu : update n a.area m a.home with
  | error f => simp [hu] at e
  | ok p =>
    obtain ⟨h, o⟩ := p
    simp only [hu, pure, Except.pure, Except.ok.injEq] at e
    exact ⟨h, o, rfl, e.symm⟩

/-- Setting the input. -/
theorem handle_setInput (n : Nat) (s : Str) (a : App) : a.handle n (.setInput s) =
    .ok { a with home := if a.area then { a.home with input := s } else a.home } := by
  cases h : a.area <;> simp [App.handle, update, h, bind, Except.bind, pure, Except.pure]

theorem foldlM_setInput (n : Nat) (ss : List Str) (a : App) :
    ss.foldlM (fun b s => b.handle n (.setInput s)) a =
      .ok { a with home := if a.area then { a.home with input := ss.getLast?.getD a.home.input }
        else a.home } := by
  induction ss generalizing a with
  | nil => cases h : a.area <;> rfl
  | cons s ss ih =>
    rw [List.foldlM_cons, handle_setInput]
    show List.foldlM _ _ ss = _
    rw [ih]
    cases h : a.area
    · simp only [App.area] at h ⊢
      simp [h]
    · simp only [App.area] at h ⊢
      cases ss with
      | nil => simp [h]
      | cons t ts => simp [h, List.getLast?_cons]

/-- What a frame does. -/
theorem frame_ok {n : Nat} {a a' : App} (e : a.frame n = .ok a') :
    ∃ s, a.render n = .ok s ∧ a' = { a with
      screen := some s
      pending := []
      home := if s.isSome then { a.home with input := a.pending.getLast?.getD a.home.input }
        else a.home } := by
  simp only [App.frame, bind, Except.bind] at e
  cases hr : a.render n with
  | error f => simp [hr] at e
  | ok s =>
    simp only [hr] at e
    rw [foldlM_setInput] at e
    refine ⟨s, rfl, ?_⟩
    simp only [Except.ok.injEq] at e
    subst e
    cases s <;> rfl

theorem render_ok {n : Nat} {a : App} {s : Option Screen} (e : a.render n = .ok s) :
    (a.onHome = false ∧ s = none) ∨ ∃ t, a.onHome = true ∧ s = some t ∧ view n a.home = .ok t := by
  unfold App.render at e
  cases ho : a.onHome
  · simp only [ho, Bool.false_eq_true, if_false, Except.ok.injEq] at e
    exact .inl ⟨rfl, e.symm⟩
  · simp only [ho, if_true, bind, Except.bind] at e
    cases hv : view n a.home with
    | error f => simp [hv] at e
    | ok t =>
      simp only [hv, pure, Except.pure, Except.ok.injEq] at e
      exact .inr ⟨t, rfl, e.symm, rfl⟩

/-- What a screen consists of. -/
theorem view_ok {n : Nat} {h : Home} {s : Screen} (e : view n h = .ok s) :
    ∃ ls, noteOf h.tutorial = .ok s.note ∧
      lex (Parser.conceptKind ⟨h.context.snap, h.context.delta⟩ n) h.input = .ok ls ∧
      s.history = h.history ∧ s.spans = ls.map (fun l => (colour l.category, l.text)) ∧
      s.text = h.input ∧ s.menu = if h.isOpen then some Tutorials.all else none := by
  simp only [view, bind, Except.bind] at e
  cases hn : noteOf h.tutorial with
  | error f => simp [hn] at e
  | ok t =>
    simp only [hn] at e
    cases hl : ofContext (lex (Parser.conceptKind ⟨h.context.snap, h.context.delta⟩ n) h.input) with
    | error f => simp [hl] at e
    | ok ls =>
      simp only [hl, pure, Except.pure, Except.ok.injEq] at e
      subst e
      exact ⟨ls, rfl, ofContext_ok hl, rfl, rfl, rfl, rfl⟩

end Zia

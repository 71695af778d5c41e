import Verif.Lemmas.Page
import Verif.Lemmas.Lex

/-!
# Properties C46, C47, C48, C49, C50, C51: the front ends
-/

namespace Zia.Props

open Zia Zia.Spec Zia.Page

variable [HashOrder]

theorem conversation_nil {n : Nat} {h : Home} {c : Ctx} (hc : Context.new n = .ok c)
    (h1 : h.context = c) (h2 : h.history = []) :
    ∃ cmds answers, Conversation n h cmds answers :=
  ⟨[], [], rfl, by rw [h2]; simp only [entries], c, hc, by rw [h1]; simp only [Context.run]⟩

/-- C46. Whatever a visitor does, the conversation on the page consists of commands and the answers
that a new context gives to them in this order, and the context of the page is the one after the last of
them. -/
theorem page_conversation {n : Nat} {a : App} (h : Visit n a) :
    ∃ cmds answers, Conversation n a.home cmds answers := by
  induction h with
  | @start b a h =>
    simp only [App.init, Home.first, bind, Except.bind] at h
    cases hx : ofContext (Context.new n) with
    | error f => simp [hx] at h
    | ok c =>
      simp only [hx, pure, Except.pure, Except.ok.injEq] at h
      subst h
      exact conversation_nil (ofContext_ok hx) rfl rfl
  | @event a e a' _ _ hs ih =>
    obtain ⟨cmds, answers, hl, hh, c, hc, hr⟩ := ih
    cases e with
    | url b =>
      simp only [App.step, Except.ok.injEq] at hs
      subst hs
      exact ⟨cmds, answers, hl, hh, c, hc, hr⟩
    | frame =>
      obtain ⟨s, -, rfl⟩ := frame_ok hs
      cases s with
      | none => exact ⟨cmds, answers, hl, hh, c, hc, hr⟩
      | some t => exact ⟨cmds, answers, hl, hh, c, hc, hr⟩
    | msg m =>
      obtain ⟨h', o, hu, rfl⟩ := handle_ok hs
      by_cases h1 : m = .submit
      · subst h1
        obtain ⟨r, d, hx, hd, -, hy, -⟩ := update_submit hu
        refine ⟨cmds ++ [a.home.input], answers ++ [r], by simp [hl], ?_, c, hc, ?_⟩
        · rw [entries_snoc hl, ← hh]; exact hy
        · simp only [hd]; exact run_snoc hr hx
      · by_cases h2 : m = .startEmpty
        · subst h2
          obtain ⟨d, hd, -, rfl⟩ := update_startEmpty hu
          exact conversation_nil hd rfl rfl
        · by_cases h3 : ∀ s, m ≠ .startTutorial s
          · obtain ⟨e1, e2⟩ := update_other hu h1 h2 h3
            refine ⟨cmds, answers, hl, ?_, c, hc, ?_⟩
            · exact e2.trans hh
            · simp only [e1]; exact hr
          · simp only [ne_eq, Classical.not_forall, Classical.not_not] at h3
            obtain ⟨ss, rfl⟩ := h3
            obtain ⟨d, s, hd, -, -, rfl⟩ := update_startTutorial hu
            exact conversation_nil hd rfl rfl

/-- C46, one command: entering the text of the input adds it and its answer to the conversation, and
what is rendered next shows the conversation. -/
theorem page_submit {n : Nat} {a b c : App} {cmds answers : List Str}
    (ha : Conversation n a.home cmds answers) (hs : a.step n (.msg .submit) = .ok b)
    (hf : b.step n .frame = .ok c) (ho : a.onHome = true) :
    ∃ r, Conversation n c.home (cmds ++ [a.home.input]) (answers ++ [r]) ∧
      ∃ s, c.screen = some (some s) ∧
        s.history = entries (cmds ++ [a.home.input]) (answers ++ [r]) := by
  obtain ⟨hl, hh, d, hd, hr⟩ := ha
  obtain ⟨h', o, hu, rfl⟩ := handle_ok hs
  obtain ⟨r, e, hx, he, -, hy, -⟩ := update_submit hu
  obtain ⟨s, hv, rfl⟩ := frame_ok hf
  rcases render_ok hv with ⟨h0, -⟩ | ⟨t, -, rfl, ht⟩
  · rw [show _ = true from ho] at h0; simp at h0
  obtain ⟨ls, -, -, h1, -⟩ := view_ok ht
  have hy' : h'.history = entries (cmds ++ [a.home.input]) (answers ++ [r]) := by
    rw [entries_snoc hl, ← hh]; exact hy
  refine ⟨r, ⟨by simp [hl], hy', d, hd, ?_⟩, t, rfl, h1.trans hy'⟩
  simp only [Option.isSome_some, if_true, he]
  exact run_snoc hr hx

/-- What a screen offers is in range. -/
theorem visit_screen {n : Nat} {a : App} (h : Visit n a) (s : Screen)
    (hs : a.screen = some (some s)) :
    (∀ ts, s.menu = some ts → ∀ t ∈ ts, t.steps ≠ []) ∧
      ∀ steps i, s.note = .next steps i → i + 1 < steps.length := by
  induction h with
  | @start b a h =>
    simp only [App.init, bind, Except.bind] at h
    cases hx : Home.first n with
    | error f => simp [hx] at h
    | ok c =>
      simp only [hx, pure, Except.pure, Except.ok.injEq] at h
      subst h
      simp at hs
  | @event a e a' _ _ he ih =>
    cases e with
    | url b =>
      simp only [App.step, Except.ok.injEq] at he
      subst he
      exact ih hs
    | msg m =>
      obtain ⟨h', o, hu, rfl⟩ := handle_ok he
      exact ih hs
    | frame =>
      obtain ⟨t, ht, rfl⟩ := frame_ok he
      simp only [Option.some.injEq] at hs
      subst hs
      rcases render_ok ht with ⟨-, h0⟩ | ⟨u, -, h0, hv⟩
      · simp at h0
      simp only [Option.some.injEq] at h0
      subst h0
      obtain ⟨ls, hn, -, -, -, -, hm⟩ := view_ok hv
      refine ⟨fun ts hts t hmem => ?_, fun steps i hi => ?_⟩
      · rw [hts] at hm
        split at hm
        · simp only [Option.some.injEq] at hm
          subst hm
          simp only [Tutorials.all, List.mem_cons, List.not_mem_nil, or_false] at hmem
          rcases hmem with rfl | rfl | rfl <;> exact List.cons_ne_nil _ _
        · simp at hm
      · rw [hi] at hn
        cases htu : a.home.tutorial with
        | none => simp [htu, noteOf] at hn
        | some l =>
          obtain ⟨ss, cur, sh⟩ := l
          cases sh
          · simp only [htu, noteOf, Bool.false_eq_true, if_false, bind, Except.bind] at hn
            cases hst : stepAt ss cur <;> simp [hst, pure, Except.pure] at hn
          · simp only [htu, noteOf, if_true] at hn
            split at hn
            · simp only [Except.ok.injEq, Note.next.injEq] at hn
              obtain ⟨rfl, rfl⟩ := hn
              assumption
            · simp at hn

/-- C47, the part that holds. Nothing that is offered to a visitor makes the page crash by itself, but
rendering a tutorial whose last step was answered with nothing while no evaluation was shown since.
Otherwise a crash is a fault of the interpreter: in making a new context, in the command that is entered
or in looking up the symbols of the text that is typed. Full statement: no offered event crashes the
page unless the interpreter faults; it fails, see `page_crashes`. -/
theorem page_crash_partial {n : Nat} {a : App} {e : Event} {x : Crash} (h : Visit n a)
    (hp : Possible a e) (hx : a.step n e = .error x) :
    (x = .index ∧ e = .frame ∧ a.onHome = true ∧
      ∃ l, a.home.tutorial = some l ∧ l.showing = false ∧ l.steps.length ≤ l.current) ∨
    ∃ f, x = .context f ∧ (Context.new n = .error f ∨
      (e = .msg .submit ∧ Context.execute n a.home.context a.home.input = .error f) ∨
      (e = .frame ∧ lex (Parser.conceptKind ⟨a.home.context.snap, a.home.context.delta⟩ n)
        a.home.input = .error f)) := by
  have hres : ∀ {x}, a.home.reset n = .error x → ∃ f, x = .context f ∧ Context.new n = .error f := by
    intro x hr
    simp only [Home.reset, bind, Except.bind] at hr
    cases hc : ofContext (Context.new n) with
    | ok c => simp [hc, pure, Except.pure] at hr
    | error y =>
      simp only [hc, Except.error.injEq] at hr
      subst hr
      cases y with
      | index => exact absurd hc ofContext_index
      | context f => exact ⟨f, rfl, ofContext_error hc⟩
  cases e with
  | url b => simp [App.step] at hx
  | frame =>
    simp only [App.step, App.frame, bind, Except.bind] at hx
    cases hr : a.render n with
    | ok s => rw [hr] at hx; simp only [foldlM_setInput] at hx; simp at hx
    | error y =>
      simp only [hr, Except.error.injEq] at hx
      subst hx
      unfold App.render at hr
      cases ho : a.onHome
      · simp [ho] at hr
      simp only [ho, if_true, bind, Except.bind] at hr
      cases hv : view n a.home with
      | ok t => simp [hv, pure, Except.pure] at hr
      | error z =>
        simp only [hv, Except.error.injEq] at hr
        subst hr
        simp only [view, bind, Except.bind] at hv
        cases hn : noteOf a.home.tutorial with
        | ok t =>
          simp only [hn] at hv
          cases hl : ofContext
              (lex (Parser.conceptKind ⟨a.home.context.snap, a.home.context.delta⟩ n)
                a.home.input) with
          | ok ls => simp [hl, pure, Except.pure] at hv
          | error w =>
            simp only [hl, Except.error.injEq] at hv
            subst hv
            cases w with
            | index => exact absurd hl ofContext_index
            | context f => exact .inr ⟨f, rfl, .inr (.inr ⟨rfl, ofContext_error hl⟩)⟩
        | error w =>
          simp only [hn, Except.error.injEq] at hv
          subst hv
          cases htu : a.home.tutorial with
          | none => simp [htu, noteOf] at hn
          | some l =>
            obtain ⟨ss, cur, sh⟩ := l
            cases sh
            · simp only [htu, noteOf, Bool.false_eq_true, if_false, bind, Except.bind] at hn
              cases hst : stepAt ss cur with
              | ok t => simp [hst, pure, Except.pure] at hn
              | error v =>
                simp only [hst, Except.error.injEq] at hn
                subst hn
                obtain ⟨rfl, hlen⟩ := stepAt_error hst
                exact .inl ⟨rfl, rfl, rfl, _, rfl, rfl, hlen⟩
            · simp only [htu, noteOf, if_true] at hn
              split at hn <;> simp at hn
  | msg m =>
    simp only [App.step, App.handle, bind, Except.bind] at hx
    cases hu : update n a.area m a.home with
    | ok p => simp [hu, pure, Except.pure] at hx
    | error y =>
      simp only [hu, Except.error.injEq] at hx
      subst hx
      cases m with
      | toggleMenu => simp [update, pure, Except.pure] at hu
      | input s => simp [update, pure, Except.pure] at hu
      | setInput s => cases ha : a.area <;> simp [update, ha, pure, Except.pure] at hu
      | startEmpty =>
        simp only [update, bind, Except.bind] at hu
        cases hr : a.home.reset n with
        | ok g => simp [hr, pure, Except.pure] at hu
        | error z =>
          simp only [hr, Except.error.injEq] at hu
          subst hu
          obtain ⟨f, rfl, hf⟩ := hres hr
          exact .inr ⟨f, rfl, .inl hf⟩
      | startTutorial steps =>
        simp only [update, bind, Except.bind] at hu
        cases hr : a.home.reset n with
        | error z =>
          simp only [hr, Except.error.injEq] at hu
          subst hu
          obtain ⟨f, rfl, hf⟩ := hres hr
          exact .inr ⟨f, rfl, .inl hf⟩
        | ok g =>
          simp only [hr] at hu
          cases hst : stepAt steps 0 with
          | ok t => simp [hst, pure, Except.pure] at hu
          | error z =>
            obtain ⟨-, hlen⟩ := stepAt_error hst
            simp only [Possible] at hp
            generalize hsc : a.screen = sc at hp
            cases hp with
            | tutorial hm ht =>
              exact absurd (List.length_eq_zero_iff.1 (Nat.le_zero.1 hlen))
                ((visit_screen h _ hsc).1 _ hm _ ht)
      | skip steps i =>
        simp only [update, bind, Except.bind] at hu
        cases hst : stepAt steps (i + 1) with
        | ok t => simp [hst, pure, Except.pure] at hu
        | error z =>
          obtain ⟨-, hlen⟩ := stepAt_error hst
          simp only [Possible] at hp
          generalize hsc : a.screen = sc at hp
          cases hp with
          | next hn =>
            have := (visit_screen h _ hsc).2 _ _ hn
            omega
      | submit =>
        simp only [update, bind, Except.bind] at hu
        cases hc : ofContext (Context.execute n a.home.context a.home.input) with
        | error z =>
          simp only [hc, Except.error.injEq] at hu
          subst hu
          cases z with
          | index => exact absurd hc ofContext_index
          | context f => exact .inr ⟨f, rfl, .inr (.inl ⟨rfl, ofContext_error hc⟩)⟩
        | ok p =>
          obtain ⟨r, c⟩ := p
          simp only [hc] at hu
          cases ht : a.home.tutorial with
          | none => simp [ht, pure, Except.pure] at hu
          | some l => simp [ht, answered_ok, pure, Except.pure] at hu

/-- C47 is false: at the last step of any tutorial, while its explanation is shown, entering a command
that is answered with nothing crashes the page at the next frame. -/
theorem page_crash_last {n : Nat} {a b : App} {l : Lesson} {c : Ctx}
    (ho : a.onHome = true) (ht : a.home.tutorial = some l) (hs : l.showing = false)
    (hl : l.current + 1 = l.steps.length)
    (hx : Context.execute n a.home.context a.home.input = .ok ([], c))
    (hb : a.step n (.msg .submit) = .ok b) : b.step n .frame = .error .index := by
  obtain ⟨h', o, hu, rfl⟩ := handle_ok hb
  obtain ⟨r, d, hx', -, -, -, -, hor⟩ := update_submit hu
  rw [hx] at hx'
  simp only [Except.ok.injEq, Prod.mk.injEq] at hx'
  obtain ⟨rfl, rfl⟩ := hx'
  rcases hor with ⟨h0, -⟩ | ⟨l0, l', next, h0, ha, hl', -⟩
  · rw [ht] at h0; simp at h0
  rw [ht] at h0
  simp only [Option.some.injEq] at h0
  subst h0
  rw [answered_ok] at ha
  simp only [if_true, Except.ok.injEq, Prod.mk.injEq] at ha
  rw [← ha.1] at hl'
  have hnone : l.steps[l.current + 1]? = none := by
    rw [List.getElem?_eq_none_iff]; omega
  simp [App.step, App.frame, App.render, show a.onHome = true from ho, view, hl', noteOf, hs, stepAt,
    hnone, bind, Except.bind]

/-- C48. The coloured text is the text that is typed, cut into maximal runs. -/
theorem page_text {n : Nat} {h : Home} {s : Screen} (e : view n h = .ok s) :
    s.text = h.input ∧ (s.spans.map (·.2)).flatten = h.input ∧
    ∃ ps : List (Cls × Str), Canonical ps ∧ ps.map (·.2) = s.spans.map (·.2) ∧
      ∀ (i : Nat) (k : Cls) (t : Str), ps[i]? = some (k, t) → ∃ col, s.spans[i]? = some (col, t) ∧
        (col = some .unmatched ↔
          (k = .opening ∧ ¬ ∃ j, Matches (ps.map (·.1)) i j) ∨
          (k = .closing ∧ ¬ ∃ j, Matches (ps.map (·.1)) j i)) ∧
        (k = .space → col = none) ∧
        (k = .symbol → ∃ kd,
          Parser.conceptKind ⟨h.context.snap, h.context.delta⟩ n t = .ok kd ∧
            col = colour (.concept kd)) := by
  obtain ⟨ls, -, hls, -, hsp, htx, -⟩ := view_ok e
  obtain ⟨stack, I⟩ := lex_inv hls
  have hmap : s.spans.map (·.2) = ls.map (·.text) := by
    rw [hsp]; simp [Function.comp_def]
  refine ⟨htx, by rw [hmap]; exact I.text, segments ls, I.canonical, ?_, ?_⟩
  · rw [hmap]; simp [segments, Function.comp_def]
  intro i k t hi
  simp only [segments, List.getElem?_map, Option.map_eq_some_iff] at hi
  obtain ⟨l, hl, hk⟩ := hi
  simp only [Prod.mk.injEq] at hk
  obtain ⟨rfl, rfl⟩ := hk
  have hseg : (segments ls).map (·.1) = ls.map (clsOf ·.category) := by
    simp [segments, Function.comp_def]
  have ho := fun j => I.opens i j
  have hc := fun j => I.closes j i
  have hw := (I.wf l (List.mem_of_getElem? hl)).2
  simp only [hl, Option.map_some, Option.some.injEq] at ho hc
  refine ⟨colour l.category, by rw [hsp]; simp [hl], ?_, ?_, ?_⟩
  · rw [hseg]
    simp only [← ho, ← hc]
    rcases l with ⟨txt, cat⟩
    cases cat with
    | concept kd => cases kd <;> simp [colour, clsOf]
    | whitespace => simp [colour, clsOf]
    | opening c => cases c <;> simp [colour, clsOf]
    | closing c => cases c <;> simp [colour, clsOf]
  · rcases l with ⟨txt, cat⟩
    cases cat <;> simp [colour, clsOf]
  · rcases l with ⟨txt, cat⟩
    cases cat with
    | concept kd => intro _; exact ⟨kd, hw kd rfl, rfl⟩
    | whitespace => simp [clsOf]
    | opening c => simp [clsOf]
    | closing c => simp [clsOf]

/-- C49, the part that holds. Starting an empty session gives a new context, an empty conversation and a
closed menu. Full statement: nothing of the session before is left. It fails for the tutorial, see
`empty_session_tutorial`, and for the text that was typed but not entered. -/
theorem empty_session_partial {n : Nat} {a b : App} (h : a.step n (.msg .startEmpty) = .ok b) :
    Context.new n = .ok b.home.context ∧ b.home.history = [] ∧ b.home.isOpen = false := by
  obtain ⟨h', o, hu, rfl⟩ := handle_ok h
  obtain ⟨c, hc, -, rfl⟩ := update_startEmpty hu
  exact ⟨hc, rfl, rfl⟩

/-- C49 is false: an empty session goes on showing the explanation of the tutorial that was
active. -/
theorem empty_session_tutorial {n : Nat} {a b c : App} {l : Lesson} {s : TutorialStep}
    (ho : a.onHome = true) (ht : a.home.tutorial = some l) (hs : l.showing = false)
    (hl : l.steps[l.current]? = some s) (h : a.step n (.msg .startEmpty) = .ok b)
    (hf : b.step n .frame = .ok c) :
    ∃ t, c.screen = some (some t) ∧ t.note = .explanation s.explanation := by
  obtain ⟨h', o, hu, rfl⟩ := handle_ok h
  obtain ⟨d, hd, -, rfl⟩ := update_startEmpty hu
  obtain ⟨t, hv, rfl⟩ := frame_ok hf
  rcases render_ok hv with ⟨h0, -⟩ | ⟨t, -, rfl, hw⟩
  · rw [show _ = true from ho] at h0; simp at h0
  obtain ⟨ls, hn, -⟩ := view_ok hw
  refine ⟨t, rfl, ?_⟩
  obtain ⟨ss, cur, sh⟩ := l
  simp only at hs hl
  subst hs
  simp only [ht, noteOf, Bool.false_eq_true, if_false, stepAt, hl, bind, Except.bind, pure,
    Except.pure, Except.ok.injEq] at hn
  exact hn.symm

/-- What holds at every step of a visitor who is led by a tutorial. -/
structure AtStep (n : Nat) (steps : List TutorialStep) (k : Nat) (a : App) : Prop where
  lt : k < steps.length
  onHome : a.onHome = true
  pending : a.pending = []
  tutorial : a.home.tutorial = some ⟨steps, k, false⟩
  input : a.home.input = steps[k].command
  note : ∃ s, a.screen = some (some s) ∧ s.note = .explanation steps[k].explanation
  said : ∃ answers, Conversation n a.home ((steps.take k).map (·.command)) answers

/-- A frame that ends with a proposed command. -/
theorem atStep_frame {n : Nat} {steps : List TutorialStep} {k : Nat} {b c : App} {ss : List Str}
    (hf : b.step n .frame = .ok c) (ho : b.onHome = true)
    (ht : b.home.tutorial = some ⟨steps, k, false⟩)
    (hp : b.pending = ss ++ [((steps[k]?).map (·.command)).getD []])
    (hs : ∃ answers, Conversation n b.home ((steps.take k).map (·.command)) answers) :
    AtStep n steps k c := by
  obtain ⟨s, hv, rfl⟩ := frame_ok hf
  rcases render_ok hv with ⟨h0, -⟩ | ⟨t, -, rfl, hw⟩
  · rw [ho] at h0; simp at h0
  obtain ⟨ls, hn, -⟩ := view_ok hw
  simp only [ht, noteOf, Bool.false_eq_true, if_false, bind, Except.bind] at hn
  cases hst : stepAt steps k with
  | error e => simp [hst] at hn
  | ok st =>
    simp only [hst, pure, Except.pure, Except.ok.injEq] at hn
    rw [stepAt_ok] at hst
    have hlt : k < steps.length := (List.getElem?_eq_some_iff.1 hst).1
    have hget : steps[k] = st := (List.getElem?_eq_some_iff.1 hst).2
    obtain ⟨answers, h1, h2, d, h3, h4⟩ := hs
    exact {
      lt := hlt
      onHome := ho
      pending := rfl
      tutorial := ht
      input := by simp [hp, hst, hget]
      note := ⟨t, rfl, by rw [← hn, hget]⟩
      said := ⟨answers, h1, h2, d, h3, h4⟩ }

/-- What entering the proposed command does. -/
theorem atStep_submit {n : Nat} {steps : List TutorialStep} {k : Nat} {a b : App}
    (h : AtStep n steps k a) (hb : a.step n (.msg .submit) = .ok b) :
    ∃ r, lastAnswer b.home = some r ∧ b.onHome = true ∧ b.home.input = [] ∧
      b.home.tutorial =
        some (if r = [] then ⟨steps, k + 1, false⟩ else ⟨steps, k, true⟩) ∧
      b.pending = [if r = [] then ((steps[k + 1]?).map (·.command)).getD [] else []] ∧
      ∃ answers, Conversation n b.home ((steps.take (k + 1)).map (·.command)) answers := by
  obtain ⟨answers, h1, h2, d, h3, h4⟩ := h.said
  obtain ⟨h', o, hu, rfl⟩ := handle_ok hb
  obtain ⟨r, e, hx, he, hi, hy, -, hor⟩ := update_submit hu
  rcases hor with ⟨h0, -⟩ | ⟨l, l', next, h0, ha, hl', ho⟩
  · rw [h.tutorial] at h0; simp at h0
  rw [h.tutorial] at h0
  simp only [Option.some.injEq] at h0
  subst h0
  rw [answered_ok] at ha
  simp only [Except.ok.injEq, Prod.mk.injEq] at ha
  obtain ⟨rfl, rfl⟩ := ha
  have htake : (steps.take (k + 1)).map (·.command) =
      (steps.take k).map (·.command) ++ [a.home.input] := by
    rw [h.input, List.take_succ_eq_append_getElem h.lt]
    simp only [List.map_append, List.map_cons, List.map_nil]
  refine ⟨r, by simp [lastAnswer, hy], h.onHome, hi, hl', by simp [h.pending, ho], answers ++ [r],
    ?_⟩
  rw [htake]
  refine ⟨by rw [List.length_append, List.length_append, h1]; rfl, ?_, d, h3, ?_⟩
  · rw [entries_snoc h1, ← h2]; exact hy
  · simp only [he]; exact run_snoc h4 hx

theorem led_atStep {n : Nat} {steps : List TutorialStep} {k : Nat} {a : App}
    (h : Led n steps k a) : AtStep n steps k a := by
  induction h with
  | @start a b c ho hb hc =>
    obtain ⟨h', o, hu, rfl⟩ := handle_ok hb
    obtain ⟨d, s, hd, h0, rfl, rfl⟩ := update_startTutorial hu
    refine atStep_frame (ss := a.pending) hc ho rfl ?_ ?_
    · simp [h0]
    · exact ⟨[], rfl, rfl, d, hd, by simp [Context.run]⟩
  | @enter k a b c _ _ hb hr hc ih =>
    obtain ⟨r, h1, h2, h3, h4, h5, h6⟩ := atStep_submit ih hb
    rw [hr] at h1
    simp only [Option.some.injEq] at h1
    subst h1
    exact atStep_frame (ss := []) hc h2 (by simpa using h4) (by simpa using h5) h6
  | @click k a b c d e r ss i _ _ hb hr hne hc ho hd he ih =>
    obtain ⟨r', h1, h2, h3, h4, h5, h6⟩ := atStep_submit ih hb
    rw [hr] at h1
    simp only [Option.some.injEq] at h1
    subst h1
    simp only [hne, if_false] at h4 h5
    obtain ⟨s, hv, rfl⟩ := frame_ok hc
    rcases render_ok hv with ⟨h0, -⟩ | ⟨t, -, rfl, hw⟩
    · rw [h2] at h0; simp at h0
    obtain ⟨ls, hn, -⟩ := view_ok hw
    have hnote : t.note = .next ss i := by
      simp only at ho
      cases ho with
      | next h => exact h
    simp only [h4, noteOf, if_true, hnote] at hn
    split at hn
    · simp only [Except.ok.injEq, Note.next.injEq] at hn
      obtain ⟨rfl, rfl⟩ := hn
      obtain ⟨h', o, hu, rfl⟩ := handle_ok hd
      obtain ⟨st, hst, rfl, rfl⟩ := update_skip hu
      refine atStep_frame (ss := []) he h2 rfl ?_ ?_
      · simp [hst]
      · obtain ⟨answers, g1, g2, dd, g3, g4⟩ := h6
        exact ⟨answers, g1, g2, dd, g3, g4⟩
    · simp at hn

/-- C50. A visitor who only enters what a tutorial proposes and presses the button for the next step
is at each step shown its explanation and proposed its command, and has by then entered exactly the
commands of the steps before, in their order. -/
theorem tutorial_followed {n : Nat} {steps : List TutorialStep} {k : Nat} {a : App}
    (h : Led n steps k a) :
    ∃ s, steps[k]? = some s ∧ a.home.input = s.command ∧
      (∃ t, a.screen = some (some t) ∧ t.note = .explanation s.explanation) ∧
      ∃ answers, Conversation n a.home ((steps.take k).map (·.command)) answers := by
  have g := led_atStep h
  exact ⟨steps[k]'g.lt, by simp [g.lt], g.input, g.note, g.said⟩

theorem frame_view {n : Nat} {a : App} {s : Note} (ho : a.onHome = true)
    (hi : a.home.input = []) (hn : noteOf a.home.tutorial = .ok s) :
    ∃ c t, a.step n .frame = .ok c ∧ c.screen = some (some t) ∧ t.note = s ∧
      c.onHome = true ∧ c.pending = [] ∧ c.home.context = a.home.context ∧
      c.home.history = a.home.history ∧ c.home.tutorial = a.home.tutorial ∧
      c.home.input = a.pending.getLast?.getD [] := by
  have hv : view n a.home = .ok ⟨a.home.history, s, [], [],
      if a.home.isOpen then some Tutorials.all else none⟩ := by
    simp [view, hn, hi, lex, lexLoop, ofContext, bind, Except.bind, pure, Except.pure]
  cases hf : a.step n .frame with
  | error e =>
    simp [App.step, App.frame, App.render, ho, hv, foldlM_setInput, bind, Except.bind, pure,
      Except.pure] at hf
  | ok c =>
    obtain ⟨t, ht, rfl⟩ := frame_ok hf
    rcases render_ok ht with ⟨h0, -⟩ | ⟨u, -, rfl, hw⟩
    · rw [ho] at h0; simp at h0
    · rw [hv, Except.ok.injEq] at hw
      exact ⟨_, u, rfl, rfl, by rw [← hw], ho, rfl, rfl, rfl, rfl, by simp [hi]⟩

/-- C50, going on: as long as the interpreter does not fault, the visitor gets to the next step. -/
theorem tutorial_proceeds {n : Nat} {steps : List TutorialStep} {k : Nat} {a : App} {r : Str}
    {c : Ctx} (h : Led n steps k a) (hk : k + 1 < steps.length)
    (hx : Context.execute n a.home.context a.home.input = .ok (r, c)) :
    ∃ b, Led n steps (k + 1) b := by
  have g := led_atStep h
  have hb : ∃ b, a.step n (.msg .submit) = .ok b := by
    cases hb : a.step n (.msg .submit) with
    | ok b => exact ⟨b, rfl⟩
    | error e =>
      simp [App.step, App.handle, update, hx, ofContext, g.tutorial, answered_ok, bind,
        Except.bind, pure, Except.pure] at hb
  obtain ⟨b, hb⟩ := hb
  obtain ⟨r, h1, h2, h3, h4, h5, h6⟩ := atStep_submit g hb
  by_cases hr : r = []
  · subst hr
    obtain ⟨d, t, hd, -⟩ := frame_view (n := n) (s := .explanation (steps[k + 1]).explanation) h2 h3
      (by simp [h4, noteOf, stepAt, hk, bind, Except.bind, pure, Except.pure])
    exact ⟨d, .enter h g.lt hb h1 hd⟩
  · simp only [hr, if_false] at h4 h5
    obtain ⟨d, t, hd, ht, hn, i1, i2, i3, i4, i5, i6⟩ := frame_view (n := n) (s := .next steps k) h2 h3
      (by simp [h4, noteOf, hk])
    have he : ∃ e, d.step n (.msg (.skip steps k)) = .ok e := by
      cases he : d.step n (.msg (.skip steps k)) with
      | ok e => exact ⟨e, rfl⟩
      | error e =>
        simp [App.step, App.handle, update, stepAt_lt hk, bind, Except.bind, pure,
          Except.pure] at he
    obtain ⟨e, he⟩ := he
    obtain ⟨h', o, hu, rfl⟩ := handle_ok he
    obtain ⟨st, hst, rfl, rfl⟩ := update_skip hu
    obtain ⟨f, -, hf, -⟩ := frame_view (n := n) (s := .explanation st.explanation)
      (a := { d with
        home := { d.home with tutorial := some ⟨steps, k + 1, false⟩ }
        pending := d.pending ++ (some st.command).toList }) i1 (by simp [i6, h5])
      (by simp [noteOf, stepAt, hst, bind, Except.bind, pure, Except.pure])
    exact ⟨f, .click h g.lt hb h1 hr hd (by rw [ht]; exact .next hn) he hf⟩

/-- C50, the end: if the command of the last step is answered with something, the visitor has then
entered exactly the commands of the tutorial, and nothing more is proposed. -/
theorem tutorial_completed {n : Nat} {steps : List TutorialStep} {k : Nat} {a : App} {r : Str}
    {c : Ctx} (h : Led n steps k a) (hk : k + 1 = steps.length)
    (hx : Context.execute n a.home.context a.home.input = .ok (r, c)) (hr : r ≠ []) :
    ∃ b d t answers, a.step n (.msg .submit) = .ok b ∧ b.step n .frame = .ok d ∧
      Conversation n d.home (steps.map (·.command)) answers ∧ answers.getLast? = some r ∧
      d.screen = some (some t) ∧ t.note = .empty ∧ d.home.input = [] := by
  have g := led_atStep h
  obtain ⟨answers, h1, h2, d0, h3, h4⟩ := g.said
  have hb : a.step n (.msg .submit) = .ok { a with
      home := { a.home with
        context := c
        input := []
        history := a.home.history ++ [.command a.home.input, .evaluation r]
        tutorial := some ⟨steps, k, true⟩ }
      pending := [[]] } := by
    simp only [App.step, App.handle, update, hx, ofContext, g.tutorial, answered_ok, bind,
      Except.bind, pure, Except.pure, hr, if_false, g.pending]
    rfl
  obtain ⟨d, t, hd, ht, hn, i1, i2, i3, i4, i5, i6⟩ := frame_view (n := n) (s := .empty)
    (a := { a with
      home := { a.home with
        context := c
        input := []
        history := a.home.history ++ [.command a.home.input, .evaluation r]
        tutorial := some ⟨steps, k, true⟩ }
      pending := [[]] }) g.onHome rfl (by
        have : ¬ k + 1 < steps.length := by omega
        simp [noteOf, this])
  have htake : steps.map (·.command) = (steps.take k).map (·.command) ++ [a.home.input] := by
    rw [g.input]
    have e : steps = steps.take (k + 1) := by rw [hk, List.take_length]
    conv => lhs; rw [e, List.take_succ_eq_append_getElem g.lt]
    simp only [List.map_append, List.map_cons, List.map_nil]
  refine ⟨_, d, t, answers ++ [r], hb, hd, ?_, by simp, ht, hn, by simpa using i6⟩
  rw [htake]
  refine ⟨by rw [List.length_append, List.length_append, h1]; rfl, ?_, d0, h3, ?_⟩
  · rw [i4, entries_snoc h1, ← h2]
  · rw [i3]; exact run_snoc h4 hx

/-- Typing a command and entering it. -/
theorem visit_enter {n : Nat} {a : App} {s : Screen} {r cmd : Str} {c : Ctx} {t : Option Lesson}
    {next : Str} (h : Visit n a) (hs : a.screen = some (some s)) (hp : a.pending = [])
    (hx : Context.execute n a.home.context cmd = .ok (r, c))
    (ht : (t = none ∧ a.home.tutorial = none ∧ next = []) ∨
      ∃ l l', a.home.tutorial = some l ∧ l.answered r = .ok (l', next) ∧ t = some l') :
    Visit n { a with
      home := { a.home with
        context := c
        input := []
        history := a.home.history ++ [.command cmd, .evaluation r]
        tutorial := t }
      pending := [next] } := by
  have h1 : a.step n (.msg (.input cmd)) = .ok { a with home := { a.home with input := cmd } } := by
    simp [App.step, App.handle, update, bind, Except.bind, pure, Except.pure]
  refine .event (.event h (e := .msg (.input cmd)) ?_ h1) (e := .msg .submit) ?_ ?_
  · rw [Possible, hs]; exact .input
  · rw [Possible]; simp only [hs]; exact .submit
  · rcases ht with ⟨rfl, h0, rfl⟩ | ⟨l, l', h0, hl, rfl⟩
    · simp [App.step, App.handle, update, hx, ofContext, h0, hp, bind, Except.bind, pure,
        Except.pure]
    · simp [App.step, App.handle, update, hx, ofContext, h0, hl, hp, bind, Except.bind, pure,
        Except.pure]

/-- Entering a command that is answered with nothing goes on to the next step. -/
theorem visit_advance {n : Nat} {a : App} {s : Screen} {cmd : Str} {c : Ctx}
    {steps : List TutorialStep} {k : Nat} (h : Visit n a) (ho : a.onHome = true)
    (hs : a.screen = some (some s)) (hp : a.pending = [])
    (ht : a.home.tutorial = some ⟨steps, k, false⟩) (hk : k + 1 < steps.length)
    (hx : Context.execute n a.home.context cmd = .ok ([], c)) :
    ∃ b t, Visit n b ∧ b.onHome = true ∧ b.screen = some (some t) ∧ b.pending = [] ∧
      b.home.tutorial = some ⟨steps, k + 1, false⟩ ∧ b.home.context = c := by
  have hv := visit_enter h hs hp hx (.inr ⟨_, _, ht, answered_ok _ _, rfl⟩)
  obtain ⟨b, t, hb, h1, -, h2, h3, h4, -, h5, -⟩ := frame_view (n := n)
    (s := .explanation (steps[k + 1]).explanation) (a := { a with
      home := { a.home with
        context := c
        input := []
        history := a.home.history ++ [.command cmd, .evaluation []]
        tutorial := some ⟨steps, k + 1, false⟩ }
      pending := [((steps[k + 1]?).map (·.command)).getD []] }) ho rfl
    (by simp [noteOf, stepAt, hk, bind, Except.bind, pure, Except.pure])
  simp only [if_true] at hv
  exact ⟨b, t, .event hv (e := .frame) trivial hb, h2, h1, h3, h5, h4⟩

/-- A visitor at the first step of a tutorial. -/
theorem visit_first {n : Nat} {c : Ctx} (hc : Context.new n = .ok c) {t : Tutorial}
    (ht : t ∈ Tutorials.all) :
    ∃ a s, Visit n a ∧ Led n t.steps 0 a ∧ a.screen = some (some s) ∧ a.onHome = true ∧
      a.pending = [] ∧ a.home.tutorial = some ⟨t.steps, 0, false⟩ ∧ a.home.context = c ∧
      a.home.isOpen = false := by
  have h0 : App.init n true = .ok ⟨true, ⟨c, [], [], true, none⟩, [[]], none⟩ := by
    simp [App.init, Home.first, hc, ofContext, bind, Except.bind, pure, Except.pure]
  have hi := Visit.start h0
  obtain ⟨b, u, hb, h1, -, h2, h3, h4, h4', h5, h6⟩ := frame_view (n := n) (s := .empty)
    (a := ⟨true, ⟨c, [], [], true, none⟩, [[]], none⟩) rfl rfl rfl
  have hopen : u.menu = some Tutorials.all ∧ b.home.isOpen = true := by
    obtain ⟨v, hv, rfl⟩ := frame_ok hb
    simp only [Option.some.injEq] at h1
    subst h1
    rcases render_ok hv with ⟨h0, -⟩ | ⟨u', -, he, hw⟩
    · simp at h0
    simp only [Option.some.injEq] at he
    subst he
    obtain ⟨ls, -, -, -, -, -, hm⟩ := view_ok hw
    exact ⟨hm, rfl⟩
  have hi := hi.event (e := .frame) trivial hb
  have hne : ∃ s, t.steps[0]? = some s := by
    simp only [Tutorials.all, List.mem_cons, List.not_mem_nil, or_false] at ht
    rcases ht with rfl | rfl | rfl <;> exact ⟨_, rfl⟩
  obtain ⟨s, hs⟩ := hne
  have ht' : b.step n (.msg (.startTutorial t.steps)) = .ok { b with
      home := ⟨c, b.home.input, [], false, some ⟨t.steps, 0, false⟩⟩
      pending := [s.command] } := by
    simp [App.step, App.handle, update, Home.reset, hc, ofContext, stepAt, hs, h3, bind, Except.bind,
      pure, Except.pure]
  have hj := hi.event (e := .msg (.startTutorial t.steps))
    (by rw [Possible, h1]; exact .tutorial hopen.1 ht) ht'
  obtain ⟨a, w, ha, g1, -, g2, g3, g4, -, g5, -⟩ := frame_view (n := n)
    (s := .explanation s.explanation)
    (a := { b with
      home := ⟨c, b.home.input, [], false, some ⟨t.steps, 0, false⟩⟩
      pending := [s.command] }) h2 (by simp [h6])
    (by simp [noteOf, stepAt, hs, bind, Except.bind, pure, Except.pure])
  refine ⟨a, w, hj.event (e := .frame) trivial ha, .start h2 ht' ha, g1, g2, g3, g5, g4, ?_⟩
  obtain ⟨v, hv, rfl⟩ := frame_ok ha
  cases v <;> rfl

/-- C51. The shell prints the answers to the lines typed, in their order, one line for each, and nothing
else but the last word; a fault of the interpreter ends it after the answers to the lines before. -/
theorem shell_prints (n : Nat) (c : Ctx) (lines : List Str) :
    (∀ rs d, Context.run n c lines = .ok (rs, d) →
      Shell.loop n c lines = (rs ++ [str% "Exiting"], .exiting)) ∧
    (∀ f, Context.run n c lines = .error f → ∃ pre s post rs d, lines = pre ++ s :: post ∧
      Context.run n c pre = .ok (rs, d) ∧ Context.execute n d s = .error f ∧
      Shell.loop n c lines = (rs, .crash f)) := by
  induction lines generalizing c with
  | nil =>
    refine ⟨fun rs d h => ?_, fun f h => by simp [Context.run] at h⟩
    simp only [Context.run, Except.ok.injEq, Prod.mk.injEq] at h
    simp [Shell.loop, ← h.1]
  | cons s ss ih =>
    cases hx : Context.execute n c s with
    | error f =>
      simp only [Context.run, hx, bind, Except.bind, Shell.loop]
      refine ⟨fun rs d h => by simp at h, fun g h => ?_⟩
      simp only [Except.error.injEq] at h
      subst h
      exact ⟨[], s, ss, [], c, rfl, rfl, hx, rfl⟩
    | ok p =>
      obtain ⟨r, d⟩ := p
      obtain ⟨h1, h2⟩ := ih d
      simp only [Context.run, hx, bind, Except.bind, Shell.loop]
      cases hr : Context.run n d ss with
      | ok q =>
        obtain ⟨rs, d'⟩ := q
        refine ⟨fun rs' e h => ?_, fun g h => by simp [pure, Except.pure] at h⟩
        simp only [pure, Except.pure, Except.ok.injEq, Prod.mk.injEq] at h
        obtain ⟨rfl, rfl⟩ := h
        simp [h1 _ _ hr]
      | error g =>
        refine ⟨fun rs' e h => by simp at h, fun f h => ?_⟩
        simp only [Except.error.injEq] at h
        subst h
        obtain ⟨pre, t, post, rs, e, rfl, hp, he, hlp⟩ := h2 _ hr
        refine ⟨s :: pre, t, post, r :: rs, e, rfl, ?_, he, by simp [hlp]⟩
        simp [Context.run, hx, hp, bind, Except.bind, pure, Except.pure]

end Zia.Props

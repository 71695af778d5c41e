import Verif.Context
import Verif.Lemmas.Store

/-!
# Reasoning about computations on the context
-/

namespace Zia

namespace CM

variable {α β : Type}

theorem bind_apply (m : CM α) (f : α → CM β) (c : Ctx) :
    (m >>= f) c = m c >>= fun p => match p.1 with
      | .ok a => f a p.2
      | .error e => .ok (.error e, p.2) := by
  show (ExceptT.bind m f) c = _
  simp only [ExceptT.bind, ExceptT.mk, bind, StateT.bind]
  cases h : m c with
  | error e => rfl
  | ok p =>
    obtain ⟨r, c'⟩ := p
    cases r <;> rfl

theorem pure_apply (a : α) (c : Ctx) : (pure a : CM α) c = .ok (.ok a, c) := rfl

theorem throw_apply (e : ZiaError) (c : Ctx) : (throw e : CM α) c = .ok (.error e, c) := rfl

theorem get_apply (c : Ctx) : (get : CM Ctx) c = .ok (.ok c, c) := rfl

theorem modify_apply (f : Ctx → Ctx) (c : Ctx) :
    (modify f : CM Unit) c = .ok (.ok (), f c) := rfl

theorem tryCatch_apply (m : CM α) (h : ZiaError → CM α) (c : Ctx) :
    (tryCatch m h : CM α) c = m c >>= fun p => match p.1 with
      | .ok a => .ok (.ok a, p.2)
      | .error e => h e p.2 := by
  show (ExceptT.tryCatch m h) c = _
  simp only [ExceptT.tryCatch, ExceptT.mk, bind, StateT.bind]
  cases h : m c with
  | error e => rfl
  | ok p =>
    obtain ⟨r, c'⟩ := p
    cases r <;> rfl

theorem fault_apply (f : Fault) (c : Ctx) : (fault f : CM α) c = .error f := rfl

/-- What holds of every end of a computation (a fault is no end). -/
def Ends (m : CM α) (c : Ctx) (Q : Except ZiaError α → Ctx → Prop) : Prop :=
  ∀ r c', m c = .ok (r, c') → Q r c'

variable {Q : Except ZiaError β → Ctx → Prop}

theorem Ends.mono {m : CM β} {c : Ctx} {Q' : Except ZiaError β → Ctx → Prop} (h : Ends m c Q)
    (hQ : ∀ r c', Q r c' → Q' r c') : Ends m c Q' := fun r c' e => hQ r c' (h r c' e)

/-- Continue with a value, or stop with an error. -/
def Cont (f : α → CM β) (Q : Except ZiaError β → Ctx → Prop) : Except ZiaError α → Ctx → Prop
  | .ok a, c => Ends (f a) c Q
  | .error e, c => Q (.error e) c

theorem Ends.bind {m : CM α} {f : α → CM β} {c : Ctx} (h : Ends m c (Cont f Q)) :
    Ends (m >>= f) c Q := by
  intro r c' e
  rw [bind_apply, Except.bind_eq_ok] at e
  obtain ⟨⟨r1, c1⟩, e1, e2⟩ := e
  have := h r1 c1 e1
  cases r1 with
  | ok a => exact this r c' e2
  | error x => cases e2; exact this

theorem Ends.pure {a : β} {c : Ctx} (h : Q (.ok a) c) : Ends (Pure.pure a : CM β) c Q := by
  intro r c' e; cases e; exact h

theorem Ends.throw {e : ZiaError} {c : Ctx} (h : Q (.error e) c) :
    Ends (MonadExcept.throw e : CM β) c Q := by
  intro r c' e; cases e; exact h

theorem Ends.fault {f : Fault} {c : Ctx} : Ends (fault f : CM β) c Q := by
  intro r c' e; cases e

theorem Ends.ofE {x : Except Fault β} {c : Ctx} (h : ∀ a, x = .ok a → Q (.ok a) c) :
    Ends (ofE x) c Q := by
  intro r c' e
  simp only [CM.ofE, Except.bind_eq_ok, Except.pure_eq_ok] at e
  obtain ⟨a, ha, e⟩ := e
  cases e; exact h a ha

theorem Ends.ofR {x : Except ZiaError β} {c : Ctx} (h : Q x c) : Ends (ofR x) c Q := by
  intro r c' e; cases e; exact h

theorem Ends.get {Q : Except ZiaError Ctx → Ctx → Prop} {c : Ctx} (h : Q (.ok c) c) :
    Ends (MonadState.get : CM Ctx) c Q := by
  intro r c' e; cases e; exact h

theorem Ends.modify {Q : Except ZiaError Unit → Ctx → Prop} {f : Ctx → Ctx} {c : Ctx}
    (h : Q (.ok ()) (f c)) : Ends (_root_.modify f : CM Unit) c Q := by
  intro r c' e; cases e; exact h

theorem Ends.view {Q : Except ZiaError View → Ctx → Prop} {c : Ctx}
    (h : Q (.ok ⟨c.snap, c.delta⟩) c) : Ends CM.view c Q := by
  intro r c' e; cases e; exact h

theorem reading_apply {f : View → Except Fault β} {c : Ctx} :
    reading f c = CM.ofE (f ⟨c.snap, c.delta⟩) c := by
  simp only [reading, bind_apply]
  rfl

theorem Ends.reading {f : View → Except Fault β} {c : Ctx}
    (h : ∀ a, f ⟨c.snap, c.delta⟩ = .ok a → Q (.ok a) c) : Ends (reading f) c Q := by
  intro r c' e
  rw [reading_apply] at e
  exact Ends.ofE h r c' e

theorem Ends.searching {f : Env → SM β} {c : Ctx}
    (h : ∀ a ca, f (env c) c.cache = .ok (a, ca) → Q (.ok a) { c with cache := ca }) :
    Ends (searching f) c Q := by
  intro r c' e
  simp only [CM.searching, Except.bind_eq_ok, Except.pure_eq_ok] at e
  obtain ⟨⟨a, ca⟩, ha, e⟩ := e
  cases e; exact h a ca ha

theorem Ends.exclusive {Q : Except ZiaError Unit → Ctx → Prop} {c : Ctx}
    (h1 : c.pinned = false → Q (.ok ()) c)
    (h2 : c.pinned = true → Q (.error .multiplePointersToDelta) c) : Ends exclusive c Q := by
  intro r c' e
  rw [CM.exclusive, bind_apply, get_apply] at e
  simp only [Except.bind_eq_ok, Except.ok.injEq, exists_eq_left'] at e
  cases hp : c.pinned with
  | true => rw [hp] at e; cases e; exact h2 hp
  | false => rw [hp] at e; cases e; exact h1 hp

theorem Ends.update {Q : Except ZiaError CId → Ctx → Prop} {dd : Direct CId} {c : Ctx}
    (h : ∀ d id, c.delta.update dd = .ok (d, id) →
      Q (.ok id) { c with delta := d, cache := .empty }) : Ends (update dd) c Q := by
  intro r c' e
  simp only [CM.update, Except.bind_eq_ok, Except.pure_eq_ok] at e
  obtain ⟨⟨d, id⟩, ha, e⟩ := e
  cases e; exact h d id ha

theorem Ends.tryCatch {m : CM β} {f : ZiaError → CM β} {c : Ctx}
    (h : Ends m c (fun r c' => match r with
      | .ok a => Q (.ok a) c'
      | .error e => Ends (f e) c' Q)) : Ends (MonadExcept.tryCatch m f : CM β) c Q := by
  intro r c' e
  rw [tryCatch_apply, Except.bind_eq_ok] at e
  obtain ⟨⟨r1, c1⟩, e1, e2⟩ := e
  have := h r1 c1 e1
  cases r1 with
  | ok a => cases e2; exact this
  | error x => exact this r c' e2

end CM

end Zia

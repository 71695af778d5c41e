import Verif.Search
import Verif.AMap

/-!
# Runs of searches
-/

namespace Zia

namespace SM

variable {α β : Type}

theorem bind_ok {m : SM α} {f : α → SM β} {ca ca' : Cache} {b : β} :
    (m >>= f) ca = .ok (b, ca') ↔ ∃ a ca1, m ca = .ok (a, ca1) ∧ f a ca1 = .ok (b, ca') := by
  show (Except.bind (m ca) fun p => f p.1 p.2) = _ ↔ _
  cases m ca with
  | error e =>
    constructor
    · intro h; cases h
    · rintro ⟨a, ca1, h, _⟩; cases h
  | ok p =>
    obtain ⟨a, ca1⟩ := p
    constructor
    · intro h; exact ⟨a, ca1, rfl, h⟩
    · rintro ⟨a', ca1', h, h'⟩; cases h; exact h'

theorem pure_ok {a b : α} {ca ca' : Cache} :
    (pure a : SM α) ca = .ok (b, ca') ↔ a = b ∧ ca = ca' := by
  constructor
  · intro h; cases h; exact ⟨rfl, rfl⟩
  · rintro ⟨rfl, rfl⟩; rfl

theorem lift_ok {x : Except Fault α} {b : α} {ca ca' : Cache} :
    (liftM x : SM α) ca = .ok (b, ca') ↔ x = .ok b ∧ ca = ca' := by
  cases x with
  | error e =>
    constructor
    · intro h; cases h
    · rintro ⟨h, _⟩; cases h
  | ok a =>
    constructor
    · intro h; cases h; exact ⟨rfl, rfl⟩
    · rintro ⟨h, rfl⟩; cases h; rfl

theorem get_ok {b : Cache} {ca ca' : Cache} :
    (get : SM Cache) ca = .ok (b, ca') ↔ ca = b ∧ ca = ca' := by
  constructor
  · intro h; cases h; exact ⟨rfl, rfl⟩
  · rintro ⟨rfl, rfl⟩; rfl

theorem modify_ok {f : Cache → Cache} {u : Unit} {ca ca' : Cache} :
    (modify f : SM Unit) ca = .ok (u, ca') ↔ f ca = ca' := by
  constructor
  · intro h; cases h; rfl
  · rintro rfl; rfl

theorem fault_ok {f : Fault} {b : α} {ca ca' : Cache} :
    (SM.fault f : SM α) ca = .ok (b, ca') ↔ False := by
  constructor
  · intro h; cases h
  · exact False.elim

end SM

end Zia

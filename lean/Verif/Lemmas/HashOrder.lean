import Verif.Basic

/-!
# Visiting hash tables in any order
-/

namespace Zia.HashOrder

variable [HashOrder] {α : Type}

theorem mem_order {l : List α} {a : α} : a ∈ order l ↔ a ∈ l := (perm l).mem_iff

@[simp] theorem order_nil : order ([] : List α) = [] := (perm _).eq_nil

theorem length_order (l : List α) : (order l).length = l.length := (perm l).length_eq

theorem order_eq_nil {l : List α} : order l = [] ↔ l = [] := by
  rw [← List.length_eq_zero_iff, length_order, List.length_eq_zero_iff]

@[simp] theorem order_singleton (a : α) : order [a] = [a] :=
  List.perm_singleton.mp (perm _)

@[simp] theorem isEmpty_order (l : List α) : (order l).isEmpty = l.isEmpty := by
  rw [Bool.eq_iff_iff, List.isEmpty_iff, List.isEmpty_iff, order_eq_nil]

end Zia.HashOrder

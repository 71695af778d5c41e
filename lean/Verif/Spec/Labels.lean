import Verif.Spec.Store

/-!
# Specifications about names
-/

namespace Zia.Spec

/-- Concept `i` is the string `t`. -/
def IsString (s : Snap) (i : Nat) (t : Str) : Prop :=
  ∃ c, s.concepts[i]? = some c ∧ c.string = some t

/-- Concept `x` has the name `t`: `label_of x` is stored and its reductions lead to the string. -/
def HasName (s : Snap) (x : Nat) (t : Str) : Prop :=
  ∃ k i, ComposedOf s k (builtin .label) x ∧ Relation.TransGen (ReducesTo s) k i ∧ IsString s i t

end Zia.Spec

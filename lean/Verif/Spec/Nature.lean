import Verif.SnapShot

/-!
# What a concept is
-/

namespace Zia.Spec

/-- What a concept is, whatever it is made of and whatever it reduces to. -/
inductive Nature
  | builtin (t : CCT)
  | text (t : Str)
  | freeVariable
  | boundVariable
  | ordinary
  deriving DecidableEq

/-- The nature of a stored concept. -/
def nature (k : Con) : Nature :=
  match k.spec with
  | .concrete t => .builtin t
  | .str t => .text t
  | .abst (.leaf .freeVariable) _ => .freeVariable
  | .abst (.leaf .boundVariable) _ => .boundVariable
  | .abst _ _ => .ordinary

/-- The store `s` holds a concept with the number `i` of the nature `a`. -/
def IsOf (s : Snap) (i : Nat) (a : Nature) : Prop := ∃ k, s.concepts[i]? = some k ∧ k.id = i ∧ nature k = a

end Zia.Spec

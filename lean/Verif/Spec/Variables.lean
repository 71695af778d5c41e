import Verif.Syntax

/-!
# Names of variables
-/

namespace Zia.Spec

/-- The second tree is the first with the leaves that are variables bound to the concepts that `f` gives
to their names; nothing else is changed. -/
inductive BoundBy (f : Str → Option CId) : Syn → Syn → Prop
  | variable {s c id} : f s = some id →
      BoundBy f (.leaf (some s) c .variable) (.leaf (some s) (some id) .variable)
  | other {s c k} : k ≠ .variable → BoundBy f (.leaf s c k) (.leaf s c k)
  | branch {s c l r l' r' fv bv} : BoundBy f l l' → BoundBy f r r' →
      BoundBy f (.branch s c l r fv bv) (.branch s c l' r' fv bv)

/-- The names of the variables among the leaves. -/
def variableNames : Syn → List Str
  | .leaf (some s) _ .variable => [s]
  | .leaf .. => []
  | .branch _ _ l r _ _ => variableNames l ++ variableNames r

end Zia.Spec

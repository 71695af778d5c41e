import Verif.Spec.Lex

/-!
# Commands that differ in redundant brackets
-/

namespace Zia.Spec

/-- A text in brackets: symbols, and groups in brackets. -/
inductive Bracketed
  | nil
  | sym (text : Str) (rest : Bracketed)
  | group (inner rest : Bracketed)
  deriving DecidableEq, Repr

/-- The symbols and brackets, in order. -/
def Bracketed.pieces : Bracketed → List Str
  | .nil => []
  | .sym t r => t :: r.pieces
  | .group i r => ['('] :: (i.pieces ++ [')'] :: r.pieces)

/-- The symbols are texts without spaces and brackets, and there is something between any brackets. -/
def Bracketed.Good : Bracketed → Prop
  | .nil => True
  | .sym t r => (t ≠ [] ∧ ∀ c ∈ t, SymbolChar c) ∧ r.Good
  | .group i r => i ≠ .nil ∧ i.Good ∧ r.Good

/-- Two texts differ in redundant brackets: brackets around a single symbol, and brackets directly around brackets. -/
inductive SameWithin : Bracketed → Bracketed → Prop
  | refl (x : Bracketed) : SameWithin x x
  | symm {x y : Bracketed} (h : SameWithin x y) : SameWithin y x
  | trans {x y z : Bracketed} (h : SameWithin x y) (h' : SameWithin y z) : SameWithin x z
  | word (t : Str) (r : Bracketed) : SameWithin (.group (.sym t .nil) r) (.sym t r)
  | double (i r : Bracketed) : SameWithin (.group (.group i .nil) r) (.group i r)
  | sym (t : Str) {r r' : Bracketed} (h : SameWithin r r') : SameWithin (.sym t r) (.sym t r')
  | group {i i' r r' : Bracketed} (h : SameWithin i i') (h' : SameWithin r r') : SameWithin (.group i r) (.group i' r')

end Zia.Spec

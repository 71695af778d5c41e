import Verif.Spec.Lex
import Verif.Spec.Nest

/-!
# Texts of expressions

What is printed for an expression when everything associates to the right, and what is read back.
-/

namespace Zia.Spec

/-- An expression: symbols and pairs. -/
inductive PTree
  | leaf (s : Str)
  | pair (l r : PTree)
  deriving DecidableEq, Repr

/-- A text that is a single symbol. -/
def IsSymbol (s : Str) : Prop := HasClass .symbol s

/-- All leaves are symbols. -/
def PTree.Symbols : PTree → Prop
  | .leaf s => IsSymbol s
  | .pair l r => l.Symbols ∧ r.Symbols

/-- The text of an expression: a compound left part is put in parentheses, a compound right part is not.
The parts of a compound part are printed without regard to their place in it. -/
def PTree.text : PTree → Str
  | .leaf s => s
  | .pair (.leaf a) (.leaf b) => a ++ ' ' :: b
  | .pair (.leaf a) (.pair x y) => a ++ ' ' :: (x.text ++ ' ' :: y.text)
  | .pair (.pair x y) (.leaf b) => ('(' :: x.text ++ ' ' :: y.text ++ [')']) ++ ' ' :: b
  | .pair (.pair x y) (.pair z w) =>
    ('(' :: x.text ++ ' ' :: y.text ++ [')']) ++ ' ' :: (z.text ++ ' ' :: w.text)

/-- A sequence of items read as `i1 (i2 (... in))`, and so on inside the groups. -/
def Items.tree : Items → Option PTree
  | .nil => none
  | .sym t _ .nil => some (.leaf t)
  | .sym t _ r => r.tree.map (.pair (.leaf t))
  | .group i .nil => i.tree
  | .group i r => i.tree.bind fun a => r.tree.map (.pair a)

/-- The same for a shape. -/
def Shape.tree : Shape → Option PTree
  | .leaf s => some (.leaf s)
  | .node cs => go cs
where
  go : List Shape → Option PTree
    | [] => none
    | [c] => c.tree
    | c :: cs => c.tree.bind fun a => (go cs).map (.pair a)

mutual

/-- The compound parts of the expression that are compound parts of an expression themselves begin with a
symbol. -/
def PTree.Printable : PTree → Prop
  | .leaf _ => True
  | .pair l r => l.Inner ∧ r.Inner

/-- A symbol, or a pair of a symbol and a printable expression. -/
def PTree.Inner : PTree → Prop
  | .leaf _ => True
  | .pair (.leaf _) y => y.Printable
  | .pair (.pair _ _) _ => False

end

end Zia.Spec

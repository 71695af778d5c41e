import Verif.Boot

/-!
# A left associative operator
-/

namespace Zia.Witness

open Insertion

set_option maxRecDepth 100000

states plus 60 "let assoc + -> left", "let (+ (precedes let))"

theorem plus1_eq : Context.execute 60 boot (str% "let assoc + -> left") = .ok ([], plus1) := by
  decide +kernel

theorem plus2_eq : Context.execute 60 plus1 (str% "let (+ (precedes let))") = .ok ([], plus2) := by
  decide +kernel

/-- The answer of a parse: the text of the tree, or the error. -/
def parsed (c : Ctx) (left : (List Syn → CM Syn) → List Syn → List Nat → CM Syn)
    (ts : List Syn) : Except Fault (Except ZiaError (Option Syn)) :=
  (Parser.astFromListWith (Parser.precedes 60) left (CM.fault .diverge) 60 ts.length ts c).map
    (fun p => p.1.map some)

/-- A symbol with its concept. -/
def tok (s : Str) (c : Option CId) : Syn := .leaf (some s) c .constant

end Zia.Witness

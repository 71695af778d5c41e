import Verif.Context

/-!
# The model against the tests of the repository

Not proofs: the examples of /repo/zia/src/lib.rs 43-106 and the command tests of /repo/zia/tests are
run on the model when this file is built, to check that the model is faithful to the code.
-/

namespace Zia.Conformance

open Insertion

/-- Commands with the answers the repository's tests expect. -/
def cases : List (List (String × String)) :=
  [-- lib.rs 43-106
   [("let a b -> c", ""), ("a b", "c"), ("forget a b", ""), ("let a b -> d", ""), ("a b", "d"),
    ("let a b -> a b", ""), ("a b", "a b"),
    ("let a b -> a b", "That reduction rule for a b already exists."), ("let a b -> c", ""),
    ("let a b -> c", "a b already reduces to c"), ("let 표시 := label_of", ""), ("표시 a b", "'c'"),
    ("let a -> d", ""),
    ("let b := a b", "Cannot define a concept as an expression whose normal form contains itself."),
    ("let c d -> (c d) e", "Cannot reduce a concept to an expression containing itself."),
    ("a -> d", "true"), ("d -> a", "false"), ("a -> a", "false"), ("d -> f", "d -> f"),
    ("(a -> d) -> true", "true"), ("(d -> a) -> false", "true"), ("let g", ""), ("g", "true"),
    ("let h i j", ""), ("h i j", "true"), ("let _x_ or true -> true", ""),
    ("false or true", "true")],
   -- tests/exists_such_that.rs
   [("(_c_ exists_such_that) _c_", "true")],
   -- tests/implication.rs
   [("let a => b", ""), ("let a", ""), ("b", "true")],
   [("let a => (b -> false)", ""), ("let a", ""), ("b", "false")],
   [("let (not _x_) => (_x_ -> false)", ""), ("let not c", ""), ("c", "false"),
    ("let a => not b", ""), ("let a", ""), ("b", "false")],
   [("let (a _x_) => not (b _x_)", ""), ("let (not _x_) => (_x_ -> false)", ""), ("let a c", ""),
    ("b c", "false")],
   [("-> (precedes let)", "true")],
   -- tests/precedence.rs, tests/variables.rs
   [("a precedes b", "a precedes b")],
   [("let _a_ b -> c", ""), ("d b", "c")],
   [("let _a_ + _a_ -> 2 _a_", ""), ("b + b", "2 b"), ("b + c", "b + c")],
   -- tests/definitions.rs
   [("label_of a", "'a'")],
   [("let (a b) := c", "Cannot define expressions.")],
   [("let a := b", "Relabelling something that doesn't yet exist has no effect.")],
   [("let a := b c", ""),
    ("let b := a", "Cannot define a concept as an expression whose normal form contains itself.")],
   [("let a := b c", ""), ("let f := d e", ""),
    ("let d := b c", "Cannot define a used symbol as another used symbol or expression.")],
   [("let a := a b", "Cannot define a concept as an expression whose normal form contains itself.")],
   [("let a := (a b) b",
     "Cannot define a concept as an expression whose normal form contains itself.")],
   [("let c := a b", ""),
    ("let a := c b", "Cannot define a concept as an expression whose normal form contains itself.")],
   [("let a := b c", ""), ("let b := b", "Removing a definition that doesn't exist is redundant.")],
   [("let a := b c", ""), ("let a := b c", "That definition already exists.")],
   [("let label_of := a b", "Cannot set a definition of a concrete concept")],
   -- tests/reductions.rs
   [("let a b -> c", ""), ("let a c -> b", ""), ("a a b", "b")],
   [("let a b -> c d", ""), ("let c d -> a b", "Cannot allow a chain of reduction rules to loop.")],
   [("(a)", "a")],
   [("let a b -> c a b", "Cannot reduce a concept to an expression containing itself.")],
   [("let a b -> c d", ""), ("let c d -> e", ""), ("let c d -> c d", ""), ("a b", "c d")],
   [("let a b -> c d", ""), ("let c d -> e f", ""), ("let e f -> g", ""), ("let e f -> e f", ""),
    ("a b", "e f")],
   [("let a b -> c d", ""), ("let c d -> e", ""), ("forget a b", ""), ("let a b -> e", "")],
   [("let a b -> c", ""), ("let c d -> c d", "That reduction rule for c d already exists.")],
   -- tests/definitions_and_reductions.rs
   [("let a b -> c", ""), ("let d e -> f", ""), ("let g := c f", ""), ("(a b) d e", "g")],
   [("let c d -> a", ""),
    ("let a := b c d",
     "Cannot define a concept as an expression whose normal form contains itself.")],
   [("let a := b c d", ""), ("let c d -> e", ""), ("a", "b e"), ("b e", "b e")],
   -- tests/program_recognition.rs
   [("a", "a")], [("a b", "a b")], [("a b c", "a b c")],
   [("let a b -> c", ""), ("c", "c")],
   [("let a b -> c", ""), ("a c", "a c")],
   [("let a b -> c", ""), ("a b c", "a b c")],
   -- tests/syntax.rs
   [("()", "Parentheses need to contain a symbol or expression.")],
   [("let assoc c -> left", ""),
    ("a b c", "Tokens with the lowest precendence don't all have the same associativity. The token `c` is `Left` associative whereas the rest of the tokens are `Right` associative")]]

/-- Whether a context gives the expected answers. -/
def passes (c : Ctx) : List (String × String) → Bool
  | [] => true
  | (s, r) :: rest =>
    match Context.execute 100 c s.toList with
    | .error _ => false
    | .ok (x, c) => x = r.toList && passes c rest

#guard match Context.new 100 with
  | .ok c => cases.all (passes c)
  | .error _ => false

end Zia.Conformance

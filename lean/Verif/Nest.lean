import Verif.Lexer

/-!
# Grouping lexemes by parentheses

Models /repo/zia/src/nester.rs and `Context::nest` (/repo/zia/src/context.rs 207-263).
-/

namespace Zia

/-- `ast/mod.rs` `enum SyntaxLeaf`. -/
inductive SLeaf
  | variable | constant | quantifier
  deriving DecidableEq, Repr

/-- `nester.rs` 67-73 `struct NestedSyntaxTree` with its `Node` (7-12). -/
inductive NST
  | leaf (l : SLeaf) (syn : Str) (concept : Option CId)
  | parent (children : List NST) (syn : Str) (concept : Option CId)

/-- Field `syntax`. -/
def NST.syn : NST → Str
  | .leaf _ s _ => s
  | .parent _ s _ => s

/-- `nester.rs` 84-115 `from_concept_kind`. -/
def NST.fromConceptKind (c : Kind) (syn : Str) : NST :=
  .leaf
    (match c with
      | .variable => .variable
      | .concrete _ .existsSuchThat => .quantifier
      | .concrete _ _ => .constant
      | .abst _ => .constant
      | .new => .constant)
    syn
    (match c with
      | .new => none
      | .variable => none
      | .concrete id _ => some id
      | .abst id => some id)

/-- `nester.rs` 117-126 `nest`. -/
def NST.nest (t : NST) : NST := .parent [t] ('(' :: t.syn ++ [')']) none

/-- `nester.rs` 128-153 `append_node`. -/
def NST.appendNode (t new : NST) : NST :=
  .parent
    (match t with
      | .leaf .. => [t, new]
      | .parent children _ _ => children ++ [new])
    (t.syn ++ ' ' :: new.syn) none

/-- Local variables of `Context::nest`, `context.rs` 210-212. `map` is the hash map
`nested_syntax_at_depth` as an association list; every access is by key. -/
structure NestState where
  map : List (Nat × NST)
  depth : Nat

/-- `HashMap::remove`: the value and the map without the key. -/
def mapRemove {β} (m : List (Nat × β)) (k : Nat) : Option β × List (Nat × β) :=
  ((m.find? (·.1 == k)).map (·.2), m.filter (·.1 != k))

/-- `context.rs` 213-254: one iteration of the loop over the lexemes. The assertion of line
226 cannot fail, since the key was removed just before; it is left out. -/
def nestStep (st : NestState) (l : Lexeme) : Except ZiaError NestState :=
  match l.category with
  | .whitespace => .ok st
  | .concept c =>
    let new := NST.fromConceptKind c l.text
    let (old, map) := mapRemove st.map st.depth
    let ns := match old with
      | none => new
      | some ns => ns.appendNode new
    .ok { st with map := (st.depth, ns) :: map }
  | .opening _ => .ok { st with depth := st.depth + 1 }
  | .closing _ =>
    match mapRemove st.map st.depth with
    | (none, _) => .error .emptyParentheses
    | (some t, map) =>
      if st.depth = 0 then .error .unmatchedParentheses
      else
        let d := st.depth - 1
        match mapRemove map d with
        | (some ns, map') => .ok { map := (d, ns.appendNode t.nest) :: map', depth := d }
        | (none, map') => .ok { map := (d, t.nest) :: map', depth := d }

/-- The loop of `Context::nest`, `context.rs` 213-255. -/
def nestLoop : NestState → List Lexeme → Except ZiaError NestState
  | st, [] => .ok st
  | st, l :: ls => do nestLoop (← nestStep st l) ls

/-- `Context::nest`, `context.rs` 207-263. -/
def nest (ls : List Lexeme) : Except ZiaError NST := do
  let st ← nestLoop ⟨[], 0⟩ ls
  if st.depth ≠ 0 then .error .unmatchedParentheses
  else match (mapRemove st.map 0).1 with
    | none => .error .emptyExpression
    | some t => .ok t

end Zia

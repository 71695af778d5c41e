/-!
# Basic types shared by every part of the model

Models /repo/zia/src.  Line numbers refer to the pinned commit.
-/

namespace Zia

/-- Rust `String`/`&str`, as the list of its `char`s.
Simplification: byte offsets and UTF-8 encoding are not modelled; the code modelled here only
iterates over `chars()`, appends and compares. -/
abbrev Str := List Char

/-- `str% "abc"` is the list of characters `['a', 'b', 'c']`. -/
macro "str% " s:str : term => do
  let cs := s.getString.toList.map (fun c => Lean.Syntax.mkCharLit c)
  `(([$(cs.toArray),*] : List Char))

/-- `concepts/mod.rs` 728-744 `enum ConcreteConceptType`. -/
inductive CCT
  | label | define | reduction | letCmd | tru | fls | associativity | right | left
  | greaterThan | implication | existsSuchThat | precedes | forget
  deriving DecidableEq, Repr

/-- `context_snap_shot/concept_id.rs` 16-25 `enum ConceptId`.
`Committed` is a slot map key; no slot is ever freed (`context_snap_shot/mod.rs` 552: applying a
removal is `todo!()`), so keys are modelled by the position of the concept in insertion order. -/
inductive CId
  | com (n : Nat)
  | unc (n : Nat)
  deriving DecidableEq, Repr

/-- `associativity.rs` `enum Associativity`. -/
inductive Assoc
  | left | right
  deriving DecidableEq, Repr

/-- `errors.rs` 23-115 `enum ZiaError`. -/
inductive ZiaError
  | emptyExpression
  | unmatchedParentheses
  | redundantReduction (syn : Str)
  | redundantComposition
  | redundantRefactor
  | redundantCompositionRemoval
  | badComposition
  | cyclicReduction
  | cannotExpandFurther
  | cannotReduceFurther
  | expandingReduction
  | missingSymbol (symbol : Str)
  | infiniteComposition
  | emptyParentheses
  | ambiguousExpression
  | lowestPrecedenceNotFound (tokens : List Str)
  | differentAssociativity (token : Str) (associativity other : Assoc)
  | compositionCollision
  | settingCompositionOfConcrete
  | concreteReduction
  | multipleReductionPaths
  | unusedSymbol
  | noLabelConcept
  | canOnlyQuantifyOverVariables
  | multiplePointersToDelta
  | existingReduction (syntaxToReduce existing : Str)
  deriving DecidableEq, Repr

/-- The places where the Rust code panics (`panic!`, `unwrap`, `expect`, `assert!`, `todo!`,
`unimplemented!`, `debug_assert!`, slice index out of range). The names point at the site. -/
inductive Panic
  /-- `associativity.rs` `slice_tokens`: slice start after slice end, or end out of range -/
  | sliceOutOfRange
  /-- `context.rs` 382-390: `ast_from_syntax_list` on an empty list -/
  | emptySyntaxList
  /-- `context.rs` 619-766: a concrete concept other than true/false as truth of `precedes` -/
  | precedenceTruth
  /-- `context_snap_shot/mod.rs` 79-80, 454-460, 521-523 ...: `get_disjoint_mut(..).unwrap()` -/
  | notDisjoint
  /-- `context_snap_shot/mod.rs` 92-95 `expect("Concept ID not committed yet!")` -/
  | notCommittedYet
  /-- `context_snap_shot/mod.rs` 552 `todo!()` -/
  | removeTodo
  /-- `concepts/mod.rs` 144 and 156: reducing a concrete concept -/
  | reduceConcrete
  /-- `concepts/mod.rs` 358, 501: composing a concrete concept -/
  | composeConcrete
  /-- `context_snap_shot/mod.rs` 167, 214: `lefthand_of(..).unwrap()`, `righthand_of(..).unwrap()`,
  and 465, 493, 510: `change_composition(..).unwrap()` -/
  | handUnwrap
  /-- `concepts/mod.rs` 1148, 1169: `debug_assert_eq!` one composition per pair -/
  | duplicateComposition
  /-- `concepts/mod.rs` 479 `debug_assert_eq!` on removing a reduction -/
  | removeWrongReduction
  /-- `concepts/mod.rs` 950 `debug_assert_eq!` a leaf variable becoming a composition -/
  | variableComposition
  /-- `concepts/trait.rs` 62: composing a variable -/
  | composeVariable
  /-- `context_snap_shot/concept.rs` 280 `unimplemented!()` -/
  | mixedChangeComposition
  /-- `context_delta.rs` 222 "String already exists" -/
  | stringExists
  /-- `context_delta.rs` 322 "Concept already removed" -/
  | alreadyRemoved
  /-- `context_delta.rs` 345 "Concept already exists" -/
  | alreadyExists
  /-- `context_delta.rs` 495-542 inconsistent string change combination -/
  | stringDelta
  /-- `context_snap_shot/mod.rs` 271, 282, 562, 569 `debug_assert_eq!` on the string table,
  and 248 `expect("No string to remove!")` -/
  | stringMap
  /-- `context_snap_shot/mod.rs` 402 `debug_assert_eq!` -/
  | concreteRemoved
  /-- `context_snap_shot/mod.rs` 441 `try_into().unwrap()`: a new concept with a committed id -/
  | newCommitted
  /-- `snap_shot.rs` `read_concept`: no concept with that id -/
  | noConcept
  /-- `snap_shot.rs`, `context_updater.rs`: other `unwrap`/`expect` on lookups -/
  | unwrapNone
  /-- `context_updater.rs` `unlabel` "No label to remove" -/
  | noLabel
  /-- `context_search.rs` `compare`: both directions true -/
  | compareBoth
  /-- `reduction_reason.rs` `determine_reduction_truth`: mutual reduction -/
  | mutualReduction
  /-- `context.rs` 306 and 292: `unwrap` on the result of a command stage -/
  | executeUnwrap
  /-- `context_search.rs` 585 `debug_assert!`: an example of a leaf that binds nothing -/
  | noBoundVariable
  /-- `reduction_reason.rs` 207, 212 `todo!()` in the comparison of reasons -/
  | reasonTodo
  /-- other explicit `panic!` -/
  | other
  deriving DecidableEq, Repr

/-- Ways in which a Rust computation fails to return: a panic, or recursion without end. -/
inductive Fault
  | panic (p : Panic)
  | diverge
  deriving DecidableEq, Repr

deriving instance DecidableEq for Except

/-- Rust `char::is_whitespace`: the Unicode `White_Space` property. -/
def isWs (c : Char) : Bool :=
  let n := c.toNat
  (9 ≤ n && n ≤ 13) || n == 0x20 || n == 0x85 || n == 0xA0 || n == 0x1680 ||
  (0x2000 ≤ n && n ≤ 0x200A) || n == 0x2028 || n == 0x2029 || n == 0x202F || n == 0x205F ||
  n == 0x3000

/-- The order in which the code visits the entries of a `HashMap` or `HashSet`, given the order in which
they were inserted. The standard library seeds its hash tables at random, so every theorem is about every
order. Simplification: during one command, tables filled alike are visited alike; `Spec.History` lets the
order change between commands. -/
class HashOrder where
  order : {α : Type} → List α → List α
  perm : ∀ {α : Type} (l : List α), (order l).Perm l

/-- The order of insertion, used where a concrete order is needed. -/
@[reducible] def HashOrder.insertion : HashOrder := ⟨fun l => l, fun _ => .rfl⟩

namespace Insertion

scoped instance : HashOrder := HashOrder.insertion

end Insertion

end Zia

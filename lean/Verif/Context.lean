import Verif.Parser

/-!
# Commands

Models the second half of /repo/zia/src/context.rs: what a command does, the commit at its end, and
the set-up of a new context. The Rust code recurses without a bound; `m` and `n` bound the recursion of
the model, and running out of fuel is the fault `diverge`.
-/

namespace Zia

variable [HashOrder]

/-- `associativity.rs` 5-9: the derived `Debug`. -/
def Assoc.debug : Assoc → Str
  | .left => str% "Left"
  | .right => str% "Right"

/-- The elements of a list with a separator between them. -/
def intersperse (sep : Str) : List Str → Str
  | [] => []
  | [x] => x
  | x :: xs => x ++ sep ++ intersperse sep xs

/-- `errors.rs` 23-115: the message of an error. Simplification: `{tokens:?}` does not escape
characters inside the tokens. -/
def ZiaError.message : ZiaError → Str
  | .emptyExpression => str% "No concepts recognised in expression"
  | .unmatchedParentheses => str% "Not all opening parentheses match closing parentheses"
  | .redundantReduction s =>
    str% "That reduction rule for " ++ s ++ str% " already exists."
  | .redundantComposition => str% "That definition already exists."
  | .redundantRefactor => str% "Relabelling something that doesn't yet exist has no effect."
  | .redundantCompositionRemoval => str% "Removing a definition that doesn't exist is redundant."
  | .badComposition => str% "Cannot define expressions."
  | .cyclicReduction => str% "Cannot allow a chain of reduction rules to loop."
  | .cannotExpandFurther => str% "Cannot expand syntax further"
  | .cannotReduceFurther => str% "Cannot reduce syntax further"
  | .expandingReduction => str% "Cannot reduce a concept to an expression containing itself."
  | .missingSymbol s => str% "Missing " ++ s
  | .infiniteComposition =>
    str% "Cannot define a concept as an expression whose normal form contains itself."
  | .emptyParentheses => str% "Parentheses need to contain a symbol or expression."
  | .ambiguousExpression =>
    str% "Ambiguity due to lack of precedence or associativity defined for the symbols in that expression."
  | .lowestPrecedenceNotFound ts =>
    str% "Could not find lowest precendence for `[" ++
      intersperse (str% ", ") (ts.map (fun t => '"' :: t ++ ['"'])) ++ str% "]`"
  | .differentAssociativity t a b =>
    str% "Tokens with the lowest precendence don't all have the same associativity. The token `" ++ t
      ++ str% "` is `" ++ a.debug ++
      str% "` associative whereas the rest of the tokens are `" ++ b.debug ++ str% "` associative"
  | .compositionCollision =>
    str% "Cannot define a used symbol as another used symbol or expression."
  | .settingCompositionOfConcrete => str% "Cannot set a definition of a concrete concept"
  | .concreteReduction => str% "Cannot reduce a concrete concept"
  | .multipleReductionPaths =>
    str% "Concept is already composed of concepts with their own reduction rules."
  | .unusedSymbol => str% "Symbol was expected to be used to label a concept but isn't."
  | .noLabelConcept => str% "Tried to label a concept without a concept of a label."
  | .canOnlyQuantifyOverVariables =>
    str% "Cannot quantify over compound expressions or constant concepts"
  | .multiplePointersToDelta => str% "Multiple smart pointers to context delta"
  | .existingReduction s e => s ++ str% " already reduces to " ++ e

namespace Context

open CM

/-- Handle one error, e.g. `context.rs` 897-907. -/
def onError {α : Type} (e : ZiaError) (m h : CM α) : CM α :=
  tryCatch m (fun x => if x = e then h else throw x)

/-- `context.rs` 782-787 `commit`. The cache is kept. -/
def commit (c : Ctx) : Except Fault Ctx := do
  return { c with snap := ← c.snap.apply c.delta, delta := Nested.default }

/-- `context.rs` 1200-1222 `try_removing_reduction`. -/
def tryRemovingReduction (t : Syn) : CM Unit := do
  exclusive
  match t.concept with
  | some c => do Updater.deleteReduction c (← ofE t.display)
  | none => do throw (.redundantReduction (← ofE t.display))

/-- `context.rs` 1157-1198 `execute_reduction`. -/
def executeReduction (n : Nat) (t nf : Syn) : CM Unit := do
  if nf.contains t then throw .expandingReduction
  else if t.key = nf.key then tryRemovingReduction t
  else do
    let found ← searching (fun e => do
      match ← (search n).reduce e t with
      | some x => return some x
      | none => Search.findInferred (search n) e t)
    match found with
    | some (x, _) => do
      let a ← ofE t.display
      let b ← ofE x.display
      throw (.existingReduction a b)
    | none => do
      exclusive
      let c ← Updater.conceptFromAst n t
      let r ← Updater.conceptFromAst n nf
      Updater.updateReduction n c (← ofE t.display) r

/-- `context.rs` 1058-1155 `define`. -/
def define (n : Nat) (new old : Syn) : CM Unit := do
  match new.concept, new.expansion, old.concept, old.expansion with
  | _, some _, _, none => throw .badComposition
  | _, none, none, none => throw .redundantRefactor
  | none, _, some b, none => do
    exclusive
    Updater.relabel n b (← ofE old.display) (← ofE new.display)
  | none, _, some b, some _ => do
    let s ← ofE (← searching (fun e => (search n).toAst e b)).display
    match ← reading (·.conceptOfLabel b) with
    | none => do
      exclusive
      Updater.label n b s (← ofE new.display)
    | some _ => do
      exclusive
      Updater.relabel n b (← ofE old.display) (← ofE new.display)
  | none, _, none, some (l, r) => do
    exclusive
    Updater.defineNewSyntax n (← ofE new.display) l r
  | some a, comp, some b, none =>
    if a = b then do
      match (← reading (·.read a)).composition with
      | none => throw .redundantCompositionRemoval
      | some (l, r) => do
        let ls ← ofE (← searching (fun e => (search n).toAst e l)).display
        let rs ← ofE (← searching (fun e => (search n).toAst e r)).display
        exclusive
        Updater.tryDeleteConcept a a.display
        Updater.tryDeleteConcept l ls
        Updater.tryDeleteConcept r rs
    else if comp.isNone then do
      if ((← view).getConcept b).isSome then do
        exclusive
        Updater.unlabel a a.display
        Updater.relabel n b (← ofE old.display) (← ofE new.display)
      else throw .redundantRefactor
    else throw .compositionCollision
  | some a, _, some b, some _ =>
    if a = b then throw .redundantComposition else throw .compositionCollision
  | some a, some (nl, nr), none, some (l, r) => do
    exclusive
    Updater.redefineComposition n a l r (← ofE nl.display) (← ofE nr.display)
  | some a, none, none, some (l, r) => do
    exclusive
    Updater.redefine n a l r

/-- `context.rs` 1031-1045 `execute_composition`. -/
def executeComposition (n : Nat) (new old : Syn) : CM Unit :=
  if old.contains new then throw .infiniteComposition else define n new old

/-- `context.rs` 999-1028 `match_righthand_pair`. -/
def matchRighthandPair (n : Nat) : Nat → Syn → Syn → Syn → CM Unit
  | 0, _, _, _ => fault .diverge
  | k + 1, left, rl, rr => do
    match rl.concept with
    | none => throw .unusedSymbol
    | some c => do
      match ← reading (·.cct c) with
      | some .reduction => executeReduction n left rr
      | some .define => executeComposition n left rr
      | _ => do
        match (← reading (·.read c)).reduction with
        | none => throw .cannotReduceFurther
        | some r => do
          let t ← searching (fun e => (search n).toAst e r)
          matchRighthandPair n k left t rr

/-- `context.rs` 986-996 `execute_let`. -/
def executeLet (n : Nat) (l r : Syn) : Option (CM Unit) :=
  r.expansion.map (fun (rl, rr) => matchRighthandPair n n l rl rr)

/-- `context.rs` 945-963: the command `let`. `none` when the unit `true` cannot be built. -/
def callLet (n : Nat) (right : Syn) : CM (Option Str) := do
  let first : CM Bool := match right.expansion with
    | none => pure false
    | some (l, r) =>
      match executeLet n l r with
      | none => pure false
      | some m => onError .unusedSymbol (onError .cannotReduceFurther (do m; return true)
          (pure false)) (pure false)
  if ← first then return some []
  else do
    match ← searching (fun e => (search n).concreteAst e .tru) with
    | none => return none
    | some t => do
      executeReduction n right t
      return some []

/-- `context.rs` 964-967: the command `forget`. -/
def callForget (right : Syn) : CM (Option Str) := do
  match right.concept with
  | none => return none
  | some c => do
    exclusive
    Updater.deleteReduction c (← ofE right.display)
    return some []

/-- `context.rs` 968-974: the command `label_of`. -/
def callLabel (n : Nat) (right : Syn) : CM (Option Str) := do
  let s ← match right.concept with
    | none => ofE right.display
    | some c => do
      match ← reading (·.label n c) with
      | none => ofE right.display
      | some s => pure s
  return some ('\'' :: s ++ ['\''])

/-- The string of the concept of a tree, `context.rs` 885-892. -/
def stringOf (t : Syn) : CM (Option Str) := do
  match t.concept with
  | none => return none
  | some c => return (← reading (·.read c)).string

/-- Run with another pointer to the change set alive. -/
def pinning {α : Type} (m : CM α) : CM α := do
  let p := (← get).pinned
  modify (fun c => { c with pinned := true })
  let x ← tryCatch (do return .ok (← m)) (fun e => return .error e)
  modify (fun c => { c with pinned := p })
  ofR x

mutual

/-- `context.rs` 884-920 `call`. -/
def call (n : Nat) : Nat → Syn → CM Str
  | 0, _ => fault .diverge
  | k + 1, t => do
    match ← stringOf t with
    | some s => return s
    | none =>
      match t.expansion with
      | some (l, r) =>
        onError .cannotReduceFurther (callPair n k l r)
          (onError .cannotReduceFurther (tryReducing n k t) (do
            ofE (← searching (fun e => (search n).contractPair e l r)).display))
      | none =>
        onError .cannotReduceFurther (tryReducing n k t) (ofE t.display)

/-- `context.rs` 934-983 `call_pair`. -/
def callPair (n : Nat) : Nat → Syn → Syn → CM Str
  | 0, _, _ => fault .diverge
  | k + 1, left, right => do
    let done ← match ← ofE (Search.cctOfAst (env (← get)) left) with
      | some .letCmd => callLet n right
      | some .forget => callForget right
      | some .label => callLabel n right
      | _ => pure none
    match done with
    | some s => return s
    | none =>
      if (← ofE (Search.cctOfAst (env (← get)) right)) = some .reduction then tryReducing n k left
      else reduceAndCallPair n k left right

/-- `context.rs` 851-865 `reduce_and_call_pair`. -/
def reduceAndCallPair (n : Nat) : Nat → Syn → Syn → CM Str
  | 0, _, _ => fault .diverge
  | k + 1, left, right => do
    let rl ← searching (fun e => (search n).reduce e left)
    let rr ← searching (fun e => (search n).reduce e right)
    match rl, rr with
    | none, none => throw .cannotReduceFurther
    | some (x, _), none => callPair n k x right
    | none, some (y, _) => callPair n k left y
    | some (x, _), some (y, _) => callPair n k x y

/-- `context.rs` 867-882 `try_reducing_then_call`: the search, which holds a pointer to the change set,
lives until the end of the function. -/
def tryReducing (n : Nat) : Nat → Syn → CM Str
  | 0, _ => fault .diverge
  | k + 1, t => do
    let (nf, _) ← searching (fun e => (search n).recReduce e t none)
    if nf.key = t.key then do
      match ← searching (fun e => Search.findInferred (search n) e t) with
      | some (x, _) => ofE x.display
      | none => throw .cannotReduceFurther
    else pinning (call n k nf)

end

/-- `context.rs` 290-299: the part of `execute` before the commit. -/
def command (n : Nat) (s : Str) : CM Str := do
  let t ← Parser.astFromExpression n s
  let t ← searching (fun e => (search n).expand e t)
  let t ← tryCatch (Parser.createVariables t) (fun _ => fault (.panic .executeUnwrap))
  call n n t

/-- `context.rs` 288-312 `execute`. -/
def execute (n : Nat) (c : Ctx) (s : Str) : Except Fault (Str × Ctx) := do
  let (r, c) ← command n s c
  let out := match r with
    | .ok x => x
    | .error e => e.message
  let c ← commit c
  return (out, { c with vars := [], bound := [] })

/-- `Context::default()`. -/
def blank : Ctx := ⟨Snap.empty, Nested.default, Cache.empty, [], [], false⟩

/-- The table of `context.rs` 790-804. -/
def builtIns : List (Str × CCT) :=
  [(str% ":=", .define), (str% "->", .reduction), (str% "let", .letCmd), (str% "true", .tru),
   (str% "false", .fls), (str% "assoc", .associativity), (str% "right", .right),
   (str% "left", .left), (str% ">", .greaterThan), (str% "=>", .implication),
   (str% "exists_such_that", .existsSuchThat), (str% "precedes", .precedes),
   (str% "forget", .forget)]

/-- The loop of `context.rs` 822-828. -/
def labelAll (label : CId) : List (Str × CCT) → CM Unit
  | [] => pure ()
  | (s, t) :: rest => do
    let _ ← Updater.newLabelledConcept s (some t) (some label)
    labelAll label rest

/-- `context.rs` 789-829 `label_concrete_concepts`. -/
def labelConcrete : CM Unit := do
  exclusive
  let l ← Updater.newLabelledConcept (str% "label_of") (some .label) none
  labelAll l builtIns

/-- The commands of `context.rs` 834-847. -/
def setupCommands : List Str :=
  [str% "let (true and true) -> true",
   str% "let (false and _y_) -> false",
   str% "let (_x_ and false) -> false",
   str% "let ((_y_ exists_such_that) (_x_ precedes _y_) and _y_ precedes _z_) => _x_ precedes _z_",
   str% "let -> precedes :=",
   str% "let := precedes let"]

/-- A command of the set-up: the answer must be empty (`debug_assert_eq!`). -/
def setupStep (n : Nat) (c : Ctx) (s : Str) : Except Fault Ctx := do
  let (r, c) ← execute n c s
  if r = [] then return c else .error (.panic .other)

/-- The context after `label_concrete_concepts` and the first commit. -/
def labelled : Except Fault Ctx := do
  let (_, c) ← labelConcrete.run blank
  commit c

/-- `context.rs` 831-849 `setup` and 129-133 `new`. -/
def new (n : Nat) : Except Fault Ctx := do
  setupCommands.foldlM (setupStep n) (← labelled)

/-- Answers to a list of commands, one after the other. -/
def run (n : Nat) (c : Ctx) : List Str → Except Fault (List Str × Ctx)
  | [] => .ok ([], c)
  | s :: ss => do
    let (r, c) ← execute n c s
    let (rs, c) ← run n c ss
    return (r :: rs, c)

end Context

end Zia

import Verif.Updater

/-!
# From text to a syntax tree

Models the parsing half of /repo/zia/src/context.rs. `n` is the fuel of searches and reading.
-/

namespace Zia

open CM HashOrder

variable [HashOrder]

namespace Parser

/-- `context.rs` 265-286 `concept_kind_from_symbol`. -/
def conceptKind (v : View) (n : Nat) (s : Str) : Except Fault Kind := do
  if s.head? = some '_' ∧ s.getLast? = some '_' then return .variable
  else match ← v.conceptFromLabel n s with
    | none => return .new
    | some id =>
      match (← v.read id).cct with
      | none => return .abst id
      | some t => return .concrete id t

/-- `context.rs` 471-516 `ast_from_syntax_leaf`: a symbol without a concept gets one, labelled with
the symbol, whatever the command is. -/
def astFromLeaf (n : Nat) (l : SLeaf) (s : Str) (concept : Option CId) : CM Syn := do
  let id ← match concept with
    | some c => pure c
    | none => do
      exclusive
      match ← reading (·.conceptFromLabel n s) with
      | some c => pure c
      | none => do
        let label ← reading (·.concreteId .label)
        Updater.newLabelledConcept s none label
  return .leaf (some s) (some id) l

/-- `context.rs` 768-780 `ast_from_pair`. -/
def astFromPair (n : Nat) (l r : Syn) : CM Syn := do
  if (← ofE (Search.cctOfAst (env (← get)) r)) = some .existsSuchThat ∧ l.isLeafVariable then
    modify (fun c => { c with bound := setInsert c.bound l.key })
  searching (fun e => (search n).combine e l r)

/-- The positions of the tokens that have a given concept: `index_of_concept` of `context.rs`
638-650. -/
def indicesOf (id : CId) : Nat → List Syn → List Nat
  | _, [] => []
  | i, t :: ts => if t.concept = some id then i :: indicesOf id (i + 1) ts
    else indicesOf id (i + 1) ts

/-- The positions of the tokens without a concept: `lp_indices_without_concepts` of `context.rs`
638-650. -/
def indicesWithout : Nat → List Syn → List Nat
  | _, [] => []
  | i, t :: ts => if t.concept.isNone then i :: indicesWithout (i + 1) ts
    else indicesWithout (i + 1) ts

/-- `context.rs` 664-676: the concepts among `ids` that occur in a precedence relation, collected from
the compositions `precedes x` and `y (precedes x)`. -/
def precedenceRelated (v : View) (ids : List CId) : List CId → List (CId × CId) →
    Except Fault (List CId)
  | acc, [] => .ok acc
  | acc, (right, comp) :: rest => do
    let acc := if ids.contains right then setInsert acc right else acc
    let lefts := ((← v.read comp).iterHandOf .right).map Prod.fst
    precedenceRelated v ids (setExtend acc (lefts.filter ids.contains)) rest

/-- `context.rs` 678-699: the truth of `a precedes b`. -/
def precedes (n : Nat) (a b : CId) : CM (Option CCT) :=
  searching (fun e => do
    match ← (search n).concreteAst e .precedes with
    | none => SM.fault (.panic .unwrapNone)
    | some p => do
      let x ← (search n).toAst e a
      let y ← (search n).toAst e b
      let t ← (search n).combine e x (← (search n).combine e p y)
      let (nf, _) ← (search n).recReduce e t none
      Search.cctOfAst e nf)

/-- What the inner loop `'b` of `context.rs` 701-738 decides about a concept. -/
inductive Rank
  | skip | replace | add
  deriving DecidableEq, Repr

/-- `context.rs` 703-735: the body of loop `'b`. `none` goes on with the next concept. `ask` is
`precedes`; it is left open so that properties can tell what was answered. -/
def rankStep (ask : CId → CId → CM (Option CCT)) (c l : CId) : CM (Option Rank) := do
  match ← ask c l with
  | some .tru => return some .skip
  | some .fls => do
    match ← ask l c with
    | some .tru => return some .replace
    | some .fls => return some .add
    | some .right => return none
    | none => return none
    | _ => fault (.panic .precedenceTruth)
  | some .right => unknown (← ask l c)
  | none => unknown (← ask l c)
  | _ => fault (.panic .precedenceTruth)
where
  /-- `context.rs` 722-733. -/
  unknown : Option CCT → CM (Option Rank)
    | some .tru => return some .replace
    | some .fls => return none
    | some .right => return none
    | none => return none
    | _ => fault (.panic .precedenceTruth)

/-- `context.rs` 702-736, loop `'b`. -/
def rank (ask : CId → CId → CM (Option CCT)) (c : CId) : List CId → CM Rank
  | [] => pure .add
  | l :: ls => do
    match ← rankStep ask c l with
    | some x => return x
    | none => rank ask c ls

/-- `context.rs` 700-739, loop `'a`: the concepts of lowest precedence. `'b` visits the
set found so far in hash order, and so does `'a` with its set. -/
def lowest (ask : CId → CId → CM (Option CCT)) : List CId → List CId → CM (List CId)
  | acc, [] => pure acc
  | acc, c :: cs => do
    match ← rank ask c (order acc) with
    | .skip => lowest ask acc cs
    | .replace => lowest ask [c] cs
    | .add => lowest ask (setInsert acc c) cs

/-- Insertion into a descending list. -/
def insertDesc (x : Nat) : List Nat → List Nat
  | [] => [x]
  | y :: ys => if y ≤ x then x :: y :: ys else y :: insertDesc x ys

/-- The contents of a `BinaryHeap` in the order in which `pop` returns them. -/
def heap (l : List Nat) : List Nat := l.foldr insertDesc []

/-- `context.rs` 619-766 `lowest_precedence_info`: syntax and positions. -/
def lowestPrecedenceInfo (ask : CId → CId → CM (Option CCT)) (ts : List Syn) :
    CM (List Syn × List Nat) := do
  let ids := ts.filterMap Syn.concept
  match ← reading (·.concreteId .precedes) with
  | none => fault (.panic .unwrapNone)
  | some p => do
    let rel ← reading (fun v => do
      precedenceRelated v ids [] ((← v.read p).iterHandOf .left))
    let low ← lowest ask [] (order rel)
    if low.isEmpty then
      let idx := (ids.filter (fun i => !rel.contains i)).flatMap (fun i => order (indicesOf i 0 ts))
      return (idx.filterMap (ts[·]?), heap (indicesWithout 0 ts ++ idx))
    else
      let idx := (order low).flatMap (fun i => order (indicesOf i 0 ts))
      return (idx.filterMap (ts[·]?), heap idx)

/-- `context.rs` 410-424: the common associativity of the tokens of lowest precedence. -/
def commonAssoc (n : Nat) : Option Assoc → List Syn → CM (Option Assoc)
  | a, [] => pure a
  | a, t :: ts => do
    let x ← searching (fun e => (search n).getAssoc e t)
    match a with
    | none => commonAssoc n (some x) ts
    | some y =>
      if x = y then commonAssoc n (some x) ts
      else throw (.differentAssociativity (← ofE t.display) x y)

/-- `context.rs` 564-599: the tree of a slice. `parse` is `ast_from_syntax_list`. -/
def sliceAst (n : Nat) (parse : List Syn → CM Syn) (slice : List Syn) (lp : Nat) (a : Assoc) :
    CM Syn := do
  let edge := match a with
    | .left => slice.length - 1
    | .right => 0
  if lp = edge then
    match slice[edge]? with
    | none => fault (.panic .sliceOutOfRange)
    | some e =>
      if slice.length = 1 then return e
      else match a with
        | .left => do
          let rest ← if slice.length < 3 then pure e else parse (slice.take (slice.length - 1))
          searching (fun env => (search n).combine env rest e)
        | .right => do
          let rest ← match slice with
            | [_, r] => pure r
            | _ => parse (slice.drop 1)
          searching (fun env => (search n).combine env e rest)
  else parse slice

/-- `context.rs` 546-615 `associativity_try_fold_handler`. -/
def handler (n : Nat) (parse : List Syn → CM Syn) (ts : List Syn) (state : Option (Syn × Nat))
    (lp : Nat) (a : Assoc) : CM (Syn × Nat) := do
  let slice ← ofE (a.sliceTokens ts (state.map Prod.snd) lp)
  if slice.isEmpty then throw .ambiguousExpression
  else do
    let t ← sliceAst n parse slice lp a
    match state with
    | none => return (t, lp)
    | some (e, _) =>
      match a with
      | .left => return (← searching (fun env => (search n).combine env e t), lp)
      | .right => return (← searching (fun env => (search n).combine env t e), lp)

/-- `context.rs` 427-441: the loop of the right associative case. The state is the tree so far with
the position last handled (`tail` and `min`). -/
def rightLoop (n : Nat) (parse : List Syn → CM Syn) (ts : List Syn) : Option (Syn × Nat) →
    List Nat → CM (Option (Syn × Nat))
  | st, [] => pure st
  | st, lp :: rest => do
    if st.map Prod.snd = some lp then rightLoop n parse ts st rest
    else do
      let x ← handler n parse ts st lp .right
      rightLoop n parse ts (some x) rest

/-- `BinaryHeap::iter`: the greatest element first, then the others in an order that is not specified. -/
def heapIter : List Nat → List Nat
  | [] => []
  | x :: xs => x :: order xs

/-- `context.rs` 453-462: the fold of the left associative case. -/
def leftLoop (n : Nat) (parse : List Syn → CM Syn) (ts : List Syn) : Option (Syn × Nat) →
    List Nat → CM (Option (Syn × Nat))
  | st, [] => pure st
  | st, lp :: rest => do
    let x ← handler n parse ts st lp .left
    leftLoop n parse ts (some x) rest

/-- `context.rs` 453-464: the left associative case. `parse` is `ast_from_syntax_list`. -/
def leftCase (n : Nat) (parse : List Syn → CM Syn) (ts : List Syn) (lps : List Nat) : CM Syn := do
  match ← leftLoop n parse ts none (heapIter lps) with
  | none => throw .ambiguousExpression
  | some (t, _) => return t

/-- `context.rs` 382-469 `ast_from_syntax_list`; `k` bounds the recursion (the lists get shorter).
Three parts are left open so that properties can tell whether or how a run used them: the question
which symbol precedes which, what is done with left associative symbols, and what is done when `k` runs
out. `astFromList` fills them in. -/
def astFromListWith (ask : CId → CId → CM (Option CCT))
    (left : (List Syn → CM Syn) → List Syn → List Nat → CM Syn) (out : CM Syn)
    (n : Nat) : Nat → List Syn → CM Syn
  | _, [] => fault (.panic .emptySyntaxList)
  | _, [s] => pure s
  | _, [l, r] => pure (.newPair l r)
  | 0, _ => out
  | k + 1, ts => do
    let (lpSyn, lps) ← lowestPrecedenceInfo ask ts
    if lps.isEmpty then throw (.lowestPrecedenceNotFound (← ofE (ts.mapM Syn.display)))
    else do
      match ← commonAssoc n none lpSyn with
      | some .right => do
        match ← rightLoop n (astFromListWith ask left out n k) ts none lps with
        | none => throw .ambiguousExpression
        | some (tail, 0) => return tail
        | some (tail, min) => do
          let head ← astFromListWith ask left out n k (ts.take min)
          searching (fun e => (search n).combine e head tail)
      | some .left => left (astFromListWith ask left out n k) ts lps
      | none => throw .ambiguousExpression

/-- `context.rs` 382-469 `ast_from_syntax_list`. -/
def astFromList (n : Nat) : Nat → List Syn → CM Syn :=
  astFromListWith (precedes n) (leftCase n) (fault .diverge) n

mutual

/-- `context.rs` 518-544 `ast_from_nested_syntax`. -/
def astFromNested (n : Nat) : NST → CM Syn
  | .leaf l s c => astFromLeaf n l s c
  | .parent children _ _ => do
    match ← astsFromNested n children with
    | [l, r] => astFromPair n l r
    | ts => astFromList n ts.length ts

/-- `context.rs` 371-374: the trees of the children, in order. -/
def astsFromNested (n : Nat) : List NST → CM (List Syn)
  | [] => pure []
  | c :: cs => do
    let t ← astFromNested n c
    let ts ← astsFromNested n cs
    return t :: ts

end

/-- `context.rs` 359-379 `syntax_list_for_nested_syntax`. -/
def syntaxList (n : Nat) : NST → CM (List Syn)
  | .leaf l s c => do return [← astFromLeaf n l s c]
  | .parent children _ _ => astsFromNested n children

/-- `context.rs` 349-357 `ast_from_expression`. -/
def astFromExpression (n : Nat) (s : Str) : CM Syn := do
  let ls ← reading (fun v => lex (conceptKind v n) s)
  let t ← ofR (nest ls)
  let ts ← syntaxList n t
  astFromList n ts.length ts

/-- `context.rs` 314-347 `create_variable_concepts`: the tree with the variables bound to their
concepts. -/
def createVariables : Syn → CM Syn
  | .branch s c l r f b => do
    let l' ← createVariables l
    let r' ← createVariables r
    return .branch s c l' r' f b
  | t@(.leaf _ _ .variable) => do
    let name ← ofE t.display
    match (← get).vars.get? name with
    | some id => return t.bindConcept id
    | none => do
      exclusive
      let id ← update (.new (if (← get).bound.contains t.key then .boundVariable
        else .freeVariable))
      modify (fun c => { c with vars := c.vars.insert name id })
      return t.bindConcept id
  | t@(.leaf ..) => pure t

end Parser

end Zia

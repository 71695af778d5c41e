import Verif.Reason

/-!
# Reducing and printing

Models /repo/zia/src/context_search.rs and the functions of reduction_reason.rs that call it.

The functions of `ContextSearch` call each other without a decreasing measure. Each is modelled as a
function of a record `Search` of the functions it calls recursively; `search n` ties the knot `n`
times, and a call at depth `n` that would need more is `diverge`.
-/

namespace Zia

open HashOrder

variable [HashOrder]

/-- A computation that reads and fills the cache. -/
abbrev SM := StateT Cache (Except Fault)

/-- `context_search.rs` 43-63 `struct ContextSearch`, without the cache. -/
structure Env where
  view : View
  mask : MaskList
  evaluating : List Key
  inferring : List CId
  bound : List Key
  deriving Repr

/-- The recursive calls. -/
structure Search where
  /-- fuel of the reading functions -/
  fuel : Nat
  reduce : Env → Syn → SM RR
  toAst : Env → CId → SM Syn
  getAssoc : Env → Syn → SM Assoc
  recReduce : Env → Syn → Option Reason → SM (Syn × Option Reason)
  /-- `find_examples(..).find_map(k)` -/
  findEx : Env → Syn → List CId → (ExSubst → SM (Option ExSubst)) → SM (Option ExSubst)
  evidence : Env → Syn → Syn → SM (Option Reason)
  expand : Env → Syn → SM Syn

/-- A fault as a computation. -/
def SM.fault {α : Type} (f : Fault) : SM α := fun _ => .error f

/-- `self.spawn(&cache, ..)` (`context_search.rs` 1087-1104, `context_cache/macro.rs` 38-47): run in a
search with its own caches, the given one for reductions; also returns that cache. -/
def SM.spawn {α : Type} (red : AMap Key RR) (m : SM α) : SM (α × AMap Key RR) := fun c => do
  let (a, c') ← m { c with frames := ⟨red, []⟩ :: c.frames }
  match c'.frames with
  | [] => return ((a, []), c')
  | f :: fs => return ((a, f.red), { c' with frames := fs })

/-- Run a computation of the search that spawned the current one. -/
def SM.asParent {α : Type} (m : SM α) : SM α := fun c => do
  match c.frames with
  | [] => m c
  | f :: fs =>
    let (a, c') ← m { c with frames := fs }
    return (a, { c' with frames := f :: c'.frames })

namespace Search

variable (S : Search)

/-- `context_search.rs` 148-153 `concrete_ast`. -/
def concreteAst (e : Env) (t : CCT) : SM (Option Syn) := do
  match ← e.view.concreteId t with
  | none => return none
  | some id => return some (← S.toAst e id)

/-- `context_search.rs` 1221-1226 `concrete_type_of_ast`. -/
def cctOfAst (e : Env) (t : Syn) : Except Fault (Option CCT) :=
  match t.concept with
  | none => .ok none
  | some c => e.view.cct c

/-- `context_search.rs` 1167-1174 `is_free_variable`. -/
def isFreeVariable (e : Env) (v : CId) : Except Fault Bool := do
  return (← e.view.read v).isFree &&
    (match e.mask.tail? with
      | none => true
      | some t => (t.get v).isNone)

/-- `context_search.rs` 1162-1164 `is_leaf_variable`. -/
def isLeafVariable (e : Env) (v : CId) : Except Fault Bool := do
  return (← isFreeVariable e v) && (← e.view.read v).composition.isNone

/-- `context_search.rs` 1242-1263 `contains_bound_variable_syntax`. -/
def containsBound (e : Env) : Syn → Except Fault Bool
  | t@(.leaf _ c _) => do
    if e.bound.contains t.key then return true
    else match c with
      | none => return false
      | some c => return (← e.view.read c).isBound
  | t@(.branch _ c l r _ _) => do
    if ← containsBound e l then return true
    else if ← containsBound e r then return true
    else if e.bound.contains t.key then return true
    else match c with
      | none => return false
      | some c => return (← e.view.read c).isBound

/-- `context_search.rs` 901-926 `display_joint`. -/
def displayJoint (e : Env) (left right : Syn) : SM Str := do
  let ls ← left.display
  let ls ← if ls.any isWs then
      match left.expansion with
      | none => pure ls
      | some (l, r) => do
        pure ((← S.getAssoc e r).displayJointLeft (← l.display) (← r.display))
    else pure ls
  let rs ← right.display
  let rs ← if rs.any isWs then
      match right.expansion with
      | none => pure rs
      | some (l, r) => do
        pure ((← S.getAssoc e l).displayJointRight (← l.display) (← r.display))
    else pure rs
  return ls ++ ' ' :: rs

/-- `context_search.rs` 892-899 `join`. -/
def join (e : Env) (left right : Syn) : SM Syn := do
  return (Syn.ofStr (← S.displayJoint e left right)).bindPair left right

/-- The composition of the concepts of two syntax trees, if there is one: the lookup shared by
`contract_pair` and `combine`. -/
def pairConcept (e : Env) (left right : Syn) : Except Fault (Option CId) :=
  match left.concept, right.concept with
  | some l, some r => do return (← e.view.read l).findAsHand r .left
  | _, _ => .ok none

/-- `context_search.rs` 868-890 `combine`. -/
def combine (e : Env) (left right : Syn) : SM Syn := do
  match ← pairConcept e left right with
  | some c => do e.view.bindConceptToSyntax (← S.join e left right) c
  | none => S.join e left right

/-- `context_search.rs` 325-355 `contract_pair`. -/
def contractPair (e : Env) (left right : Syn) : SM Syn := do
  match ← pairConcept e left right with
  | some c => do
    let s ← match ← e.view.label S.fuel c with
      | some s => pure s
      | none => S.displayJoint e left right
    return (← e.view.bindConceptToSyntax (Syn.ofStr s) c).bindPair left right
  | none => return (Syn.ofStr (← S.displayJoint e left right)).bindPair left right

/-- `context_search.rs` 928-950 `get_associativity`. -/
def getAssocF (e : Env) (t : Syn) : SM Assoc := do
  match ← e.view.concreteId .associativity with
  | none => return .right
  | some a => do
    let s ← S.combine e (← S.toAst e a) t
    match ← S.reduce e s with
    | none => return .right
    | some (r, _) => do
      if (← cctOfAst e r) = some .left then return .left else return .right

/-- `concepts/mod.rs` 862-864 `format_string`: a string concept prints in double quotes. -/
def formatString (s : Str) : Str := '"' :: s ++ ['"']

/-- `context_search.rs` 844-860: the syntax of a concept that is neither masked nor cached. -/
def buildAst (e : Env) (id : CId) (c : Mixed) : SM Syn := do
  let s ← match c.string with
    | some s => pure (some (formatString s))
    | none => e.view.label S.fuel id
  match s with
  | some s => e.view.bindConceptToSyntax (Syn.ofStr s) id
  | none =>
    match c.composition with
    | some (l, r) => do S.combine e (← S.toAst e l) (← S.toAst e r)
    | none => return View.newSyntaxFromConcept c

/-- `context_search.rs` 834-866 `to_ast`. -/
def toAstF (e : Env) (id : CId) : SM Syn := do
  match e.mask.get id with
  | some s => return s
  | none =>
    match (← get).syntaxTree? id with
    | some s => return s
    | none => do
      let c ← e.view.read id
      let s ← S.buildAst e id c
      modify (fun ca => ca.insertSyntaxTree c s)
      return s

/-- `context_search.rs` 303-322 `substitute`. -/
def substitute (e : Env) (m : Mask) : Syn → SM Syn
  | .leaf s c l =>
    match c.bind m.get? with
    | some v => pure v
    | none => pure (.leaf s c l)
  | .branch _ c l r _ _ =>
    match c.bind m.get? with
    | some v => pure v
    | none => do
      let l' ← substitute e m l
      let r' ← substitute e m r
      S.contractPair e l' r'

/-- The compositions of which some concepts are a given hand (`iter_composition_ids`). -/
def compositionsOf (v : View) (h : Hand) : List CId → List CId → Except Fault (List CId)
  | acc, [] => .ok acc
  | acc, c :: cs => do
    compositionsOf v h (setExtend acc (((← v.read c).iterHandOf h).map Prod.snd)) cs

/-- `context_search.rs` 357-393 `find_generalisations`: a hash set, here in the order of insertion; its users
put it into hash order. -/
def findGeneralisations (v : View) : Syn → Except Fault (List CId)
  | .leaf .. => .ok []
  | .branch _ _ l r _ _ => do
    let acc ← compositionsOf v .left [] l.concept.toList
    let acc ← compositionsOf v .right acc r.concept.toList
    let acc ← compositionsOf v .left acc (order (← findGeneralisations v l))
    compositionsOf v .right acc (order (← findGeneralisations v r))

/-- `context_search.rs` 1114-1122: the guard of `check_generalisation`. -/
def canGeneralise (e : Env) (t : Syn) (g : CId) : Except Fault Bool := do
  if ← isFreeVariable e g then
    if e.bound.contains t.key then return false
    else match t.concept with
      | none => return true
      | some c => return !(← e.view.read c).isBound
  else return false

/-- `context_search.rs` 1109-1159 `check_generalisation`. -/
def checkGeneralisation (e : Env) : Syn → CId → Except Fault (Option Mask)
  | t@(.leaf ..), g => do
    if ← canGeneralise e t g then
      match (← e.view.read g).composition with
      | some _ => return none
      | none => return some [(g, t)]
    else return none
  | t@(.branch _ _ l r _ _), g => do
    if ← canGeneralise e t g then
      match (← e.view.read g).composition with
      | none => return some [(g, t)]
      | some (gl, gr) =>
        match ← isFreeVariable e gl, ← isFreeVariable e gr with
        | true, true => do
          match ← checkGeneralisation e l gl, ← checkGeneralisation e r gr with
          | some lm, some rm => return mergeInto rm lm
          | _, _ => return none
        | true, false =>
          if r.concept = some gr then checkGeneralisation e l gl else return none
        | false, true =>
          if l.concept = some gl then checkGeneralisation e r gr else return none
        | false, false =>
          if l.concept = some gl ∧ r.concept = some gr then return some [] else return none
    else return none

/-- `context_search.rs` 573-600 `find_examples` and 603-736
`find_examples_of_branched_generalisation`, case of two generalised parts: the match of the right part
once the left part is matched. -/
def rightMatch (e : Env) (right : Syn) (er : CId) (le : ExSubst) : SM (Option ExSubst) := do
  let sr ← S.substitute e le.exam (Zia.substitute le.gen right)
  let set := (← e.view.read er).reducesFrom ++ [er]
  if ← containsBound e sr then S.findEx e sr set (fun re => pure (re.merge le))
  else do
    let (nf, _) ← S.recReduce e sr none
    match nf.concept with
    | some id => return if set.contains id then some le else none
    | none => return none

/-- `context_search.rs` 446-454 `find_example`. -/
def findExample (e : Env) (g : Syn) (set : List CId) : SM (Option ExSubst) :=
  S.findEx e g set (fun x => pure (some x))

/-- `context_search.rs` 746-787: one concept tried by `find_examples_of_half_generalisation`. -/
def halfStep (e : Env) (gen non : Syn) (hand : Hand) (id : CId) : SM (Option ExSubst) := do
  match (← e.view.read id).composition with
  | none => return none
  | some (l, r) => do
    let (ng, g) : CId × CId := match hand with
      | .left => (l, r)
      | .right => (r, l)
    if some ng ≠ non.concept then
      if (← e.view.read ng).isFree then do
        match ← S.findExample e gen [g] with
        | none => return none
        | some subs => return subs.merge ⟨[], [(ng, non)]⟩
      else return none
    else do
      match ← S.findExample e gen [g] with
      | some x => return some x
      | none => do
        let s ← S.toAst e g
        match checkExample s gen with
        | some x => return some x
        | none => do S.findExample e gen (g :: (← e.view.read g).reducesFrom)

/-- `Iterator::find_map` with a closure that uses the search. -/
def findMap {α β : Type} (f : α → SM (Option β)) : List α → SM (Option β)
  | [] => pure none
  | a :: as => do
    match ← f a with
    | some b => return some b
    | none => findMap f as

/-- `context_search.rs` 573-736 `find_examples(generalisation, set).find_map(k)`. The Rust function
returns a lazy iterator; all its users apply `find_map` (or `next`), so the model takes the closure. -/
def findExamples {β : Type} (e : Env) (gen : Syn) (set : List CId)
    (k : ExSubst → SM (Option β)) : SM (Option β) := do
  match gen.expansion with
  | none => do
    if ← containsBound e gen then
      findMap (fun c => do k ⟨[(gen.key, ← S.toAst e c)], []⟩) set
    else SM.fault (.panic .noBoundVariable)
  | some (left, right) => do
    match ← containsBound e left, ← containsBound e right with
    | true, true =>
      findMap (fun c => do
        match (← e.view.read c).composition with
        | none => return none
        | some (el, er) => do
          match ← S.findEx e left ((← e.view.read el).reducesFrom ++ [el])
              (S.rightMatch e right er) with
          | none => return none
          | some ex => k ex) set
    | true, false => do
      match ← findMap (S.halfStep e left right .right) set with
      | none => return none
      | some ex => k ex
    | false, true => do
      match ← findMap (S.halfStep e right left .left) set with
      | none => return none
      | some ex => k ex
    | false, false => return none

/-- `context_search.rs` 489-512: the pattern `condition => (prereduction -> reduction)`. -/
def implicationRule (imp op condition prereduction reduction : Syn) : Syn :=
  .newPair condition (.newPair imp (.newPair prereduction (.newPair op reduction)))

/-- `context_search.rs` 532-569: what is done with an example of the pattern. `e` is the searching
environment, `e'` that of the spawned search. -/
def inferFrom (e e' : Env) (imp op t cond red : Syn) (subs : ExSubst) : SM RR := do
  match subs.gen.get? cond.key with
  | none => return none
  | some c => do
    let sc ← SM.asParent (S.substitute e subs.exam c)
    let (nf, reason) ← S.recReduce e' sc none
    match nf.concept with
    | none => return none
    | some x => do
      if (← e'.view.cct x) = some .tru then
        match subs.gen.get? red.key with
        | none => return none
        | some result => do
          return some (← SM.asParent (S.substitute e subs.exam result),
            .inference (implicationRule imp op c t result) (reason.getD .explicit))
      else return none

/-- `context_search.rs` 456-571 `find_examples_of_inferred_reduction`. -/
def findInferred (e : Env) (t : Syn) : SM RR := do
  match ← e.view.concreteId .implication with
  | none => return none
  | some imp => do
    match ← S.concreteAst e .reduction with
    | none => return none
    | some op => do
      let d := e.view.delta.spawn
      let (d, vr) ← d.insertNew .boundVariable
      let (d, vc) ← d.insertNew .boundVariable
      let (d, _) ← d.insertNew .boundVariable
      let e' : Env := { e with
        view := { e.view with delta := d }
        inferring := match t.concept with
          | some c => setInsert e.inferring c
          | none => e.inferring }
      let (r, _) ← SM.spawn [] (do
        let impSyn ← S.toAst e' imp
        match ← e'.view.concreteId .tru with
        | none => SM.fault (.panic .unwrapNone)
        | some tru => do
          let truths := (← e.view.read tru).reducesFrom ++ [tru]
          S.findExamples e'
            (implicationRule impSyn op (View.newVariable vc) t (View.newVariable vr)) truths
            (S.inferFrom e e' impSyn op t (View.newVariable vc) (View.newVariable vr)))
      return r

/-- `context_search.rs` 115-135: trying one implication whose consequence is the concept. -/
def inferStep (e : Env) (p : CId × CId) : SM RR := do
  let condition ← S.toAst e p.1
  match ← S.reduce e condition with
  | none => return none
  | some (rc, reason) =>
    match rc.concept with
    | none => return none
    | some x => do
      if (← e.view.cct x) = some .tru then
        return some (← S.toAst e x, .inference (← S.toAst e p.2) reason)
      else return none

/-- `context_search.rs` 101-145 `infer_reduction`. -/
def inferReduction (e : Env) (c : Mixed) : SM RR := do
  match ← e.view.concreteId .implication with
  | none => return none
  | some imp => do
    let r ← match c.findAsHand imp .right with
      | none => pure none
      | some comp => do findMap (S.inferStep e) ((← e.view.read comp).iterHandOf .right)
    match r with
    | some r => return some r
    | none =>
      match (← get).inference? c.id with
      | some r => return r
      | none => do
        let t ← S.toAst e c.id
        let r ← S.findInferred e t
        modify (fun ca => ca.insertInference c.id r)
        return r

/-- `context_search.rs` 155-172 `reduce_concept`. -/
def reduceConcept (e : Env) (id : CId) : SM RR := do
  let c ← e.view.read id
  let r ← if e.inferring.contains id then pure none else S.inferReduction e c
  match r with
  | some r => return some r
  | none =>
    match c.reduction with
    | none => return none
    | some n => do
      if ← isLeafVariable e n then return (e.mask.get n).map (fun s => (s, .explicit))
      else return some (← S.toAst e n, .explicit)

/-- `context_search.rs` 246-279: trying the generalisations of a pair in turn; they share the
reduction cache `red`. -/
def genLoop (e : Env) (t : Syn) : AMap Key RR → List CId → SM RR
  | _, [] => pure none
  | red, g :: gs => do
    match ← checkGeneralisation e t g with
    | none => genLoop e t red gs
    | some vm =>
      if vm.isEmpty then genLoop e t red gs
      else match e.mask.push vm with
        | none => genLoop e t red gs
        | some ml => do
          let e' := { e with mask := ml }
          let (r, red) ← SM.spawn red (do
            match ← S.reduceConcept e' g with
            | none => return none
            | some (a, reason) => return some (← S.substitute e' vm a, reason))
          match r with
          | none => genLoop e t red gs
          | some (s, reason) => return some (s, .rule (← S.toAst e g) vm reason)

/-- `context_search.rs` 221-301 `recursively_reduce_pair`. -/
def recursivelyReducePair (e : Env) (l r : Syn) : SM RR := do
  let lr ← S.reduce e l
  let rr ← S.reduce e r
  match lr, rr with
  | none, none => do
    let t ← S.contractPair e l r
    S.genLoop e t [] (order (← findGeneralisations e.view t))
  | some (la, lreason), none => do
    let s ← S.contractPair e la ((r.concept.bind e.mask.get).getD r)
    return some (s, partialReason [(l.key, la, lreason)] .nil)
  | none, some (ra, rreason) => do
    let s ← S.contractPair e ((l.concept.bind e.mask.get).getD l) ra
    return some (s, partialReason [(r.key, ra, rreason)] .nil)
  | some (la, lreason), some (ra, rreason) => do
    let s ← S.contractPair e la ra
    return some (s, partialReason
      (if l.key = r.key then [(r.key, ra, rreason)]
        else [(l.key, la, lreason), (r.key, ra, rreason)]) .nil)

/-- `context_search.rs` 1266-1273 `enum Comparison`. -/
inductive _root_.Zia.Cmp
  | greaterThan | lessThan | incomparable | equalTo | greaterOrEqual | lessOrEqual
  deriving DecidableEq, Repr

/-- `context_search.rs` 1046-1080: the table of `compare`, from the truth of `a > b` and `b > a`. -/
def cmpTable : Option CCT → Option CCT → Except Fault Cmp
  | some .fls, some .fls => .ok .equalTo
  | some .tru, some .tru => .error (.panic .compareBoth)
  | some .tru, _ => .ok .greaterThan
  | _, some .tru => .ok .lessThan
  | some .fls, _ => .ok .lessOrEqual
  | _, some .fls => .ok .greaterOrEqual
  | _, _ => .ok .incomparable

/-- `context_search.rs` 1008-1026 and 1027-1045: evaluating one direction of a comparison. -/
def compareSide (e : Env) (red : AMap Key RR) (t : Syn) :
    SM ((Option CCT × Option Reason) × AMap Key RR) := do
  let (r, red) ← if e.evaluating.contains t.key then do
      match (← get).reduction? t with
      | some (some (s, reason)) => pure (some (s, some reason), red)
      | _ => pure (none, red)
    else do
      let (x, red) ← SM.spawn red
        (S.recReduce { e with evaluating := setInsert e.evaluating t.key } t none)
      pure (some x, red)
  match r with
  | none => return ((none, none), red)
  | some (s, reason) => return ((← cctOfAst e s, reason), red)

/-- `context_search.rs` 978-1085 `compare`. -/
def compare (e : Env) (a b : Syn) : SM (Cmp × CmpReason) := do
  if a.key = b.key then return (.equalTo, .sameSyntax)
  else match ← e.view.concreteId .greaterThan with
    | none => return (.incomparable, .noGreaterThan)
    | some g => do
      let gt ← S.toAst e g
      let ab ← S.combine e a (← S.combine e gt b)
      let ba ← S.combine e b (← S.combine e gt a)
      let ((x, reason), red) ← S.compareSide e [] ab
      let ((y, reversed), _) ← S.compareSide e red ba
      let c ← cmpTable x y
      return (c, ← simplifyReasoning reason reversed)

/-- `reduction_reason.rs` 240-261 `determine_evidence_of_reduction`. -/
def evidenceF (e : Env) (l r : Syn) : SM (Option Reason) := do
  match ← S.reduce e l with
  | none => return none
  | some (rl, reason) =>
    if rl.key = r.key then return some reason
    else do
      match ← S.evidence e rl r with
      | none => return none
      | some new => return some (.recursive l new reason)

/-- `reduction_reason.rs` 305-341 `determine_reduction_truth`. -/
def reductionTruth (e : Env) (l r : Syn) : SM (Option (Bool × Reason)) := do
  if l.key = r.key then return some (false, .cannotReduceToItself)
  else do
    match ← S.evidence e l r, ← S.evidence e r l with
    | some _, some _ => SM.fault (.panic .mutualReduction)
    | some reason, none => return some (true, .leftToRight reason l r)
    | none, some reason => return some (false, .rightToLeft reason l r)
    | none, none => return none

/-- `context_search.rs` 791-832 `reduce_by_expanded_right_branch`. -/
def reduceByRight (e : Env) (left rl rr : Syn) : SM RR := do
  match ← cctOfAst e rl with
  | some .greaterThan => do
    let (c, reason) ← S.compare e left rr
    let t ← match c with
      | .greaterThan => S.concreteAst e .tru
      | .equalTo => S.concreteAst e .fls
      | .lessThan => S.concreteAst e .fls
      | .lessOrEqual => S.concreteAst e .fls
      | .greaterOrEqual => pure none
      | .incomparable => pure none
    return t.map (fun s => (s, .comparison reason))
  | some .reduction => do
    match ← S.reductionTruth e left rr with
    | none => return none
    | some (x, reason) => do
      let t ← S.concreteAst e (if x then .tru else .fls)
      return t.map (fun s => (s, reason))
  | _ => return none

/-- `context_search.rs` 414-444 `reduce_by_expanded_left_branch`. -/
def reduceByLeft (e : Env) (ll lr right : Syn) : SM RR := do
  match ← cctOfAst e lr with
  | some .existsSuchThat => do
    if ll.isLeafVariable then do
      match ← e.view.concreteId .tru with
      | none => SM.fault (.panic .unwrapNone)
      | some tru => do
        match ← S.findExample e right (← e.view.read tru).reducesFrom with
        | none => return none
        | some subs => return some (← S.toAst e tru, .existence subs.gen right)
    else return none
  | _ => return none

/-- `context_search.rs` 199-219 `reduce_pair`. -/
def reducePair (e : Env) (l r : Syn) : SM RR := do
  let x ← match r.expansion with
    | none => pure none
    | some (rl, rr) => S.reduceByRight e l rl rr
  match x with
  | some x => return some x
  | none => do
    let y ← match l.expansion with
      | none => pure none
      | some (ll, lr) => S.reduceByLeft e ll lr r
    match y with
    | some y => return some y
    | none => S.recursivelyReducePair e l r

/-- `context_search.rs` 181-193: the reduction of a syntax tree that is not in the cache. -/
def reduceNow (e : Env) (t : Syn) : SM RR := do
  let x ← match t.concept with
    | none => pure none
    | some c => S.reduceConcept e c
  match x with
  | some x => return some x
  | none =>
    match t.expansion with
    | none => return none
    | some (l, r) => S.reducePair e l r

/-- `context_search.rs` 175-196 `reduce`. -/
def reduceF (e : Env) (t : Syn) : SM RR := do
  match (← get).reduction? t with
  | some r => return r
  | none => do
    if (← cctOfAst e t).isSome then return none
    else do
      let r ← S.reduceNow e t
      modify (fun ca => ca.insertReduction t r)
      return r

/-- `context_search.rs` 396-412 `recursively_reduce`; the reason so far is an argument. -/
def recReduceF (e : Env) (t : Syn) (reason : Option Reason) : SM (Syn × Option Reason) := do
  match ← S.reduce e t with
  | none => return (t, reason)
  | some (a, r) => S.recReduce e a (some (recursiveReason reason r t))

/-- `context_search.rs` 953-975 `expand`. -/
def expandF (e : Env) (t : Syn) : SM Syn := do
  match t.concept with
  | none =>
    match t.expansion with
    | some (l, r) => do S.combine e (← S.expand e l) (← S.expand e r)
    | none => return t
  | some c => do
    match (← e.view.read c).composition with
    | some (l, r) => do
      S.combine e (← S.expand e (← S.toAst e l)) (← S.expand e (← S.toAst e r))
    | none => S.toAst e c

/-- No recursive call returns. -/
def bottom : Search where
  fuel := 0
  reduce _ _ := SM.fault .diverge
  toAst _ _ := SM.fault .diverge
  getAssoc _ _ := SM.fault .diverge
  recReduce _ _ _ := SM.fault .diverge
  findEx _ _ _ _ := SM.fault .diverge
  evidence _ _ _ := SM.fault .diverge
  expand _ _ := SM.fault .diverge

/-- One more level of recursive calls. -/
def step : Search where
  fuel := S.fuel + 1
  reduce := S.reduceF
  toAst := S.toAstF
  getAssoc := S.getAssocF
  recReduce := S.recReduceF
  findEx := S.findExamples
  evidence := S.evidenceF
  expand := S.expandF

end Search

/-- The functions of `ContextSearch` with at most `n` nested recursive calls. -/
def search : Nat → Search
  | 0 => Search.bottom
  | n + 1 => (search n).step

end Zia

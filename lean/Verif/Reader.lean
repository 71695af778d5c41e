import Verif.SnapShot
import Verif.Syntax

/-!
# Reading the store through a change set

Models /repo/zia/src/snap_shot.rs, context_snap_shot/concept.rs and the reading functions of
context_snap_shot/mod.rs. Recursive functions take fuel; running out of it is `diverge`.
-/

namespace Zia

open HashOrder

variable [HashOrder]

/-- `context_snap_shot/concept.rs` 13-40 `enum Mixed` with `struct Changes`. -/
inductive Mixed
  | prev (orig : Con) (leftOf rightOf : AMap CId (Option CId)) (redFrom : AMap CId Bool)
      (comp : Option (CId × CId)) (red : Option CId)
  | unc (c : Concept CId)
  deriving DecidableEq, Repr

namespace Mixed

/-- `context_snap_shot/concept.rs` 42-53 `From<&Concept<Committed>>`. -/
def ofCon (c : Con) : Mixed :=
  prev c [] [] [] (c.composition.map (fun p => (.com p.1, .com p.2))) (c.reduction.map .com)

/-- `context_snap_shot/concept.rs` 72-80 `id`. -/
def id : Mixed → CId
  | prev c _ _ _ _ _ => .com c.id
  | unc c => c.id

/-- `context_snap_shot/concept.rs` 82-96 `maybe_composition`. -/
def maybeComposition : Mixed → Except Fault (Option (MComp CId))
  | prev c _ _ _ u _ =>
    match c.maybeComposition with
    | none => .ok none
    | some (.comp l r _ _) => do return some (← MComp.applyChange (.comp (.com l) (.com r) [] []) u)
    | some (.leaf l) => do return some (← MComp.applyChange (.leaf l) u)
  | unc c => .ok c.maybeComposition

/-- `context_snap_shot/concept.rs` 98-116 `change_reduction`. -/
def changeReduction : Mixed → VChange CId → Except Fault Mixed
  | prev c l r f u _, .create x => .ok (prev c l r f u (some x))
  | prev c l r f u _, .update _ x => .ok (prev c l r f u (some x))
  | prev c l r f u _, .remove _ => .ok (prev c l r f u none)
  | unc c, ch => do return unc (← c.changeReduction ch)

/-- `context_snap_shot/concept.rs` 118-158 `apply_indirect`. -/
def applyIndirect : Mixed → Indirect CId → Except Fault Mixed
  | unc c, d => do return unc (← c.applyIndirect d)
  | prev c l r f _ red, .composedOf p => .ok (prev c l r f (some (p.left, p.right)) red)
  | prev c l r f u red, .lefthandOf comp rh => .ok (prev c (l.insert rh (some comp)) r f u red)
  | prev c l r f u red, .noLongerLefthandOf rh => .ok (prev c (l.insert rh none) r f u red)
  | prev c l r f u red, .righthandOf comp lh => .ok (prev c l (r.insert lh (some comp)) f u red)
  | prev c l r f u red, .noLongerRighthandOf lh => .ok (prev c l (r.insert lh none) f u red)
  | prev c l r f u red, .reducesFrom x => .ok (prev c l r (f.insert x true) u red)
  | prev c l r f u red, .noLongerReducesFrom x => .ok (prev c l r (f.insert x false) u red)

/-- `context_snap_shot/concept.rs` 160-168 `free_variable`. -/
def isFree : Mixed → Bool
  | prev c _ _ _ _ _ => c.isFree
  | unc c => c.isFree

/-- `context_snap_shot/concept.rs` 170-178 `bounded_variable`. -/
def isBound : Mixed → Bool
  | prev c _ _ _ _ _ => c.isBound
  | unc c => c.isBound

/-- `context_snap_shot/concept.rs` 180-188 `anonymous_variable`. -/
def isAnonymous : Mixed → Bool
  | prev c _ _ _ _ _ => c.isAnonymous
  | unc c => c.isAnonymous

/-- `context_snap_shot/concept.rs` 190-223 `find_what_reduces_to_it`. An id that was stored and is
added again is listed twice. -/
def reducesFrom : Mixed → List CId
  | prev c _ _ f _ _ =>
    (((order c.redFrom).map CId.com).filter (fun u => f.get? u ≠ some false)) ++
      ((order f).filter (fun p => p.2)).map Prod.fst
  | unc c => order c.redFrom

/-- `context_snap_shot/concept.rs` 225-233 `get_string`. -/
def string : Mixed → Option Str
  | prev c _ _ _ _ _ => c.string
  | unc c => c.string

/-- `context_snap_shot/concept.rs` 235-259 `iter_hand_of`. Pairs added by pending changes are not
listed for a stored concept. -/
def iterHandOf : Mixed → Hand → List (CId × CId)
  | prev c l r _ _ _, h =>
    (order (c.handOf h)).filterMap (fun p =>
      match (match h with | .left => l | .right => r).get? (.com p.1) with
      | none => some (.com p.1, .com p.2)
      | some none => none
      | some (some k) => some (.com p.1, k))
  | unc c, h => order (c.handOf h)

/-- `context_snap_shot/concept.rs` 261-269 `get_reduction`. -/
def reduction : Mixed → Option CId
  | prev _ _ _ _ _ red => red
  | unc c => c.reduction

/-- `context_snap_shot/concept.rs` 271-279 `get_composition`. -/
def composition : Mixed → Option (CId × CId)
  | prev _ _ _ _ u _ => u
  | unc c => c.composition

/-- `context_snap_shot/concept.rs` 288-318 `find_as_hand_in_composition_with`. -/
def findAsHand : Mixed → CId → Hand → Option CId
  | prev c l r _ _ _, other, h =>
    match (match h with | .left => l | .right => r).get? other with
    | some none => none
    | some (some k) => some k
    | none =>
      match other with
      | .com n => (c.findAsHand n h).map .com
      | .unc _ => none
  | unc c, other, h => c.findAsHand other h

/-- `context_snap_shot/concept.rs` 320-331 `get_concrete_concept_type`. -/
def cct : Mixed → Option CCT
  | prev c _ _ _ _ _ => c.cct
  | unc c => c.cct

end Mixed

/-- What every reading function sees: the store and the change set. -/
structure View where
  snap : Snap
  delta : Nested
  deriving DecidableEq, Repr

/-- `context_snap_shot/concept_id.rs` 8-12, 36-49 `Display`. The key of a stored concept prints as its
slot number and version; slot 0 is reserved and no slot is reused. -/
def CId.display : CId → Str
  | .com n => str% "CommittedConceptId: " ++ Nat.toDigits 10 (n + 1) ++ str% "v1"
  | .unc n => str% "UncommittedConceptId: " ++ Nat.toDigits 10 n

/-- Fault of an `unwrap`/`expect` on `None`. -/
def orPanic {α : Type} (p : Panic) : Option α → Except Fault α
  | some a => .ok a
  | none => .error (.panic p)

namespace View

/-- `context_snap_shot/mod.rs` 354-360 `get_concept`. -/
def getConcept (v : View) : CId → Option Mixed
  | .com n => (v.snap.concepts[n]?).map Mixed.ofCon
  | .unc _ => none

/-- `snap_shot.rs` 54-144: the effect of one recorded change on the concept read so far. A pending
change of composition reads the hands and then calls `Mixed::change_composition`, which is
`unimplemented!()` (`context_snap_shot/concept.rs` 281-286): always a panic. -/
def readStep (id : CId) (c : Option Mixed) : CDelta → Except Fault (Option Mixed)
  | .direct (.new d) =>
    match c with
    | some _ => .error (.panic .other)
    | none => .ok (some (.unc (Concept.ofNew id d)))
  | .direct (.remove x) =>
    if x = id ∧ c.isSome then .ok none else .error (.panic .other)
  | .direct (.compose _ _) => .error (.panic .mixedChangeComposition)
  | .direct (.reduce u change) =>
    if u = id then do
      let c ← orPanic .unwrapNone c
      return some (← c.changeReduction change)
    else .error (.panic .other)
  | .indirect d => do
    let c ← orPanic .unwrapNone c
    return some (← c.applyIndirect d)

/-- The loop of `snap_shot.rs` 53. -/
def readSteps (id : CId) : Option Mixed → List CDelta → Except Fault (Option Mixed)
  | c, [] => .ok c
  | c, d :: ds => do readSteps id (← readStep id c d) ds

/-- `snap_shot.rs` 42-157 `maybe_read_concept`. -/
def maybeRead (v : View) (id : CId) : Except Fault (Option Mixed) :=
  match v.delta.getConcept id with
  | none => .ok none
  | some ds => readSteps id (v.getConcept id) ds

/-- `snap_shot.rs` 158-170 `read_concept`. A concept removed by the change set falls back to the
stored one. -/
def read (v : View) (id : CId) : Except Fault Mixed := do
  match ← v.maybeRead id with
  | some c => return c
  | none => orPanic .noConcept (v.getConcept id)

/-- `snap_shot.rs` 393-402 `maybe_concrete_concept_type`. -/
def maybeCct (v : View) (id : CId) : Except Fault (Option CCT) := do
  return (← v.maybeRead id).bind Mixed.cct

/-- `snap_shot.rs` 404-412 `concrete_concept_type`. -/
def cct (v : View) (id : CId) : Except Fault (Option CCT) := do
  return (← v.read id).cct

/-- The inner loop of `context_snap_shot/mod.rs` 398-408. -/
def concreteStep (id : CId) : Option (Option CId) → List CDelta →
    Except Fault (Option (Option CId))
  | acc, [] => .ok acc
  | _, .direct (.new _) :: ds => concreteStep id (some (some id)) ds
  | acc, .direct (.remove x) :: ds =>
    if some (some x) = acc then concreteStep id (some none) ds
    else .error (.panic .concreteRemoved)
  | acc, _ :: ds => concreteStep id acc ds

/-- The outer loop of `context_snap_shot/mod.rs` 391-409. -/
def concreteLoop (v : View) (cc : CCT) : Option (Option CId) → List (CId × List CDelta) →
    Except Fault (Option (Option CId))
  | acc, [] => .ok acc
  | acc, (id, ds) :: rest => do
    if (← v.maybeCct id) = some cc then concreteLoop v cc (← concreteStep id acc ds) rest
    else concreteLoop v cc acc rest

/-- `context_snap_shot/mod.rs` 382-415 `concrete_concept_id`. -/
def concreteId (v : View) (cc : CCT) : Except Fault (Option CId) := do
  match ← concreteLoop v cc none (order v.delta.iterConcepts) with
  | some r => return r
  | none => return (byRight v.snap.concrete cc).map .com

/-- `context_snap_shot/mod.rs` 251-293 `get_string_concept`. -/
def stringConcept (v : View) (s : Str) : Except Fault (Option CId) := do
  let stored := (v.snap.stringMap.get? s).map CId.com
  match ← v.delta.getString s with
  | none => return stored
  | some (.update before after) =>
    if stored = some before then return some after else .error (.panic .stringMap)
  | some (.create c) => return some c
  | some (.remove before) =>
    if stored = some before then return none else .error (.panic .stringMap)

/-- The loop of `context_snap_shot/mod.rs` 309-325. -/
def labelleeLoop (v : View) : Nat → List CId → Except Fault (Option CId)
  | 0, _ => .error .diverge
  | _ + 1, [] => .ok none
  | n + 1, c :: cs => do
    let cand ← v.read c
    match cand.composition with
    | some (r, x) =>
      if (← v.cct r) = some .label then return some x
      else labelleeLoop v n (cs ++ cand.reducesFrom)
    | none => labelleeLoop v n (cs ++ cand.reducesFrom)

/-- `context_snap_shot/mod.rs` 295-326 `get_labellee`. -/
def labellee (v : View) (n : Nat) (c : CId) : Except Fault (Option CId) := do
  labelleeLoop v n (← v.read c).reducesFrom

/-- `context_snap_shot/mod.rs` 343-352 `concept_from_label`. -/
def conceptFromLabel (v : View) (n : Nat) (s : Str) : Except Fault (Option CId) := do
  match ← v.stringConcept s with
  | some c => v.labellee n c
  | none => return none

/-- `snap_shot.rs` 308-318 `get_normal_form`. -/
def normalForm (v : View) : Nat → CId → Except Fault (Option CId)
  | 0, _ => .error .diverge
  | n + 1, c => do
    match (← v.read c).reduction with
    | none => return none
    | some r => return some ((← normalForm v n r).getD r)

/-- `snap_shot.rs` 319-331 `get_concept_of_label`. -/
def conceptOfLabel (v : View) (c : CId) : Except Fault (Option CId) := do
  match ← v.concreteId .label with
  | none => return none
  | some l => return (← v.read c).findAsHand l .right

/-- `context_snap_shot/mod.rs` 362-380 `get_label`. -/
def label (v : View) : Nat → CId → Except Fault (Option Str)
  | 0, _ => .error .diverge
  | n + 1, c => do
    match ← v.conceptOfLabel c with
    | none =>
      match (← v.read c).reduction with
      | none => return none
      | some r => label v n r
    | some d =>
      match ← v.normalForm n d with
      | none => return none
      | some x => return (← v.read x).string

/-- `snap_shot.rs` 332-350 `contains`. -/
def contains (v : View) : Nat → CId → CId → Except Fault Bool
  | 0, _, _ => .error .diverge
  | n + 1, outer, inner => do
    match (← v.read outer).composition with
    | none => return false
    | some (l, r) =>
      if l = inner ∨ r = inner then return true
      else if ← contains v n l inner then return true
      else contains v n r inner

/-- `snap_shot.rs` 351-370 `check_reductions`. -/
def checkReductions (v : View) : Nat → CId → CId → Except Fault (Except ZiaError Unit)
  | 0, _, _ => .error .diverge
  | n + 1, outer, inner => do
    match (← v.read inner).reduction with
    | none => return .ok ()
    | some r =>
      if r = outer then return .error .infiniteComposition
      else if ← v.contains n r outer then return .error .infiniteComposition
      else checkReductions v n outer r

mutual

/-- `snap_shot.rs` 252-272 `get_reduction_of_composition`. -/
def reductionOfComposition (v : View) : Nat → CId → Except Fault CId
  | 0, _ => .error .diverge
  | n + 1, c => do
    match (← v.read c).composition with
    | none => return c
    | some (l, r) => do
      let cl ← reductionOrComposition v n l
      let cr ← reductionOrComposition v n r
      return (cl.findAsHand cr.id .left).getD c

/-- `snap_shot.rs` 371-385 `get_reduction_or_reduction_of_composition`. -/
def reductionOrComposition (v : View) : Nat → CId → Except Fault Mixed
  | 0, _ => .error .diverge
  | n + 1, c => do
    match (← v.read c).reduction with
    | some r => v.read r
    | none => v.read (← reductionOfComposition v n c)

end

/-- `snap_shot.rs` 294-307 `righthand_of_without_label_is_empty`. -/
def rightOfWithoutLabelIsEmpty (v : View) (c : CId) : Except Fault Bool := do
  match ← v.concreteId .label with
  | none => return true
  | some l => return ((← v.read c).findAsHand l .right).isNone

/-- `snap_shot.rs` 273-293 `is_disconnected`. -/
def isDisconnected (v : View) (c : CId) : Except Fault Bool := do
  let m ← v.read c
  if m.reduction.isSome then return false
  else if m.composition.isSome then return false
  else if !(m.iterHandOf .left).isEmpty then return false
  else if !(← v.rightOfWithoutLabelIsEmpty c) then return false
  else return m.reducesFrom.isEmpty

/-- `snap_shot.rs` 209-224 `bind_concept_to_syntax`. -/
def bindConceptToSyntax (v : View) (t : Syn) (c : CId) : Except Fault Syn := do
  if (← v.cct c) = some .existsSuchThat then t.bindQuantifierConcept c
  else return t.bindConcept c

/-- `snap_shot.rs` 191-208 `ast_from_symbol`. -/
def astFromSymbol (v : View) (n : Nat) (s : Str) : Except Fault Syn := do
  match ← v.conceptFromLabel n s with
  | none => return Syn.ofStr s
  | some c => v.bindConceptToSyntax (Syn.ofStr s) c

/-- `ast/macro.rs` 129-136 `new_constant_concept`. -/
def newConstant (c : CId) : Syn :=
  .leaf (some (str% "constant " ++ c.display)) (some c) .constant

/-- `ast/macro.rs` 138-144 `new_quantifier_concept`. -/
def newQuantifier (c : CId) : Syn :=
  .leaf (some (str% "quantifier " ++ c.display)) (some c) .quantifier

/-- `ast/macro.rs` 153-159 `new_leaf_variable`. -/
def newVariable (c : CId) : Syn :=
  .leaf (some (str% "variable " ++ c.display)) (some c) .variable

/-- `snap_shot.rs` 225-244 `new_syntax_from_concept_that_has_no_label_or_composition`. -/
def newSyntaxFromConcept (c : Mixed) : Syn :=
  if c.cct = some .existsSuchThat then newQuantifier c.id
  else if c.isAnonymous then newVariable c.id
  else newConstant c.id

end View

end Zia

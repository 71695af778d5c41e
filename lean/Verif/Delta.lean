import Verif.Concept

/-!
# Change sets

Models /repo/zia/src/context_delta.rs. The invalidation of the cache by `update_concept_delta` is
modelled where the cache is (Verif/Cache.lean).
-/

namespace Zia

/-- `context_delta.rs` 716-720 `enum ConceptDelta`. -/
inductive CDelta
  | direct (d : Direct CId)
  | indirect (d : Indirect CId)
  deriving DecidableEq, Repr

/-- `context_delta.rs` 31-45 `struct ContextDelta`: one layer. -/
structure Delta where
  string : AMap Str (VChange CId)
  num : Nat
  order : List (CId × Direct CId)
  concept : AMap CId (List CDelta)
  deriving DecidableEq, Repr

namespace Delta

/-- `context_delta.rs` 63-71 `new`. -/
def empty (num : Nat) : Delta := ⟨[], num, [], []⟩

/-- `context_delta.rs` 351-370 `insert_delta_for_concept` with the sanity check of
`insert_delta_for_existing_concept` (307-327): nothing may follow a removal. The stored vectors are
never empty, so `expect("Vector must include at least one element")` is the `getLast?` of a
non-empty list; an empty list is a panic here too. -/
def insertExisting (d : Delta) (id : CId) (cd : CDelta) : Except Fault Delta :=
  match d.concept.get? id with
  | none => .ok { d with concept := d.concept.insert id [cd] }
  | some v =>
    match v.getLast? with
    | none => .error (.panic .other)
    | some (.direct (.remove _)) => .error (.panic .alreadyRemoved)
    | some _ => .ok { d with concept := d.concept.insert id (v ++ [cd]) }

/-- `context_delta.rs` 329-349 `insert_delta_for_new_concept`: a fresh id; anything but a removal
already recorded for that id is a panic. -/
def insertNew (d : Delta) (nd : NewDelta CId) : Except Fault (Delta × CId) :=
  let id := CId.unc d.num
  let cd := CDelta.direct (.new nd)
  match d.concept.get? id with
  | none => .ok ({ d with num := d.num + 1, concept := d.concept.insert id [cd] }, id)
  | some v =>
    match v.getLast? with
    | some (.direct (.remove _)) =>
      .ok ({ d with num := d.num + 1, concept := d.concept.insert id (v ++ [cd]) }, id)
    | _ => .error (.panic .alreadyExists)

/-- `context_delta.rs` 214-232: recording a new string in the string changes of the layer. -/
def insertString (d : Delta) (s : Str) (id : CId) : Except Fault Delta :=
  match d.string.get? s with
  | none => .ok { d with string := d.string.insert s (.create id) }
  | some (.remove b) => .ok { d with string := d.string.insert s (.update b id) }
  | some _ => .error (.panic .stringExists)

/-- `context_delta.rs` 209-305 `update_new_concept_delta`. -/
def updateNew (d : Delta) (nd : NewDelta CId) : Except Fault (Delta × CId) := do
  let (d, id) ← d.insertNew nd
  match nd with
  | .freeVariable => return (d, id)
  | .boundVariable => return (d, id)
  | .str s => return (← d.insertString s id, id)
  | .composition p => do
    let d ← d.insertExisting p.left (.indirect (.lefthandOf id p.right))
    let d ← d.insertExisting p.right (.indirect (.righthandOf id p.left))
    return (d, id)
  | .left comp r _ => do
    let d ← d.insertExisting r (.indirect (.righthandOf comp id))
    let d ← d.insertExisting comp (.indirect (.composedOf ⟨id, r⟩))
    return (d, id)
  | .right comp l _ => do
    let d ← d.insertExisting l (.indirect (.lefthandOf comp id))
    let d ← d.insertExisting comp (.indirect (.composedOf ⟨l, id⟩))
    return (d, id)
  | .double comp _ => do
    let d ← d.insertExisting comp (.indirect (.composedOf ⟨id, id⟩))
    return (d, id)
  | .reducesTo r => do
    let d ← d.insertExisting r (.indirect (.reducesFrom id))
    return (d, id)

/-- `context_delta.rs` 94-112: back links that a change of composition takes away. -/
def unlinkHands (d : Delta) (p : CompPair CId) : Except Fault Delta := do
  let d ← d.insertExisting p.left (.indirect (.noLongerLefthandOf p.right))
  d.insertExisting p.right (.indirect (.noLongerRighthandOf p.left))

/-- `context_delta.rs` 113-134: back links that a change of composition adds. -/
def linkHands (d : Delta) (comp : CId) (p : CompPair CId) : Except Fault Delta := do
  let d ← d.insertExisting p.left (.indirect (.lefthandOf comp p.right))
  d.insertExisting p.right (.indirect (.righthandOf comp p.left))

/-- `context_delta.rs` 81-181 `update_concept_delta`. -/
def update (d : Delta) (dd : Direct CId) : Except Fault (Delta × CId) := do
  let (d, id) ← match dd with
    | .new nd => d.updateNew nd
    | .compose comp change => do
      let d ← d.insertExisting comp (.direct dd)
      let d ← match change with
        | .remove before => d.unlinkHands before
        | .update before _ => d.unlinkHands before
        | .create _ => pure d
      let d ← match change with
        | .create after => d.linkHands comp after
        | .update _ after => d.linkHands comp after
        | .remove _ => pure d
      pure (d, comp)
    | .reduce u change => do
      let d ← d.insertExisting u (.direct dd)
      let d ← match change with
        | .remove before => d.insertExisting before (.indirect (.noLongerReducesFrom u))
        | .update before _ => d.insertExisting before (.indirect (.noLongerReducesFrom u))
        | .create _ => pure d
      let d ← match change with
        | .create after => d.insertExisting after (.indirect (.reducesFrom u))
        | .update _ after => d.insertExisting after (.indirect (.reducesFrom u))
        | .remove _ => pure d
      pure (d, u)
    | .remove id => do
      let d ← d.insertExisting id (.direct dd)
      pure (d, id)
  return ({ d with order := d.order ++ [(id, dd)] }, id)

end Delta

/-- `context_delta.rs` 408-417 `struct NestedDelta`: layers, innermost first. -/
inductive Nested
  | base (overlay : Delta)
  | over (inner : Nested) (overlay : Delta)
  deriving DecidableEq, Repr

/-- `context_delta.rs` 478-544: how the change of an outer layer combines with an inner one. -/
def combineString (inner outer : Option (VChange CId)) :
    Except Fault (Option (VChange CId)) :=
  match inner, outer with
  | x, none => .ok x
  | none, some x => .ok (some x)
  | some (.remove _), some (.create x) => .ok (some (.create x))
  | some (.create b), some (.remove r) =>
    if b = r then .ok (some (.remove r)) else .error (.panic .stringDelta)
  | some (.update _ b), some (.remove r) =>
    if b = r then .ok (some (.remove r)) else .error (.panic .stringDelta)
  | some (.create c), some (.update b a) =>
    if c = b then .ok (some (.create a)) else .error (.panic .stringDelta)
  | some (.update b m), some (.update m' a) =>
    if m = m' then .ok (some (.update b a)) else .error (.panic .stringDelta)
  | some (.remove _), some (.remove _) => .error (.panic .stringDelta)
  | some (.remove _), some (.update _ _) => .error (.panic .stringDelta)
  | some (.create _), some (.create _) => .error (.panic .stringDelta)
  | some (.update _ _), some (.create _) => .error (.panic .stringDelta)

namespace Nested

/-- Field `overlay_delta`. -/
def overlay : Nested → Delta
  | base o => o
  | over _ o => o

/-- Change the layer on top. -/
def setOverlay : Nested → Delta → Nested
  | base _, o => base o
  | over i _, o => over i o

/-- `context_delta.rs` 419-435 `Default`. -/
def default : Nested := base (Delta.empty 0)

/-- `context_delta.rs` 461-471 `spawn`. -/
def spawn (inner : Nested) : Nested := over inner (Delta.empty inner.overlay.num)

/-- `context_delta.rs` 473-545 `get_string`. -/
def getString : Nested → Str → Except Fault (Option (VChange CId))
  | base o, s => combineString none (o.string.get? s)
  | over i o, s => do combineString (← i.getString s) (o.string.get? s)

/-- `context_delta.rs` 547-575 `iter_string`. -/
def iterString : Nested → Except Fault (List (Str × VChange CId))
  | base o => .ok o.string
  | d@(over i o) => do
    let inner ← i.iterString
    let outer ← o.string.mapM (fun p => do return (p.1, ← d.getString p.1))
    return inner.filter (fun p => (o.string.get? p.1).isNone) ++
      outer.filterMap (fun p => p.2.map (fun v => (p.1, v)))

/-- `context_delta.rs` 577-613 `get_concept`. -/
def getConcept : Nested → CId → Option (List CDelta)
  | base o, id => o.concept.get? id
  | over i o, id =>
    match i.getConcept id, o.concept.get? id with
    | none, none => none
    | some v, none => some v
    | none, some v => some v
    | some v, some w => some (v ++ w)

/-- `context_delta.rs` 615-685 `iter_concepts`. -/
def iterConcepts : Nested → List (CId × List CDelta)
  | base o => o.concept
  | over i o =>
    (i.iterConcepts.filter (fun p => (o.concept.get? p.1).isNone)) ++
      o.concept.map (fun p => (p.1, (i.getConcept p.1).getD [] ++ p.2))

/-- `context_delta.rs` 687-694 `update_concept_delta`. -/
def update (n : Nested) (dd : Direct CId) : Except Fault (Nested × CId) := do
  let (d, id) ← n.overlay.update dd
  return (n.setOverlay d, id)

/-- `context_delta.rs` 696-706 `concepts_to_apply_in_order`. -/
def order : Nested → List (CId × Direct CId)
  | base o => o.order
  | over i o => i.order ++ o.order

/-- `context_delta.rs` 708-714 `insert_delta_for_new_concept`. -/
def insertNew (n : Nested) (nd : NewDelta CId) : Except Fault (Nested × CId) := do
  let (d, id) ← n.overlay.insertNew nd
  return (n.setOverlay d, id)

end Nested

end Zia

import Verif.Delta

/-!
# The committed store

Models /repo/zia/src/context_snap_shot/mod.rs (writing) and concept_id.rs.
-/

namespace Zia

/-- A stored concept. -/
abbrev Con := Concept Nat

/-- `context_snap_shot/mod.rs` 45-55 `struct ContextSnapShot`. The slot map is the list of its values
in insertion order; the key of a value is its position. -/
structure Snap where
  stringMap : AMap Str Nat
  concepts : List Con
  concrete : AMap Nat CCT
  prev : AMap Nat Nat
  deriving DecidableEq, Repr

/-- `SlotMap::get_disjoint_mut` for two keys: `None` if a key is invalid or repeated. -/
def get2 (cs : List Con) (i j : Nat) : Option (Con × Con) :=
  if i = j then none
  else match cs[i]?, cs[j]? with
    | some a, some b => some (a, b)
    | _, _ => none

/-- `SlotMap::get_disjoint_mut` for three keys. -/
def get3 (cs : List Con) (i j k : Nat) : Option (Con × Con × Con) :=
  if i = j ∨ i = k ∨ j = k then none
  else match cs[i]?, cs[j]?, cs[k]? with
    | some a, some b, some c => some (a, b, c)
    | _, _, _ => none

/-- `SlotMap::get_disjoint_mut` for five keys. -/
def get5 (cs : List Con) (i j k l m : Nat) : Option (Con × Con × Con × Con × Con) :=
  if [i, j, k, l, m].Nodup then
    match cs[i]?, cs[j]?, cs[k]?, cs[l]?, cs[m]? with
    | some a, some b, some c, some d, some e => some (a, b, c, d, e)
    | _, _, _, _, _ => none
  else none

/-- `Option::unwrap` on the result of `get_disjoint_mut`. -/
def orDisjoint {α : Type} : Option α → Except Fault α
  | some a => .ok a
  | none => .error (.panic .notDisjoint)

/-- `BiMap::insert`: pairs sharing either side are dropped. -/
def bimapInsert (m : AMap Nat CCT) (i : Nat) (t : CCT) : AMap Nat CCT :=
  m.filter (fun p => p.1 ≠ i ∧ p.2 ≠ t) ++ [(i, t)]

/-- `BiMap::get_by_right`. -/
def byRight (m : AMap Nat CCT) (t : CCT) : Option Nat :=
  (m.find? (fun p => p.2 = t)).map Prod.fst

namespace Snap

/-- `context_snap_shot/mod.rs` 89-97 `convert_to_committed_concept_id`. -/
def convert (s : Snap) : CId → Except Fault Nat
  | .com n => .ok n
  | .unc u =>
    match s.prev.get? u with
    | some n => .ok n
    | none => .error (.panic .notCommittedYet)

/-- `context_snap_shot/mod.rs` 58-66 `commit_new_concept`, and the last steps of
`commit_new_concept_with_dependent_concepts` (68-87): the new concept is appended and the temporary
id is remembered. `cs` is the list of stored concepts with the dependencies already updated. -/
def pushNew (s : Snap) (u : Nat) (cs : List Con) (c : Con) : Snap :=
  { s with concepts := cs ++ [c], prev := s.prev.insert u s.concepts.length }

/-- `context_snap_shot/mod.rs` 181-183, 198-200, 219-221: register a concrete concept. -/
def registerConcrete (s : Snap) (i : Nat) : Option CCT → Snap
  | some t => { s with concrete := bimapInsert s.concrete i t }
  | none => s

/-- `context_snap_shot/mod.rs` 107-233 `apply_new_concept`. The Rust code first inserts a placeholder
to learn the new key and then borrows the dependencies; a fresh key cannot be among them, so the
model looks the dependencies up before appending. -/
def applyNew (s : Snap) (u : Nat) (d : NewDelta CId) : Except Fault Snap := do
  let id := s.concepts.length
  match d with
  | .freeVariable => return s.pushNew u s.concepts (Concept.freeVar id)
  | .boundVariable => return s.pushNew u s.concepts (Concept.boundVar id)
  | .str str =>
    let s' := s.pushNew u s.concepts (Concept.mk' id (.str str))
    return { s' with stringMap := s'.stringMap.insert str id }
  | .composition p => do
    let l ← s.convert p.left
    let r ← s.convert p.right
    let (cl, cr) ← orDisjoint (get2 s.concepts l r)
    let (mc, cl', cr') ← compositionOf id cl cr
    return s.pushNew u ((s.concepts.set l cl').set r cr') (Concept.mk' id (.abst mc none))
  | .left comp r t => do
    let r ← s.convert r
    let k ← s.convert comp
    let (cr, ck) ← orDisjoint (get2 s.concepts r k)
    let (c, cr', ck') ← lefthandOf id cr ck t
    return (s.pushNew u ((s.concepts.set r cr').set k ck') c).registerConcrete id t
  | .right comp l t => do
    let l ← s.convert l
    let k ← s.convert comp
    let (cl, ck) ← orDisjoint (get2 s.concepts l k)
    let (c, cl', ck') ← righthandOf id cl ck t
    return (s.pushNew u ((s.concepts.set l cl').set k ck') c).registerConcrete id t
  | .double comp t => do
    let k ← s.convert comp
    let ck ← orDisjoint s.concepts[k]?
    let (c, ck') ← doubleOf id ck t
    return (s.pushNew u (s.concepts.set k ck') c).registerConcrete id t
  | .reducesTo r => do
    let r ← s.convert r
    let cr ← orDisjoint s.concepts[r]?
    let (c, cr') := reductionTo id cr
    return s.pushNew u (s.concepts.set r cr') c

/-- `context_snap_shot/mod.rs` 454-515: changing the composition of a stored concept. -/
def applyCompose (s : Snap) (comp : CId) (change : VChange (CompPair CId)) :
    Except Fault Snap := do
  match change with
  | .create p => do
    let k ← s.convert comp
    let l ← s.convert p.left
    let r ← s.convert p.right
    let (ck, cl, cr) ← orDisjoint (get3 s.concepts k l r)
    let (ck', cl', cr') ← ck.composeCreate cl cr
    return { s with concepts := ((s.concepts.set k ck').set l cl').set r cr' }
  | .update b a => do
    let k ← s.convert comp
    let bl ← s.convert b.left
    let br ← s.convert b.right
    let al ← s.convert a.left
    let ar ← s.convert a.right
    let (ck, cbl, cbr, cal, car) ← orDisjoint (get5 s.concepts k bl br al ar)
    let (cbl', cbr') := ck.forgetHands cbl cbr
    let (ck', cal', car') ← ck.composeCreate cal car
    return { s with concepts :=
      ((((s.concepts.set k ck').set bl cbl').set br cbr').set al cal').set ar car' }
  | .remove p => do
    let k ← s.convert comp
    let l ← s.convert p.left
    let r ← s.convert p.right
    let (ck, cl, cr) ← orDisjoint (get3 s.concepts k l r)
    let (ck', cl', cr') ← ck.composeRemove cl cr
    return { s with concepts := ((s.concepts.set k ck').set l cl').set r cr' }

/-- `context_snap_shot/mod.rs` 517-550: changing the reduction of a stored concept. -/
def applyReduce (s : Snap) (u : CId) (change : VChange CId) : Except Fault Snap := do
  match change with
  | .create r => do
    let k ← s.convert u
    let r ← s.convert r
    let (ck, cr) ← orDisjoint (get2 s.concepts k r)
    let (ck', cr') ← ck.makeReduceTo cr
    return { s with concepts := (s.concepts.set k ck').set r cr' }
  | .update b a => do
    let k ← s.convert u
    let b ← s.convert b
    let a ← s.convert a
    let (ck, cb, ca) ← orDisjoint (get3 s.concepts k b a)
    let (ck', cb') ← ck.makeNoLongerReduceTo cb
    let (ck'', ca') ← ck'.makeReduceTo ca
    return { s with concepts := ((s.concepts.set k ck'').set b cb').set a ca' }
  | .remove b => do
    let k ← s.convert u
    let b ← s.convert b
    let (ck, cb) ← orDisjoint (get2 s.concepts k b)
    let (ck', cb') ← ck.makeNoLongerReduceTo cb
    return { s with concepts := (s.concepts.set k ck').set b cb' }

/-- `context_snap_shot/mod.rs` 437-553: one entry of the ordered list of changes. The assertions
441 (`try_into().unwrap()`), 448 and 518 (`debug_assert_eq!`) are panics. -/
def applyOne (s : Snap) (p : CId × Direct CId) : Except Fault Snap :=
  match p.2 with
  | .new d =>
    match p.1 with
    | .unc u => s.applyNew u d
    | .com _ => .error (.panic .newCommitted)
  | .compose comp change =>
    if p.1 = comp then s.applyCompose comp change else .error (.panic .other)
  | .reduce u change =>
    if p.1 = u then s.applyReduce u change else .error (.panic .other)
  | .remove _ => .error (.panic .removeTodo)

/-- The loop of `context_snap_shot/mod.rs` 437. -/
def applyAll (s : Snap) : List (CId × Direct CId) → Except Fault Snap
  | [] => .ok s
  | p :: ps => do applyAll (← s.applyOne p) ps

/-- `context_snap_shot/mod.rs` 556-574: one change of the string table. -/
def applyString (s : Snap) (p : Str × VChange CId) : Except Fault Snap := do
  match p.2 with
  | .update before after => do
    let a ← s.convert after
    let b ← s.convert before
    if s.stringMap.get? p.1 = some b then
      return { s with stringMap := s.stringMap.insert p.1 a }
    else .error (.panic .stringMap)
  | .create id => do
    let i ← s.convert id
    return { s with stringMap := s.stringMap.insert p.1 i }
  | .remove before => do
    let b ← s.convert before
    if s.stringMap.get? p.1 = some b then
      return { s with stringMap := s.stringMap.erase p.1 }
    else .error (.panic .stringMap)

/-- The loop of `context_snap_shot/mod.rs` 555. -/
def applyStrings (s : Snap) : List (Str × VChange CId) → Except Fault Snap
  | [] => .ok s
  | p :: ps => do applyStrings (← s.applyString p) ps

/-- `context_snap_shot/mod.rs` 427-577 `apply`. -/
def apply (s : Snap) (d : Nested) : Except Fault Snap := do
  if s.prev ≠ [] then .error (.panic .other)
  else
    let s ← s.applyAll d.order
    let s ← s.applyStrings (← d.iterString)
    return { s with prev := [] }

/-- `#[derive(Default)]` 45: the store of a context before `setup`. -/
def empty : Snap := ⟨[], [], [], []⟩

end Snap

end Zia

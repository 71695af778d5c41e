import Verif.AMap
import Verif.Basic

/-!
# Stored concepts

Models /repo/zia/src/concepts/{mod,trait}.rs. Where the Rust code takes several `&mut` concepts the
model takes them as values and returns the new values.
-/

namespace Zia

/-- `context_delta.rs` 837-847 `enum ValueAndTypeChange`, used as `ValueChange<T>`. -/
inductive VChange (α : Type)
  | create (after : α)
  | update (before after : α)
  | remove (before : α)
  deriving DecidableEq, Repr

/-- `context_delta.rs` 849-853 `struct Composition`. -/
structure CompPair (Id : Type) where
  left : Id
  right : Id
  deriving DecidableEq, Repr

/-- `context_delta.rs` 780-789 `enum IndirectConceptDelta`. -/
inductive Indirect (Id : Type)
  | lefthandOf (composition righthand : Id)
  | righthandOf (composition lefthand : Id)
  | noLongerLefthandOf (righthand : Id)
  | noLongerRighthandOf (lefthand : Id)
  | reducesFrom (unreduced : Id)
  | noLongerReducesFrom (unreduced : Id)
  | composedOf (c : CompPair Id)
  deriving DecidableEq, Repr

/-- `context_delta.rs` 811-835 `enum NewConceptDelta`. -/
inductive NewDelta (Id : Type)
  | str (s : Str)
  | composition (c : CompPair Id)
  | freeVariable
  | boundVariable
  | left (composition right : Id) (cct : Option CCT)
  | right (composition left : Id) (cct : Option CCT)
  | double (composition : Id) (cct : Option CCT)
  | reducesTo (reduction : Id)
  deriving DecidableEq, Repr

/-- `context_delta.rs` 791-803 `enum DirectConceptDelta`. -/
inductive Direct (Id : Type)
  | new (d : NewDelta Id)
  | compose (composition : Id) (change : VChange (CompPair Id))
  | reduce (unreduced : Id) (change : VChange Id)
  | remove (id : Id)
  deriving DecidableEq, Repr

/-- `concepts/mod.rs` 916-921 `enum LeafCharacter`. -/
inductive LeafChar
  | constant | freeVariable | boundVariable
  deriving DecidableEq, Repr

/-- `concepts/mod.rs` 909-914 `enum MaybeComposition` with `CompositePart` (897-907). -/
inductive MComp (Id : Type)
  | comp (left right : Id) (free binding : List Id)
  | leaf (l : LeafChar)
  deriving DecidableEq, Repr

/-- `concepts/mod.rs` 711-720 `enum SpecificPart` with `AbstractPart` (889-895). -/
inductive Specific (Id : Type)
  | concrete (cct : CCT)
  | abst (composition : MComp Id) (reducesTo : Option Id)
  | str (s : Str)
  deriving DecidableEq, Repr

/-- `concepts/mod.rs` 36-42 `struct Concept` with `ConcreteConcept` (1059-1067). -/
structure Concept (Id : Type) where
  id : Id
  leftOf : AMap Id Id
  rightOf : AMap Id Id
  redFrom : List Id
  spec : Specific Id
  deriving DecidableEq, Repr

/-- `concepts/mod.rs` 722-726 `enum Hand`. -/
inductive Hand
  | left | right
  deriving DecidableEq, Repr

section
variable {Id : Type} [DecidableEq Id]

/-- `concepts/mod.rs` 1146-1150 and 1164-1171 `insert_into`: at most one composition per pair,
`debug_assert_eq!`. -/
def insertInto (m : AMap Id Id) (k v : Id) : Except Fault (AMap Id Id) :=
  match m.get? k with
  | some prev => if v = prev then .ok (m.insert k v) else .error (.panic .duplicateComposition)
  | none => .ok (m.insert k v)

namespace Concept

omit [DecidableEq Id] in
/-- `concepts/mod.rs` 872-880 `From<(T, Id)>`: a concept nothing refers to. -/
def mk' (id : Id) (spec : Specific Id) : Concept Id := ⟨id, [], [], [], spec⟩

/-- `concepts/mod.rs` 363-374 `make_free_variable`. -/
def freeVar (id : Id) : Concept Id := mk' id (.abst (.leaf .freeVariable) none)

/-- `concepts/mod.rs` 376-387 `make_bound_variable`. -/
def boundVar (id : Id) : Concept Id := mk' id (.abst (.leaf .boundVariable) none)

/-- `concepts/mod.rs` 457-463 `maybe_composition`; 924-938 drop the variable sets. -/
def maybeComposition (c : Concept Id) : Option (MComp Id) :=
  match c.spec with
  | .abst (.comp l r _ _) _ => some (.comp l r [] [])
  | .abst (.leaf l) _ => some (.leaf l)
  | _ => none

/-- `concepts/mod.rs` 610-615 `get_reduction`. -/
def reduction (c : Concept Id) : Option Id :=
  match c.spec with
  | .abst _ r => r
  | _ => none

/-- `concepts/mod.rs` 618-634 `get_composition`. -/
def composition (c : Concept Id) : Option (Id × Id) :=
  match c.spec with
  | .abst (.comp l r _ _) _ => some (l, r)
  | _ => none

/-- `concepts/mod.rs` 602-607 `get_string`. -/
def string (c : Concept Id) : Option Str :=
  match c.spec with
  | .str s => some s
  | _ => none

/-- `concepts/mod.rs` 690-695 `get_concrete_concept_type`. -/
def cct (c : Concept Id) : Option CCT :=
  match c.spec with
  | .concrete t => some t
  | _ => none

/-- `concepts/mod.rs` 527-546 `free_variable`. -/
def isFree (c : Concept Id) : Bool :=
  match c.spec with
  | .abst (.comp _ _ f _) _ => !f.isEmpty
  | .abst (.leaf .freeVariable) _ => true
  | _ => false

/-- `concepts/mod.rs` 550-569 `bounded_variable`. -/
def isBound (c : Concept Id) : Bool :=
  match c.spec with
  | .abst (.comp _ _ _ b) _ => !b.isEmpty
  | .abst (.leaf .boundVariable) _ => true
  | _ => false

/-- `concepts/mod.rs` 573-595 `anonymous_variable`. -/
def isAnonymous (c : Concept Id) : Bool :=
  match c.spec with
  | .abst (.comp _ _ f b) _ => !b.isEmpty || !f.isEmpty
  | .abst (.leaf .boundVariable) _ => true
  | .abst (.leaf .freeVariable) _ => true
  | _ => false

/-- `concepts/mod.rs` 389-394 `get_hand_of`, 697-704 `iter_hand_of`. -/
def handOf (c : Concept Id) : Hand → AMap Id Id
  | .left => c.leftOf
  | .right => c.rightOf

/-- `concepts/mod.rs` 677-688 `find_as_hand_in_composition_with`. -/
def findAsHand (c : Concept Id) (other : Id) (h : Hand) : Option Id := (c.handOf h).get? other

/-- `concepts/mod.rs` 139-146 `make_reduce_to`: (self, other). -/
def makeReduceTo (c other : Concept Id) : Except Fault (Concept Id × Concept Id) :=
  match c.spec with
  | .abst mc _ =>
    .ok ({ c with spec := .abst mc (some other.id) },
         { other with redFrom := setInsert other.redFrom c.id })
  | _ => .error (.panic .reduceConcrete)

/-- `concepts/mod.rs` 148-158 `make_no_longer_reduce_to`: (self, before). -/
def makeNoLongerReduceTo (c before : Concept Id) : Except Fault (Concept Id × Concept Id) :=
  match c.spec with
  | .abst mc _ =>
    .ok ({ c with spec := .abst mc none },
         { before with redFrom := before.redFrom.filter (· ≠ c.id) })
  | _ => .error (.panic .reduceConcrete)

end Concept

/-- The variable sets of `concepts/mod.rs` 978-1016, free then binding. A variable on the left adds
the id of the *right* concept (1006, 1009). -/
def compositionVars (left right : Concept Id) : List Id × List Id :=
  let (free, binding) : List Id × List Id :=
    match right.spec with
    | .abst (.comp _ _ f b) _ => (setExtend [] f, setExtend [] b)
    | .abst (.leaf .freeVariable) _ => ([right.id], [])
    | .abst (.leaf .boundVariable) _ => ([], [right.id])
    | _ => ([], [])
  match left.spec with
  | .abst (.comp _ _ f b) _ =>
    (setExtend (free.filter (fun v => !b.contains v)) f,
     setExtend (binding.filter (fun v => !f.contains v)) b)
  | .abst (.leaf .freeVariable) _ => (setInsert free right.id, binding)
  | .abst (.leaf .boundVariable) _ => (free, setInsert binding right.id)
  | _ => (free, binding)

/-- `concepts/mod.rs` 967-1024 `MaybeComposition::composition_of`: (composition, left, right). -/
def compositionOf (comp : Id) (left right : Concept Id) :
    Except Fault (MComp Id × Concept Id × Concept Id) := do
  let lo ← insertInto left.leftOf right.id comp
  let ro ← insertInto right.rightOf left.id comp
  let (f, b) := compositionVars left right
  return (.comp left.id right.id f b, { left with leftOf := lo }, { right with rightOf := ro })

/-- The new concept of `concepts/mod.rs` 219-230, 284-295, 333-344: concrete, or an abstract
constant leaf. -/
def leafOrConcrete : Option CCT → Specific Id
  | some t => .concrete t
  | none => .abst (.leaf .constant) none

/-- `concepts/mod.rs` 181-247 `lefthand_of` with the `unwrap` of its only caller
(`context_snap_shot/mod.rs` 167): (new concept, right, composition). -/
def lefthandOf (id : Id) (right comp : Concept Id) (cct : Option CCT) :
    Except Fault (Concept Id × Concept Id × Concept Id) :=
  match comp.spec with
  | .abst (.leaf .constant) red => do
    let ro ← insertInto right.rightOf id comp.id
    let (f, b) : List Id × List Id :=
      if right.cct = some .existsSuchThat then ([], [id])
      else match right.spec with
        | .abst (.comp _ _ f b) _ => (f, b)
        | _ => ([], [])
    return (⟨id, [(right.id, comp.id)], [], [], leafOrConcrete cct⟩,
      { right with rightOf := ro },
      { comp with spec := .abst (.comp id right.id f b) red })
  | _ => .error (.panic .handUnwrap)

/-- `concepts/mod.rs` 249-312 `righthand_of` with the `unwrap` of its only caller
(`context_snap_shot/mod.rs` 214): (new concept, left, composition). -/
def righthandOf (id : Id) (left comp : Concept Id) (cct : Option CCT) :
    Except Fault (Concept Id × Concept Id × Concept Id) :=
  match comp.spec with
  | .abst (.leaf .constant) red => do
    let lo ← insertInto left.leftOf id comp.id
    let (f, b) : List Id × List Id :=
      if cct = some .existsSuchThat then ([], [left.id])
      else match left.spec with
        | .abst (.comp _ _ f b) _ => (f, b)
        | _ => ([], [])
    return (⟨id, [], [(left.id, comp.id)], [], leafOrConcrete cct⟩,
      { left with leftOf := lo },
      { comp with spec := .abst (.comp left.id id f b) red })
  | _ => .error (.panic .handUnwrap)

/-- `concepts/mod.rs` 314-361 `double`: (new concept, composition). -/
def doubleOf (id : Id) (comp : Concept Id) (cct : Option CCT) :
    Except Fault (Concept Id × Concept Id) :=
  match comp.spec with
  | .abst _ red =>
    .ok (⟨id, [(id, comp.id)], [(id, comp.id)], [], leafOrConcrete cct⟩,
      { comp with spec := .abst (.comp id id [] []) red })
  | _ => .error (.panic .composeConcrete)

/-- `concepts/mod.rs` 168-179 `reduction_to`: (new concept, reduction). -/
def reductionTo (id : Id) (red : Concept Id) : Concept Id × Concept Id :=
  (Concept.mk' id (.abst (.leaf .constant) (some red.id)),
   { red with redFrom := setInsert red.redFrom id })

namespace Concept

/-- `concepts/mod.rs` 636-675 `change_composition`, case `Create`, with the `unwrap` of its caller:
(self, left, right). -/
def composeCreate (c left right : Concept Id) :
    Except Fault (Concept Id × Concept Id × Concept Id) :=
  match c.spec with
  | .abst _ red => do
    let (mc, l, r) ← compositionOf c.id left right
    return ({ c with spec := .abst mc red }, l, r)
  | _ => .error (.panic .handUnwrap)

/-- `concepts/mod.rs` 653-656, 663-666: forgetting an old composition. The maps are keyed by the
other hand but the code removes the key of the composition itself: (left, right). -/
def forgetHands (c left right : Concept Id) : Concept Id × Concept Id :=
  ({ left with leftOf := left.leftOf.erase c.id },
   { right with rightOf := right.rightOf.erase c.id })

/-- `concepts/mod.rs` 668-670 `change_composition`, case `Remove`: (self, left, right). -/
def composeRemove (c left right : Concept Id) :
    Except Fault (Concept Id × Concept Id × Concept Id) :=
  match c.spec with
  | .abst _ red =>
    let (l, r) := c.forgetHands left right
    .ok ({ c with spec := .abst (.leaf .constant) red }, l, r)
  | _ => .error (.panic .handUnwrap)

/-- `concepts/mod.rs` 465-484 `change_reduction`; nothing happens to a concept that is not
abstract. -/
def changeReduction (c : Concept Id) (change : VChange Id) : Except Fault (Concept Id) :=
  match c.spec with
  | .abst mc old =>
    match change with
    | .create r => .ok { c with spec := .abst mc (some r) }
    | .update _ r => .ok { c with spec := .abst mc (some r) }
    | .remove r =>
      if some r = old then .ok { c with spec := .abst mc none }
      else .error (.panic .removeWrongReduction)
  | _ => .ok c

/-- `concepts/mod.rs` 486-523 `apply_indirect`. -/
def applyIndirect (c : Concept Id) : Indirect Id → Except Fault (Concept Id)
  | .composedOf p =>
    match c.spec with
    | .abst _ red => .ok { c with spec := .abst (.comp p.left p.right [] []) red }
    | _ => .error (.panic .composeConcrete)
  | .lefthandOf comp rh => do return { c with leftOf := (← insertInto c.leftOf rh comp) }
  | .righthandOf comp lh => do return { c with rightOf := (← insertInto c.rightOf lh comp) }
  | .reducesFrom u => .ok { c with redFrom := setInsert c.redFrom u }
  | .noLongerLefthandOf rh => .ok { c with leftOf := c.leftOf.erase rh }
  | .noLongerRighthandOf lh => .ok { c with rightOf := c.rightOf.erase lh }
  | .noLongerReducesFrom u => .ok { c with redFrom := c.redFrom.filter (· ≠ u) }

/-- `concepts/mod.rs` 752-810 `From<&NewConceptDelta> for SpecificPart` and 1079-1134
`From<&NewDirectConceptDelta> for ConcreteConcept`: the pending form of a new concept. -/
def ofNew (id : Id) : NewDelta Id → Concept Id
  | .boundVariable => mk' id (.abst (.leaf .boundVariable) none)
  | .freeVariable => mk' id (.abst (.leaf .freeVariable) none)
  | .composition p => mk' id (.abst (.comp p.left p.right [] []) none)
  | .left comp r t => ⟨id, [(r, comp)], [], [], leafOrConcrete t⟩
  | .right comp l t => ⟨id, [], [(l, comp)], [], leafOrConcrete t⟩
  | .double comp t => ⟨id, [(id, comp)], [(id, comp)], [], leafOrConcrete t⟩
  | .str s => mk' id (.str s)
  | .reducesTo r => mk' id (.abst (.leaf .constant) (some r))

end Concept

end

/-- `concepts/mod.rs` 940-965 `apply_composition_change`. -/
def MComp.applyChange {Id : Type} (m : MComp Id) (u : Option (Id × Id)) :
    Except Fault (MComp Id) :=
  match m, u with
  | .comp _ _ _ _, none => .ok (.leaf .constant)
  | .leaf .constant, some (l, r) => .ok (.comp l r [] [])
  | .leaf _, some _ => .error (.panic .variableComposition)
  | .comp _ _ f b, some (l, r) => .ok (.comp l r f b)
  | .leaf l, none => .ok (.leaf l)

/-- `concepts/trait.rs` 31-71 `compose_delta`, as a function of `id()` and `maybe_composition()`. -/
def composeDelta {Id : Type} (id : Id) (mc : Option (MComp Id)) (left right : Id) :
    Except Fault (Except ZiaError (Direct Id)) :=
  match mc with
  | none => .ok (.error .settingCompositionOfConcrete)
  | some (.comp l r _ _) => .ok (.ok (.compose id (.update ⟨l, r⟩ ⟨left, right⟩)))
  | some (.leaf .constant) => .ok (.ok (.compose id (.create ⟨left, right⟩)))
  | some (.leaf _) => .error (.panic .composeVariable)

end Zia

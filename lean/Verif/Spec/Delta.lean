import Verif.Delta
import Mathlib.Data.List.Chain

/-!
# Specifications about change sets
-/

namespace Zia.Spec

/-- The layers of a nested change set, the innermost first. -/
def layers : Nested → List Delta
  | .base o => [o]
  | .over i o => layers i ++ [o]

/-- The changes recorded about a concept. -/
def changes (n : Nested) (a : CId) : List CDelta := (n.getConcept a).getD []

/-- The ids that a change refers to. -/
def mentions : Direct CId → List CId
  | .new .freeVariable => []
  | .new .boundVariable => []
  | .new (.str _) => []
  | .new (.composition p) => [p.left, p.right]
  | .new (.left comp r _) => [comp, r]
  | .new (.right comp l _) => [comp, l]
  | .new (.double comp _) => [comp]
  | .new (.reducesTo r) => [r]
  | .compose c (.create p) => [c, p.left, p.right]
  | .compose c (.update b a) => [c, b.left, b.right, a.left, a.right]
  | .compose c (.remove b) => [c, b.left, b.right]
  | .reduce c (.create r) => [c, r]
  | .reduce c (.update b r) => [c, b, r]
  | .reduce c (.remove b) => [c, b]
  | .remove c => [c]

/-- A change refers to stored concepts and to concepts that the change set has made. -/
def Refers (n : Nested) (dd : Direct CId) : Prop :=
  ∀ u, .unc u ∈ mentions dd → changes n (.unc u) ≠ []

/-- The change sets that insertions and spawns lead to, starting from the empty one. -/
inductive Grown : Nested → Prop
  | start : Grown Nested.default
  | spawn {n : Nested} (h : Grown n) : Grown n.spawn
  | update {n n' : Nested} {dd : Direct CId} {id : CId} (h : Grown n) (hr : Refers n dd)
      (hu : n.update dd = .ok (n', id)) : Grown n'
  | insert {n n' : Nested} {nd : NewDelta CId} {id : CId} (h : Grown n)
      (hu : n.insertNew nd = .ok (n', id)) : Grown n'

/-- The id of a string before and after a change; `none` if it has none. -/
def idBefore : VChange CId → Option CId
  | .create _ => none
  | .update b _ => some b
  | .remove b => some b

@[inherit_doc idBefore]
def idAfter : VChange CId → Option CId
  | .create a => some a
  | .update _ a => some a
  | .remove _ => none

/-- The changes of a string in the layers, innermost first. -/
def stringChanges (n : Nested) (s : Str) : List (VChange CId) :=
  (layers n).filterMap (fun o => o.string.get? s)

/-- Each change starts where the one before it ends. -/
def Chained (cs : List (VChange CId)) : Prop :=
  cs.IsChain (fun a b => idAfter a = idBefore b)

/-- The changes of a concept in some layers, in order; `none` if no layer has any. -/
def conceptThrough (ls : List Delta) (a : CId) : Option (List CDelta) :=
  match ls.filterMap (fun o => o.concept.get? a) with
  | [] => none
  | vs => some vs.flatten

end Zia.Spec

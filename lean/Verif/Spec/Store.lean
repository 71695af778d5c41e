import Verif.SnapShot
import Verif.Reader
import Mathlib.Logic.Relation

/-!
# Specifications about the committed store

Relations that a user of the store can observe through the getters of a concept.
-/

namespace Zia.Spec

/-- Concept `i` has the reduction `j`. -/
def ReducesTo (s : Snap) (i j : Nat) : Prop :=
  ∃ c, s.concepts[i]? = some c ∧ c.reduction = some j

/-- Concept `j` lists `i` among the concepts that reduce to it. -/
def ListsReduced (s : Snap) (j i : Nat) : Prop :=
  ∃ c, s.concepts[j]? = some c ∧ i ∈ c.redFrom

/-- Concept `c` is composed of `l` and `r`. -/
def ComposedOf (s : Snap) (c l r : Nat) : Prop :=
  ∃ k, s.concepts[c]? = some k ∧ k.composition = some (l, r)

/-- Concept `l` records `c` as its composition with `r` on the right. -/
def LeftIn (s : Snap) (l r c : Nat) : Prop :=
  ∃ k, s.concepts[l]? = some k ∧ k.findAsHand r .left = some c

/-- Concept `r` records `c` as its composition with `l` on the left. -/
def RightIn (s : Snap) (r l c : Nat) : Prop :=
  ∃ k, s.concepts[r]? = some k ∧ k.findAsHand l .right = some c

/-- `x` is one of the two parts of `c`. -/
def PartOf (s : Snap) (x c : Nat) : Prop := ∃ l r, ComposedOf s c l r ∧ (x = l ∨ x = r)

/-- No concept is a part of a part of ... itself. -/
def PartsAcyclic (s : Snap) : Prop := ∀ c, ¬ Relation.TransGen (PartOf s) c c

/-- Following reductions never comes back. -/
def ReductionsAcyclic (s : Snap) : Prop := ∀ c, ¬ Relation.TransGen (ReducesTo s) c c

/-- Every id stored in a concept. -/
def refs (c : Con) : List Nat :=
  (match c.spec with
    | .concrete _ => []
    | .str _ => []
    | .abst (.comp l r f b) red => l :: r :: (f ++ b ++ red.toList)
    | .abst (.leaf _) red => red.toList) ++
  c.leftOf.flatMap (fun p => [p.1, p.2]) ++ c.rightOf.flatMap (fun p => [p.1, p.2]) ++ c.redFrom

/-- References never dangle: the concept stored under an id carries that id, and every id stored
anywhere names a stored concept. -/
structure RefsValid (s : Snap) : Prop where
  ids : ∀ (i : Nat) (c : Con), s.concepts[i]? = some c → c.id = i
  concepts : ∀ (i : Nat) (c : Con), s.concepts[i]? = some c → ∀ x ∈ refs c, x < s.concepts.length
  strings : ∀ (t : Str) (i : Nat), (t, i) ∈ s.stringMap → i < s.concepts.length
  concrete : ∀ (i : Nat) (t : CCT), (i, t) ∈ s.concrete → i < s.concepts.length

/-- The concept that an id stands for has no reduction. -/
def NoReduction (s : Snap) (a : CId) : Prop :=
  ∀ i c, s.convert a = .ok i → s.concepts[i]? = some c → c.reduction = none

/-- A change gives a reduction only to a concept that has none. -/
def ReducesFresh (s : Snap) (p : CId × Direct CId) : Prop :=
  match p.2 with
  | .reduce c (.create _) => NoReduction s c
  | .reduce c (.update _ _) => NoReduction s c
  | _ => True

/-- A change neither replaces nor takes away the definition of a concept. -/
def KeepsDefinitions (_ : Snap) (p : CId × Direct CId) : Prop :=
  match p.2 with
  | .compose _ (.update _ _) => False
  | .compose _ (.remove _) => False
  | _ => True

/-- Where a new context stores its built-in concepts. -/
def builtin : CCT → Nat
  | .label => 2
  | .define => 5
  | .reduction => 8
  | .letCmd => 11
  | .tru => 14
  | .fls => 17
  | .associativity => 20
  | .right => 23
  | .left => 26
  | .greaterThan => 29
  | .implication => 32
  | .existsSuchThat => 35
  | .precedes => 38
  | .forget => 41

/-- No two stored concepts are composed of the same ordered pair. -/
def OnePerPair (s : Snap) : Prop :=
  ∀ c c' l r, ComposedOf s c l r → ComposedOf s c' l r → c = c'

/-- Reading the concept `a` of pending changes gives what the stored concept `k` has, when the ids of the
pending changes stand for stored concepts as `f` says. -/
structure ReadsAs (f : CId → Option Nat) (m : Mixed) (k : Con) : Prop where
  reduction : m.reduction.map f = k.reduction.map some
  composition : m.composition.map (fun p => (f p.1, f p.2)) =
    k.composition.map (fun p => (some p.1, some p.2))
  string : m.string = k.string
  cct : m.cct = k.cct

/-- An id stands for the stored concept `k` at position `i`; new ids stand for concepts appended
earlier in the same commit. -/
def StoredAs (s : Snap) (a : CId) (i : Nat) (k : Con) : Prop :=
  (match a with | .com n => n = i | .unc u => s.prev.get? u = some i) ∧ s.concepts[i]? = some k

/-- A concept that may have parts and a reduction. -/
def Abstract (k : Con) : Prop := k.cct = none ∧ k.string = none

/-- No composition other than `c` is recorded for two concepts. -/
def FreePair (l r : Con) (c : Nat) : Prop :=
  (∀ c', l.findAsHand r.id .left = some c' → c' = c) ∧
  (∀ c', r.findAsHand l.id .right = some c' → c' = c)

/-- A change that can be made to a store. -/
def CanApply (s : Snap) (p : CId × Direct CId) : Prop :=
  match p.2 with
  | .new nd => (∃ u, p.1 = .unc u) ∧
    match nd with
    | .freeVariable => True
    | .boundVariable => True
    | .str _ => True
    | .composition ⟨l, r⟩ => ∃ li ri kl kr, StoredAs s l li kl ∧ StoredAs s r ri kr ∧ li ≠ ri ∧
        FreePair kl kr s.concepts.length
    | .left c r _ => ∃ ri ci kr kc, StoredAs s r ri kr ∧ StoredAs s c ci kc ∧ ri ≠ ci ∧
        kc.maybeComposition = some (.leaf .constant)
    | .right c l _ => ∃ li ci kl kc, StoredAs s l li kl ∧ StoredAs s c ci kc ∧ li ≠ ci ∧
        kc.maybeComposition = some (.leaf .constant)
    | .double c _ => ∃ ci kc, StoredAs s c ci kc ∧ Abstract kc
    | .reducesTo r => ∃ ri kr, StoredAs s r ri kr
  | .compose c ch => p.1 = c ∧
    match ch with
    | .create ⟨l, r⟩ => ∃ ci li ri kc kl kr, StoredAs s c ci kc ∧ StoredAs s l li kl ∧
        StoredAs s r ri kr ∧ [ci, li, ri].Nodup ∧ Abstract kc ∧ FreePair kl kr ci
    | .update ⟨bl, br⟩ ⟨al, ar⟩ => ∃ ci bli bri ali ari kc kbl kbr kal kar, StoredAs s c ci kc ∧
        StoredAs s bl bli kbl ∧ StoredAs s br bri kbr ∧ StoredAs s al ali kal ∧
        StoredAs s ar ari kar ∧ [ci, bli, bri, ali, ari].Nodup ∧ Abstract kc ∧ FreePair kal kar ci
    | .remove ⟨l, r⟩ => ∃ ci li ri kc kl kr, StoredAs s c ci kc ∧ StoredAs s l li kl ∧
        StoredAs s r ri kr ∧ [ci, li, ri].Nodup ∧ Abstract kc
  | .reduce c ch => p.1 = c ∧
    match ch with
    | .create r => ∃ ci ri kc kr, StoredAs s c ci kc ∧ StoredAs s r ri kr ∧ ci ≠ ri ∧ Abstract kc
    | .update b r => ∃ ci bi ri kc kb kr, StoredAs s c ci kc ∧ StoredAs s b bi kb ∧
        StoredAs s r ri kr ∧ [ci, bi, ri].Nodup ∧ Abstract kc
    | .remove b => ∃ ci bi kc kb, StoredAs s c ci kc ∧ StoredAs s b bi kb ∧ ci ≠ bi ∧ Abstract kc
  | .remove _ => False

/-- A change that introduces a symbol or a variable. -/
def Introduces (p : CId × Direct CId) : Prop :=
  match p.2 with
  | .new (.str _) => True
  | .new .freeVariable => True
  | .new .boundVariable => True
  | .new (.reducesTo _) => True
  | .new (.right _ _ _) => True
  | _ => False

end Zia.Spec

import Verif.Spec.Teach
import Verif.Spec.Store

/-!
# Specifications about what an accepted command makes so
-/

namespace Zia.Spec

open CM

/-- The command `s` is read as the tree `t`, in the pending changes that `c1` holds. -/
def ReadAs [HashOrder] (n : Nat) (c : Ctx) (s : Str) (t : Syn) (c1 : Ctx) : Prop :=
  (do let t ← Parser.astFromExpression n s
      let t ← searching (fun e => (search n).expand e t)
      tryCatch (Parser.createVariables t) (fun _ => fault (.panic .executeUnwrap)) : CM Syn) c =
    .ok (.ok t, c1)

/-- The type of the concept of a tree, as read through the pending changes. -/
def OfType (v : View) (t : Syn) (k : CCT) : Prop :=
  ∃ a, t.concept = some a ∧ v.cct a = .ok (some k)

/-- A tree with a concept, or a pair of such trees that is not stored and whose text is not stored as a name. -/
inductive Sayable [HashOrder] (v : View) : Syn → Prop
  | known {t : Syn} (h : t.concept.isSome) : Sayable v t
  | pair {t l r : Syn} (unknown : t.concept = none) (parts : t.expansion = some (l, r))
      (left : Sayable v l) (right : Sayable v r)
      (unnamed : ∃ u, t.display = .ok u ∧ ' ' ∈ u ∧ v.stringConcept u = .ok none)
      (fresh : ∀ a b, l.concept = some a → r.concept = some b →
        ∃ m, v.read a = .ok m ∧ m.findAsHand b .left = none) : Sayable v t

/-- `let r` says that `r` is true: `r` is not of the form `t (o u)` with an operator `o` of `let`, nor with an `o`
that reduces to something else. -/
def Asserts [HashOrder] (v : View) (r : Syn) : Prop :=
  ∀ t a o u, r.expansion = some (t, a) → a.expansion = some (o, u) →
    o.concept = none ∨ ∃ x m, o.concept = some x ∧ v.read x = .ok m ∧ m.cct ≠ some .reduction ∧
      m.cct ≠ some .define ∧ m.reduction = none

/-- The tree remembered for the built-in concept, if there is one, is of that concept. -/
def Remembers (ca : Cache) (k : CCT) : Prop :=
  ∀ t, ca.syntaxTree? (.com (builtin k)) = some t → t.concept = some (.com (builtin k))

/-- The ids of the pending changes `v` stand for the stored concepts of `s`: what is read of each of them is
what is stored. -/
structure Corresponds (v : View) (s : Snap) (f : CId → Option Nat) : Prop where
  stored : ∀ i, f (.com i) = some i
  distinct : ∀ a b m m', v.read a = .ok m → v.read b = .ok m' → f a = f b → a = b
  reads : ∀ a m, v.read a = .ok m → ∃ i k, f a = some i ∧ s.concepts[i]? = some k ∧ ReadsAs f m k

/-- A tree stands for the concept `i`: that of its concept, or the composition of those of its parts. -/
inductive Denotes (f : CId → Option Nat) (s : Snap) : Syn → Nat → Prop
  | known {t : Syn} {a : CId} {i : Nat} (h : t.concept = some a) (hf : f a = some i) : Denotes f s t i
  | pair {t l r : Syn} {x y i : Nat} (unknown : t.concept = none) (parts : t.expansion = some (l, r))
      (left : Denotes f s l x) (right : Denotes f s r y) (composed : ComposedOf s i x y) : Denotes f s t i

/-- From `s` to `s'` the definition of `i` became the composition of `x` and `y`, and nothing else about the
stored concepts. -/
structure Defined (s s' : Snap) (i x y : Nat) : Prop where
  stays : s.concepts.length ≤ s'.concepts.length
  composed : ∀ l r, ComposedOf s' i l r ↔ l = x ∧ r = y
  reductions : ∀ k m, k < s.concepts.length → (ReducesTo s' k m ↔ ReducesTo s k m)
  definitions : ∀ k l r, k < s.concepts.length → k ≠ i → (ComposedOf s' k l r ↔ ComposedOf s k l r)
  strings : ∀ k t, k < s.concepts.length → (IsString s' k t ↔ IsString s k t)
  builtIns : ∀ k t, k < s.concepts.length → (IsBuiltIn s' k t ↔ IsBuiltIn s k t)

/-- From `s` to `s'` the reduction of `i` went, and nothing else about the stored concepts. -/
structure Unlearnt (s s' : Snap) (i : Nat) : Prop where
  stays : s.concepts.length ≤ s'.concepts.length
  gone : ∀ m, ¬ReducesTo s' i m
  reductions : ∀ k m, k < s.concepts.length → k ≠ i → (ReducesTo s' k m ↔ ReducesTo s k m)
  definitions : ∀ k l r, k < s.concepts.length → (ComposedOf s' k l r ↔ ComposedOf s k l r)
  strings : ∀ k t, k < s.concepts.length → (IsString s' k t ↔ IsString s k t)
  builtIns : ∀ k t, k < s.concepts.length → (IsBuiltIn s' k t ↔ IsBuiltIn s k t)

end Zia.Spec

import Verif.Spec.Teach

/-!
# Specifications about queries
-/

namespace Zia.Spec

/-- Concept `i` is a variable, or is composed of concepts with variables. -/
def OfVariables (s : Snap) (i : Nat) : Prop := ∃ c, s.concepts[i]? = some c ∧ c.isAnonymous = true

/-- Concept `i` is displayed as a variable: it, or something it reduces to, has a name of that form. -/
def ShownAsVariable (s : Snap) (i : Nat) : Prop :=
  ∃ j t, Relation.ReflTransGen (ReducesTo s) i j ∧ HasName s j t ∧ Syn.isVariableName t = true

/-- What may match something else than itself. -/
def MayVary (s : Snap) (i : Nat) : Prop := OfVariables s i ∨ ShownAsVariable s i

/-- No stored rule concludes what just anything reduces to. A part `q` of a stored implication `(=> q)`, or of
a pattern, that is of the form `(_v_ (l' r'))` has neither `->` nor a variable in the place of `l'`, and is not of
the form `(_v_ _w_)`. There is no implication `(=> _v_)`. No definition, and none of `=>`, `->` and `label_of`,
is displayed as a variable. -/
structure NoBlanketRule (s : Snap) : Prop where
  names : ∀ i l r, ComposedOf s i l r → ¬ShownAsVariable s i
  operators : ∀ t ∈ [CCT.implication, .reduction, .label], ¬ShownAsVariable s (builtin t)
  conclusions : ∀ e r, ComposedOf s e (builtin .implication) r → MayVary s r → ∃ l' r', ComposedOf s r l' r'
  rules : ∀ e l r q p d, ComposedOf s e l r → (l = builtin .implication ∨ MayVary s l) →
    (q = r ∨ ListsReduced s r q) → ComposedOf s q p d → MayVary s p →
    (MayVary s d → ∃ l' r', ComposedOf s d l' r') ∧
      ∀ l' r', ComposedOf s d l' r' → l' ≠ builtin .reduction ∧ ¬MayVary s l'

/-- Concept `i` is in no composition except that with `label_of`, which names it, and is neither a variable nor displayed
as one. -/
structure Unconnected (s : Snap) (i : Nat) : Prop where
  left : ∀ k r, ¬ComposedOf s k i r
  right : ∀ k l, ComposedOf s k l i → l = builtin .label
  constant : ¬MayVary s i

/-- `t` is a name of what concept `i` reduces to in the end. -/
def Answer (s : Snap) (i : Nat) (t : Str) : Prop :=
  ∃ j, Relation.ReflTransGen (ReducesTo s) i j ∧ (∀ k, ¬ReducesTo s j k) ∧ HasName s j t

end Zia.Spec

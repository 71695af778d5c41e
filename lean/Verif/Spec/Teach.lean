import Verif.Spec.Labels
import Verif.Context

/-!
# Specifications about what a command teaches
-/

namespace Zia.Spec

/-- Concept `i` is the built-in concept `t`. -/
def IsBuiltIn (s : Snap) (i : Nat) (t : CCT) : Prop :=
  ∃ c, s.concepts[i]? = some c ∧ c.cct = some t

/-- From `s` to `s'` nothing was taught and nothing forgotten: what was stored is what it was, nothing new
reduces to it, and what was added are names (a string, and `label_of` a symbol reducing to it) and
concepts without definition and reduction. -/
structure OnlyNames (s s' : Snap) : Prop where
  stays : s.concepts.length ≤ s'.concepts.length
  reductions : ∀ i j, i < s.concepts.length → (ReducesTo s' i j ↔ ReducesTo s i j)
  definitions : ∀ i l r, i < s.concepts.length → (ComposedOf s' i l r ↔ ComposedOf s i l r)
  strings : ∀ i t, i < s.concepts.length → (IsString s' i t ↔ IsString s i t)
  builtIns : ∀ i t, i < s.concepts.length → (IsBuiltIn s' i t ↔ IsBuiltIn s i t)
  reduced : ∀ j i, j < s.concepts.length → (ListsReduced s' j i ↔ ListsReduced s j i)
  newReductions : ∀ i j, s.concepts.length ≤ i → ReducesTo s' i j →
    s.concepts.length ≤ j ∧ (∃ t, IsString s' j t) ∧ ∃ x, ComposedOf s' i (builtin .label) x
  newDefinitions : ∀ i l r, s.concepts.length ≤ i → ComposedOf s' i l r →
    l = builtin .label ∧ s.concepts.length ≤ r
  newBuiltIns : ∀ i t, s.concepts.length ≤ i → ¬IsBuiltIn s' i t

/-- Concept `i` is a word: it has the name `t`, which is not that of a variable, and is neither a
composition nor a string. -/
structure PlainWord (s : Snap) (i : Nat) (t : Str) : Prop where
  name : HasName s i t
  simple : ∀ l r, ¬ComposedOf s i l r
  nostring : ∀ u, ¬IsString s i u
  constant : Syn.isVariableName t = false

/-- No stored concept is the string `t`: the word is new. -/
def NewWord (s : Snap) (t : Str) : Prop := ∀ k, ¬IsString s k t

/-- From `s` to `s'` it was taught that `i` reduces to `j`, and nothing else about the stored concepts. -/
structure Learnt (s s' : Snap) (i j : Nat) : Prop where
  stays : s.concepts.length ≤ s'.concepts.length
  reduces : ∀ m, ReducesTo s' i m ↔ m = j
  reductions : ∀ k m, k < s.concepts.length → k ≠ i → (ReducesTo s' k m ↔ ReducesTo s k m)
  definitions : ∀ k l r, k < s.concepts.length → (ComposedOf s' k l r ↔ ComposedOf s k l r)
  strings : ∀ k t, k < s.concepts.length → (IsString s' k t ↔ IsString s k t)
  builtIns : ∀ k t, k < s.concepts.length → (IsBuiltIn s' k t ↔ IsBuiltIn s k t)

/-- What is new in `s'` serves to name the words `x` and `y`: strings, concepts that name a word with its
string, and words, of which only `x` may reduce to something. -/
structure OnlyNamed (s s' : Snap) (x y : Str) : Prop where
  few : s'.concepts.length ≤ s.concepts.length + 6
  strings : ∀ k t, s.concepts.length ≤ k → IsString s' k t → t = x ∨ t = y
  definitions : ∀ k l r, s.concepts.length ≤ k → ComposedOf s' k l r →
    l = builtin .label ∧ s.concepts.length ≤ r ∧ (HasName s' r x ∨ HasName s' r y)
  reductions : ∀ k m, s.concepts.length ≤ k → ReducesTo s' k m →
    HasName s' k x ∨ (∃ r, ComposedOf s' k (builtin .label) r) ∧ ∃ t, IsString s' m t
  builtIns : ∀ k t, s.concepts.length ≤ k → ¬IsBuiltIn s' k t

/-- From `s` to `s'` the reduction of `i` was forgotten, and nothing else changed. -/
structure Forgotten (s s' : Snap) (i : Nat) : Prop where
  same : s'.concepts.length = s.concepts.length
  gone : ∀ m, ¬ReducesTo s' i m
  reductions : ∀ k m, k ≠ i → (ReducesTo s' k m ↔ ReducesTo s k m)
  definitions : ∀ k l r, ComposedOf s' k l r ↔ ComposedOf s k l r
  strings : ∀ k t, IsString s' k t ↔ IsString s k t
  builtIns : ∀ k t, IsBuiltIn s' k t ↔ IsBuiltIn s k t

/-- The errors that may be found when a part of the change is already made. -/
def FoundLate : ZiaError → Bool
  | .cyclicReduction => true
  | .redundantReduction _ => true
  | .infiniteComposition => true
  | .settingCompositionOfConcrete => true
  | .noLabelConcept => true
  | _ => false

/-- A command that is answered with text, or is rejected with an error that is not found late. -/
def Answers : Except ZiaError Str → Prop
  | .ok x => x ≠ []
  | .error e => FoundLate e = false

end Zia.Spec

import Verif.Syntax

/-!
# What is meant by the properties of syntax trees (C11 to C17, C41, C42)
-/

namespace Zia.Spec

/-- A place in a tree: `false` is left, `true` is right, outermost first. -/
abbrev Path := List Bool

/-- The expression at a place. -/
def at? : Syn → Path → Option Syn
  | t, [] => some t
  | .leaf .., _ :: _ => none
  | .branch _ _ l _ _ _, false :: p => at? l p
  | .branch _ _ _ r _ _, true :: p => at? r p

/-- `s` is a subexpression of `t`. -/
def Sub (s t : Syn) : Prop := ∃ p, at? t p = some s

/-- `s` is a subexpression of `t` strictly below its root. -/
def ProperSub (s t : Syn) : Prop := ∃ p, p ≠ [] ∧ at? t p = some s

/-- Same text and same concept. -/
def Alike (s t : Syn) : Prop := s.syntx = t.syntx ∧ s.concept = t.concept

/-- Trees made by the constructors of the library: leaves, pairing, attaching a concept. -/
inductive Built : Syn → Prop
  | leaf (s c l) : Built (.leaf s c l)
  | pair {l r} : Built l → Built r → Built (Syn.newPair l r)
  | expand {t l r} : Built t → Built l → Built r → Built (t.bindPair l r)
  | bind {t c} : Built t → Built (t.bindConcept c)

/-- `r` is the symbol `exists_such_that`. -/
def IsQuantifier : Syn → Prop
  | .leaf _ _ .quantifier => True
  | _ => False

def IsVariable : Syn → Prop
  | .leaf _ _ .variable => True
  | _ => False

def IsBranch : Syn → Prop
  | .branch .. => True
  | _ => False

mutual
/-- The variable named by key `k` occurs free in the expression. The stored sets are not
looked at. -/
def Free : Syn → Key → Prop
  | .leaf s c .variable, k => k = ⟨s, c⟩
  | .leaf _ _ _, _ => False
  | .branch _ _ l r _ _, k =>
    (Free l k ∧ ¬ (IsVariable l ∧ IsQuantifier r)) ∨ (Free r k ∧ ¬ Binds l k)
/-- The expression binds the variable named by key `k`: `_x_ exists_such_that` binds `_x_`, on
the left the binding is passed on, on the right as well unless the variable is free in the
compound expression on the left. -/
def Binds : Syn → Key → Prop
  | .leaf _ _ _, _ => False
  | .branch _ _ l r _ _, k =>
    (IsVariable l ∧ IsQuantifier r ∧ k = l.key) ∨ Binds l k ∨
      (Binds r k ∧ ¬ (IsBranch l ∧ Free l k))
end

/-- The stored set of free variables of a branch. -/
def storedFree : Syn → List Key
  | .branch _ _ _ _ f _ => f
  | .leaf .. => []

/-- The stored set of binding variables of a branch. -/
def storedBinding : Syn → List Key
  | .branch _ _ _ _ _ b => b
  | .leaf .. => []

/-- No expression strictly above place `p` in `t` is replaced by `σ`. -/
def Untouched (σ : Subst) (t : Syn) (p : Path) : Prop :=
  ∀ q s, q <+: p → q ≠ p → at? t q = some s → σ.get? s.key = none

/-- Two maps give alike expressions to every key they share. -/
def Agree {α : Type} [DecidableEq α] (a b : AMap α Syn) : Prop :=
  ∀ k u v, a.get? k = some u → b.get? k = some v → Alike u v

/-- The example `e` fits the pattern `g` under assignments `σ` for the variables of the pattern
and `ρ` for the variables of the example: place by place, either the pattern has a variable and
`σ` gives it an expression alike the one in the example, or the example has a variable and `ρ`
gives it a symbol alike the one of the pattern, or they are alike symbols. -/
def Fits (σ : Key → Option Syn) (ρ : CId → Option Syn) : Syn → Syn → Prop
  | .branch _ _ le re _ _, .branch _ _ lg rg _ _ => Fits σ ρ le lg ∧ Fits σ ρ re rg
  | e, .leaf s c .variable => ∃ v, σ ⟨s, c⟩ = some v ∧ Alike v e
  | .leaf _ (some id) .variable, .leaf s c l => ∃ v, ρ id = some v ∧ Alike v (.leaf s c l)
  | .leaf s' c' _, .leaf s c _ => s' = s ∧ c' = c
  | _, _ => False

/-- The pattern with its variables replaced. -/
def instantiate (σ : Key → Option Syn) : Syn → Syn
  | .leaf s c .variable => (σ ⟨s, c⟩).getD (.leaf s c .variable)
  | .leaf s c l => .leaf s c l
  | .branch s c l r f b => .branch s c (instantiate σ l) (instantiate σ r) f b

/-- Same shape with alike leaves. -/
def SameLeaves : Syn → Syn → Prop
  | .branch _ _ l r _ _, .branch _ _ l' r' _ _ => SameLeaves l l' ∧ SameLeaves r r'
  | a@(.leaf ..), b@(.leaf ..) => Alike a b
  | _, _ => False

/-- The masks of a list of masks, innermost first. -/
def masks : MaskList → List Mask
  | .one h => [h]
  | .cons h t => h :: masks t

/-- Two masks assign alike expressions to the same variables. -/
def SameMask (a b : Mask) : Prop := ∀ id, (a.get? id).map Syn.key = (b.get? id).map Syn.key

/-- Lists of masks that arise from one mask by pushing. -/
inductive Pushed : MaskList → Prop
  | one (h : Mask) : h.WF → Pushed (.one h)
  | push {l l' : MaskList} {h : Mask} : Pushed l → h.WF → l.push h = some l' → Pushed l'

/-- The text and concept of the parts of `e` tell them apart. -/
def Faithful (e : Syn) : Prop := ∀ u v, Sub u e → Sub v e → Alike u v → u = v

end Zia.Spec

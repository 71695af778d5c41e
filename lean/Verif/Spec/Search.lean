import Verif.Search
import Mathlib.Logic.Relation

/-!
# What reducing repeatedly, comparing and matching should mean

An expression is reduced with a memory of earlier reductions; a step therefore goes from an expression
and a memory to an expression and a memory.
-/

namespace Zia.Spec

set_option linter.unusedSectionVars false

variable [HashOrder]

/-- The expression is reduced once, by the memory or by looking at the stored concepts. -/
def Reduces (e : Env) (x y : Syn × Cache) : Prop :=
  ∃ n reason, (search n).reduce e x.1 x.2 = .ok (some (y.1, reason), y.2)

/-- The expression cannot be reduced. -/
def Stuck (e : Env) (x : Syn × Cache) (ca : Cache) : Prop :=
  ∃ n, (search n).reduce e x.1 x.2 = .ok (none, ca)

/-- Reducing the expression again and again, one or more times, reaches the expression `k`; the run
ends there. -/
inductive Reaches (e : Env) (k : Key) : Syn × Cache → Cache → Prop
  | here {x y} : Reduces e x y → y.1.key = k → Reaches e k x y.2
  | later {x y ca} : Reduces e x y → y.1.key ≠ k → Reaches e k y ca → Reaches e k x ca

/-- Reducing the expression again and again ends, without meeting the expression `k` on the way. -/
inductive Misses (e : Env) (k : Key) : Syn × Cache → Cache → Prop
  | stuck {x ca} : Stuck e x ca → Misses e k x ca
  | later {x y ca} : Reduces e x y → y.1.key ≠ k → Misses e k y ca → Misses e k x ca

/-- What is known of `a` and `b` seen from the side of `b`. -/
def mirror : Cmp → Cmp
  | .greaterThan => .lessThan
  | .lessThan => .greaterThan
  | .incomparable => .incomparable
  | .equalTo => .equalTo
  | .greaterOrEqual => .lessOrEqual
  | .lessOrEqual => .greaterOrEqual

/-- What is known of `a` and `b` when the truth of `a > b` and of `b > a` is known or not: `a > b` is
`x` and `b > a` is `y`. -/
def Known (x y : Option Bool) : Cmp → Prop
  | .greaterThan => x = some true ∧ y ≠ some true
  | .lessThan => x ≠ some true ∧ y = some true
  | .equalTo => x = some false ∧ y = some false
  | .lessOrEqual => x = some false ∧ y = none
  | .greaterOrEqual => x = none ∧ y = some false
  | .incomparable => x = none ∧ y = none

/-- The truth value that a concrete concept stands for. -/
def truthOf : Option CCT → Option Bool
  | some .tru => some true
  | some .fls => some false
  | _ => none

/-- The truth value of an expression that is not reduced further. -/
def HasTruth (e : Env) (t : Syn) (x : Option Bool) : Prop :=
  match t.concept with
  | none => x = none
  | some c => ∃ k, e.view.cct c = .ok k ∧ truthOf k = x

/-- The expression is the name of a built-in concept. -/
def Names (e : Env) (k : CCT) (t : Syn) : Prop :=
  ∃ id n ca ca', e.view.concreteId k = .ok (some id) ∧ (search n).toAst e id ca = .ok (t, ca')

/-- The truth of a comparison, judged with a memory `red` of its own, is `x`: it is that of the normal
form; while the comparison is already being judged, only what is remembered of it counts. -/
inductive Judged (e : Env) (t : Syn) (red : AMap Key RR) (ca : Cache) :
    Option Bool → AMap Key RR → Cache → Prop
  | remembered {s r x} : t.key ∈ e.evaluating → ca.reduction? t = some (some (s, r)) →
      HasTruth e s x → Judged e t red ca x red ca
  | unknown : t.key ∈ e.evaluating → (∀ p, ca.reduction? t ≠ some (some p)) →
      Judged e t red ca none red ca
  | computed {nf ca1 f fs infs x} : t.key ∉ e.evaluating →
      Relation.ReflTransGen (Reduces { e with evaluating := setInsert e.evaluating t.key })
        (t, ⟨⟨red, []⟩ :: ca.frames, ca.infs⟩) (nf, ca1) →
      Stuck { e with evaluating := setInsert e.evaluating t.key } (nf, ca1) ⟨f :: fs, infs⟩ →
      HasTruth e nf x → Judged e t red ca x f.red ⟨fs, infs⟩

/-- The expression `a > b`. -/
def Asks (e : Env) (a b t : Syn) : Prop :=
  ∃ gt gb, Names e .greaterThan gt ∧ gb.expansion = some (gt, b) ∧ t.expansion = some (a, gb)

/-- A stored concept that a rule is about in general: it is or contains a variable that no rule being
applied has given a meaning to. -/
def Generic (e : Env) (g : CId) : Prop :=
  ∃ c, e.view.read g = .ok c ∧ c.isFree = true ∧ ∀ t, e.mask.tail? = some t → t.get g = none

/-- The expression is not one that is being looked for. -/
def Fixed (e : Env) (t : Syn) : Prop :=
  t.key ∉ e.bound ∧ ∀ c, t.concept = some c → ∃ x, e.view.read c = .ok x ∧ x.isBound = false

/-- The parts of a stored concept. -/
def PartsOf (e : Env) (g : CId) (p : Option (CId × CId)) : Prop :=
  ∃ c, e.view.read g = .ok c ∧ c.composition = p

/-- An expression is an instance of a stored concept under a matching: a variable stands for the
expression matched with it, a constant for itself, and a composition is matched part by part. -/
inductive InstanceOf (e : Env) (m : Mask) : Syn → CId → Prop
  | variable {t g u} : Generic e g → Fixed e t → PartsOf e g none →
      m.get? g = some u → u.key = t.key → InstanceOf e m t g
  | constant {t g} : ¬ Generic e g → t.concept = some g → InstanceOf e m t g
  | pair {t l r g gl gr} : Generic e g → Fixed e t → PartsOf e g (some (gl, gr)) →
      t.expansion = some (l, r) → InstanceOf e m l gl → InstanceOf e m r gr → InstanceOf e m t g

/-- A variable of a stored concept. -/
inductive VariableIn (e : Env) : CId → CId → Prop
  | self {g} : Generic e g → PartsOf e g none → VariableIn e g g
  | left {x g gl gr} : Generic e g → PartsOf e g (some (gl, gr)) → VariableIn e x gl →
      VariableIn e x g
  | right {x g gl gr} : Generic e g → PartsOf e g (some (gl, gr)) → VariableIn e x gr →
      VariableIn e x g

end Zia.Spec

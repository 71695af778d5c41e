import Verif.Parser

/-!
# What it means for a tree to be a reading of a list of expressions

Independent of the parser: only `Syn.expansion` (the two halves of a tree) and the concepts of
trees are used.
-/

namespace Zia.Spec

open CM

set_option linter.unusedSectionVars false

variable [HashOrder]

/-- `t` is a tree over the expressions `ts`: each of them occurs once, in the order given, and
nothing else occurs. -/
inductive Groups : List Syn → Syn → Prop
  | one (t : Syn) : Groups [t] t
  | join {ls rs : List Syn} {l r t : Syn} :
    t.expansion = some (l, r) → Groups ls l → Groups rs r → Groups (ls ++ rs) t

/-- `t` is `t1 (t2 (... tn))`. -/
inductive RightNested : List Syn → Syn → Prop
  | one (t : Syn) : RightNested [t] t
  | cons {ts : List Syn} {a r t : Syn} :
    t.expansion = some (a, r) → RightNested ts r → RightNested (a :: ts) t

/-- The positions at which consecutive pieces start, when the first starts at `i`. -/
def starts : Nat → List (List Syn) → List Nat
  | _, [] => []
  | i, s :: ss => i :: starts (i + s.length) ss

/-- `pieces` are `ts` cut before each of the positions in `ps`, and nowhere else. -/
structure CutAt (ps : List Nat) (ts : List Syn) (pieces : List (List Syn)) : Prop where
  whole : pieces.flatten = ts
  nonempty : ∀ s ∈ pieces, s ≠ []
  before : ∀ i, i ∈ starts 0 pieces ↔ i = 0 ∨ i ∈ ps

/-- No expression of the list takes part in a precedence relation that the store knows of: neither
`precedes y` nor `x (precedes y)` exists for `x` or `y` among the concepts of the list. -/
def Unranked (v : View) (p : CId) (ts : List Syn) : Prop :=
  ∃ m : Mixed, v.read p = .ok m ∧
    ∀ yc ∈ m.iterHandOf .left, (∀ t ∈ ts, t.concept ≠ some yc.1) ∧
      ∃ m' : Mixed, v.read yc.2 = .ok m' ∧
        ∀ xc ∈ m'.iterHandOf .right, ∀ t ∈ ts, t.concept ≠ some xc.1

/-- A left associative case that always answers with an error. -/
def noLeft : (List Syn → CM Syn) → List Syn → List Nat → CM Syn :=
  fun _ _ _ => throw .ambiguousExpression

/-- The list is read as `t`, and no symbols of lowest precedence were found to be left associative on
the way: the run succeeds although the left associative case is replaced by an error. -/
def ReadsRight (n k : Nat) (ts : List Syn) (c : Ctx) (t : Syn) (c' : Ctx) : Prop :=
  Parser.astFromListWith (Parser.precedes n) noLeft (fault .diverge) n k ts c = .ok (.ok t, c')

/-! ## Precedence -/

/-- The concept takes part in a precedence relation that the store knows of: with `p` the concept
`precedes`, it is the `y` of a stored `p y`, or the `x` of a stored `x (p y)`. -/
def Ranked (v : View) (p : CId) (id : CId) : Prop :=
  ∃ m : Mixed, v.read p = .ok m ∧ ∃ yc ∈ m.iterHandOf .left, id = yc.1 ∨
    ∃ m' : Mixed, v.read yc.2 = .ok m' ∧ ∃ xc ∈ m'.iterHandOf .right, id = xc.1

/-- `x` is of lowest precedence among `ts`, when precedences are measured by `ρ`: it is ranked and no
ranked expression of the list is lower, or there is no ranked expression in the list at all. -/
def Lowest (v : View) (p : CId) (ρ : CId → Nat) (ts : List Syn) (x : Syn) : Prop :=
  (∃ id, x.concept = some id ∧ Ranked v p id ∧
    ∀ u ∈ ts, ∀ id', u.concept = some id' → Ranked v p id' → ρ id ≤ ρ id') ∨
  ∀ u ∈ ts, ∀ id', u.concept = some id' → ¬ Ranked v p id'

mutual

/-- How a list is read when `low ts x` says that `x` is of lowest precedence among `ts`: it is cut
before each expression of lowest precedence, and nowhere else, and the readings of the pieces are nested
to the right. -/
inductive Reads (low : List Syn → Syn → Prop) : List Syn → Syn → Prop
  | one (t : Syn) : Reads low [t] t
  | two {l r t : Syn} : t.expansion = some (l, r) → Reads low [l, r] t
  | cut {ts : List Syn} {ps : List Nat} {pieces : List (List Syn)} {trees : List Syn} {t : Syn} :
    3 ≤ ts.length → (∀ i, i ∈ ps ↔ ∃ x, ts[i]? = some x ∧ low ts x) → CutAt ps ts pieces →
    Pieces low (low ts) pieces trees → RightNested trees t → Reads low ts t

/-- How the pieces of a list are read: an expression of lowest precedence is applied to the reading of
all that follows it in its piece. Only the first piece may start otherwise; it is read by itself. -/
inductive Pieces (low : List Syn → Syn → Prop) : (Syn → Prop) → List (List Syn) → List Syn → Prop
  | nil {now : Syn → Prop} : Pieces low now [] []
  | alone {now : Syn → Prop} {x : Syn} {pieces : List (List Syn)} {trees : List Syn} :
    now x → Pieces low now pieces trees → Pieces low now ([x] :: pieces) (x :: trees)
  | headed {now : Syn → Prop} {x r t : Syn} {rs : List Syn} {pieces : List (List Syn)}
    {trees : List Syn} : now x → t.expansion = some (x, r) → Reads low rs r →
    Pieces low now pieces trees → Pieces low now ((x :: rs) :: pieces) (t :: trees)
  | before {now : Syn → Prop} {x t : Syn} {rs : List Syn} {pieces : List (List Syn)}
    {trees : List Syn} : ¬ now x → Reads low (x :: rs) t →
    Pieces low now pieces trees → Pieces low now ((x :: rs) :: pieces) (t :: trees)

end

/-- Asks whether `a` precedes `b`, and fails if the answer does not agree with the ranks: it has to be
`true` exactly if `b` is ranked lower than `a`. -/
def guarded (ρ : CId → Nat) (n : Nat) (a b : CId) : CM (Option CCT) := do
  let r ← Parser.precedes n a b
  if r = some .tru ↔ ρ b < ρ a then return r else throw .ambiguousExpression

/-- The list is read as `t`, no symbols of lowest precedence were found to be left associative on the
way, and all that was found out about precedences agrees with `ρ`: the run succeeds although it would
fail with an error otherwise. -/
def ReadsRanked (ρ : CId → Nat) (n k : Nat) (ts : List Syn) (c : Ctx) (t : Syn) (c' : Ctx) : Prop :=
  Parser.astFromListWith (guarded ρ n) noLeft (fault .diverge) n k ts c = .ok (.ok t, c')

end Zia.Spec

import Verif.AMap
import Verif.Nest

/-!
# Syntax trees

Models /repo/zia/src/ast/{macro,node,trait,mod}.rs, substitute.rs, consistent_merge.rs,
variable_mask_list.rs and associativity.rs. `Rc`/`Arc` sharing is value semantics here.
-/

namespace Zia

/-- `ast/macro.rs` 45-49 `struct SyntaxKey`. -/
structure Key where
  syn : Option Str
  concept : Option CId
  deriving DecidableEq, Repr

/-- `ast/macro.rs` 15-22 `struct GenericSyntaxTree` with its `node` (`ast/node.rs` 7-19). The two
hash sets of a branch are lists; the code only tests membership and emptiness. -/
inductive Syn
  | leaf (syn : Option Str) (concept : Option CId) (l : SLeaf)
  | branch (syn : Option Str) (concept : Option CId) (left right : Syn)
      (free binding : List Key)
  deriving DecidableEq, Repr

namespace Syn

/-- Field `syntax`. -/
def syntx : Syn → Option Str
  | leaf s _ _ => s
  | branch s _ _ _ _ _ => s

/-- Field `concept`, `get_concept` `ast/macro.rs` 229-231. -/
def concept : Syn → Option CId
  | leaf _ c _ => c
  | branch _ c _ _ _ _ => c

/-- `ast/macro.rs` 36-41 `key`. -/
def key (t : Syn) : Key := ⟨t.syntx, t.concept⟩

/-- `ast/node.rs` 49-81 `PartialEq for Node`. -/
def nodeEq : Syn → Syn → Bool
  | branch _ _ l r _ _, branch _ _ l' r' _ _ => l.key == l'.key && r.key == r'.key
  | leaf _ _ l, leaf _ _ l' => l == l'
  | _, _ => false

/-- `ast/macro.rs` 51-64 `PartialEq for GenericSyntaxTree`. -/
def eqv (a b : Syn) : Bool :=
  match a.syntx, b.syntx with
  | some ss, some os => ss == os
  | _, _ =>
    match a.concept, b.concept with
    | some sc, some oc => sc == oc
    | _, _ => nodeEq a b

/-- `ast/macro.rs` 68-73 `Hash for GenericSyntaxTree`: what is fed to the hasher. -/
def hashInput (t : Syn) : Option Str × Option CId := (t.syntx, t.concept)

/-- `ast/macro.rs` 75-93 `Display`. -/
def display : Syn → Except Fault Str
  | leaf (some s) _ _ => .ok s
  | leaf none _ _ => .error (.panic .other)
  | branch (some s) _ _ _ _ _ => .ok s
  | branch none _ l r _ _ => do
    let a ← display l
    let b ← display r
    return a ++ ' ' :: b

/-- `ast/mod.rs` 25-27 `is_variable`. -/
def isVariableName (s : Str) : Bool :=
  s.head? == some '_' && s.getLast? == some '_' && !s.contains ' '

/-- `ast/macro.rs` 95-112 `From<S>`. -/
def ofStr (s : Str) : Syn :=
  leaf (some s) none (if isVariableName s then .variable else .constant)

/-- `ast/macro.rs` 125-127 `is_leaf_variable`. -/
def isLeafVariable : Syn → Bool
  | leaf _ _ .variable => true
  | _ => false

/-- The sets computed by `ast/node.rs` 84-135 `Node::new_pair`: free and binding variables. -/
def pairVars (left right : Syn) : List Key × List Key :=
  let (free, binding, rightIsQuantifier) :=
    match right with
    | branch _ _ _ _ fv bv => (setExtend [] fv, setExtend [] bv, false)
    | leaf _ _ .variable => (setInsert [] right.key, [], false)
    | leaf _ _ .constant => ([], [], false)
    | leaf _ _ .quantifier => ([], [], true)
  match left with
  | branch _ _ _ _ fv bv =>
    (setExtend (free.filter (fun v => !bv.contains v)) fv,
     setExtend (binding.filter (fun v => !fv.contains v)) bv)
  | leaf _ _ .variable =>
    if rightIsQuantifier then (free, setInsert binding left.key)
    else (setInsert free left.key, binding)
  | leaf _ _ _ => (free, binding)

/-- `ast/macro.rs` 145-151 `new_pair`. -/
def newPair (left right : Syn) : Syn :=
  branch none none left right (pairVars left right).1 (pairVars left right).2

/-- `ast/macro.rs` 220-227 `bind_pair`. -/
def bindPair (t left right : Syn) : Syn :=
  branch t.syntx t.concept left right (pairVars left right).1 (pairVars left right).2

/-- `ast/macro.rs` 161-171 `bind_nonquantifier_concept` and its `_as_ref` form. -/
def bindConcept (t : Syn) (c : CId) : Syn :=
  match t with
  | leaf s _ l => leaf s (some c) l
  | branch s _ l r f b => branch s (some c) l r f b

/-- `ast/macro.rs` 173-178 `bind_quantifier_concept`; the assertion that the tree is a constant
leaf is a panic. -/
def bindQuantifierConcept (t : Syn) (c : CId) : Except Fault Syn :=
  match t with
  | leaf s _ .constant => .ok (leaf s (some c) .quantifier)
  | _ => .error (.panic .other)

/-- `ast/macro.rs` 193-205 `get_expansion`. -/
def expansion : Syn → Option (Syn × Syn)
  | branch _ _ l r _ _ => some (l, r)
  | leaf _ _ _ => none

/-- `ast/macro.rs` 182-191 `contains`. -/
def contains : Syn → Syn → Bool
  | branch _ _ l r _ _, other =>
    other.key == l.key || other.key == r.key || l.contains other || r.contains other
  | leaf _ _ _, _ => false

/-- `ast/macro.rs` 233-243 `is_variable`. -/
def isVariable : Syn → Bool
  | branch _ _ _ _ free binding => !free.isEmpty || !binding.isEmpty
  | leaf _ _ .variable => true
  | leaf _ _ _ => false

end Syn

/-- `substitute.rs` 10 `type Substitutions`. -/
abbrev Subst := AMap Key Syn

/-- `variable_mask_list.rs` 82 `type VariableMask`. -/
abbrev Mask := AMap CId Syn

/-- `substitute.rs` 12-22 `substitute`. The stored variable sets of a branch are left as they
were. -/
def substitute (σ : Subst) : Syn → Syn
  | t@(.leaf s c l) =>
    match σ.get? t.key with
    | some v => v
    | none => .leaf s c l
  | t@(.branch s c l r f b) =>
    match σ.get? t.key with
    | some v => v
    | none => .branch s c (substitute σ l) (substitute σ r) f b

/-- The loop of `consistent_merge.rs` 24-38 and 53-66. -/
def mergeInto {α : Type} [DecidableEq α] (large : AMap α Syn) :
    List (α × Syn) → Option (AMap α Syn)
  | [] => some large
  | (k, v) :: rest =>
    match large.get? k with
    | some e => if e.key ≠ v.key then none else mergeInto large rest
    | none => mergeInto (large.insert k v) rest

/-- `consistent_merge.rs` 13-41 (substitutions) and 42-69 (variable masks): `consistent_merge`. -/
def consistentMerge {α : Type} [DecidableEq α] (a b : AMap α Syn) : Option (AMap α Syn) :=
  if a.length > b.length then mergeInto a b else mergeInto b a

/-- `ast/trait.rs` 10-13 `struct ExampleSubstitutions`. -/
structure ExSubst where
  gen : Subst
  exam : Mask
  deriving DecidableEq, Repr

/-- `ast/trait.rs` 26-47 `consistent_merge`. -/
def ExSubst.merge (a b : ExSubst) : Option ExSubst :=
  match consistentMerge a.gen b.gen, consistentMerge a.exam b.exam with
  | some g, some e => some ⟨g, e⟩
  | _, _ => none

/-- `ast/macro.rs` 267-277: both sides are leaves. -/
def checkLeaves (e g : Syn) : Option ExSubst :=
  if g.isVariable then some ⟨[(g.key, e)], []⟩
  else
    match e.concept, e.isVariable with
    | some id, true => some ⟨[], [(id, g)]⟩
    | _, _ => if e.key = g.key then some ⟨[], []⟩ else none

/-- `ast/macro.rs` 245-277 `check_example`. -/
def checkExample : Syn → Syn → Option ExSubst
  | .branch _ _ le re _ _, .branch _ _ lg rg _ _ =>
    match checkExample le lg, checkExample re rg with
    | some a, some b => a.merge b
    | _, _ => none
  | e@(.branch ..), g@(.leaf ..) =>
    if g.isVariable then some ⟨[(g.key, e)], []⟩ else none
  | .leaf .., .branch .. => none
  | e@(.leaf ..), g@(.leaf ..) => checkLeaves e g

/-- `reduction_reason.rs` `convert_to_syntax_keys`: the keys of the values of a mask. -/
def syntaxKeys (m : Mask) : AMap CId Key := m.map (fun p => (p.1, p.2.key))

/-- Equality of two `HashMap`s: same size and same value at every key. -/
def mapEq {α β : Type} [DecidableEq α] [DecidableEq β] (a b : AMap α β) : Bool :=
  a.length == b.length && a.all (fun p => b.get? p.1 == some p.2)

/-- `variable_mask_list.rs` 9-13 `struct VariableMaskList`: a non-empty list of masks. -/
inductive MaskList
  | one (head : Mask)
  | cons (head : Mask) (tail : MaskList)
  deriving DecidableEq, Repr

namespace MaskList

/-- `variable_mask_list.rs` 67-72 `contains`. -/
def contains : MaskList → Mask → Bool
  | one h, node => mapEq (syntaxKeys h) (syntaxKeys node)
  | cons h t, node => mapEq (syntaxKeys h) (syntaxKeys node) || t.contains node

/-- `variable_mask_list.rs` 57-65 `push`. -/
def push (list : MaskList) (head : Mask) : Option MaskList :=
  if list.contains head then none else some (cons head list)

/-- `variable_mask_list.rs` 74-78 `get`. -/
def get : MaskList → CId → Option Syn
  | one h, id => h.get? id
  | cons h t, id => match h.get? id with
    | some s => some s
    | none => t.get id

/-- Field `head`. -/
def head : MaskList → Mask
  | one h => h
  | cons h _ => h

/-- `variable_mask_list.rs` 80-82 `tail`. -/
def tail? : MaskList → Option MaskList
  | one _ => none
  | cons _ t => some t

end MaskList

namespace Assoc

/-- `associativity.rs` 12-21 `display_joint_left`. -/
def displayJointLeft (a : Assoc) (ll lr : Str) : Str :=
  match a with
  | .left => ll ++ ' ' :: lr
  | .right => '(' :: ll ++ ' ' :: lr ++ [')']

/-- `associativity.rs` 23-32 `display_joint_right`. -/
def displayJointRight (a : Assoc) (rl rr : Str) : Str :=
  match a with
  | .left => '(' :: rl ++ ' ' :: rr ++ [')']
  | .right => rl ++ ' ' :: rr

/-- `&tokens[i..j]`. -/
def slice {T : Type} (tokens : List T) (i j : Nat) : Except Fault (List T) :=
  if i ≤ j ∧ j ≤ tokens.length then .ok ((tokens.take j).drop i)
  else .error (.panic .sliceOutOfRange)

/-- `associativity.rs` 34-47 `slice_tokens`. -/
def sliceTokens {T : Type} (a : Assoc) (tokens : List T) (prev : Option Nat) (lp : Nat) :
    Except Fault (List T) :=
  match a with
  | .left => slice tokens (prev.getD 0) lp
  | .right => slice tokens lp (prev.getD tokens.length)

end Assoc

end Zia

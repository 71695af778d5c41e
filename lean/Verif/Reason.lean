import Verif.Reader

/-!
# Reasons of reductions, and the cache

Models /repo/zia/src/reduction_reason.rs and context_cache/{macro,mod}.rs.
-/

namespace Zia

mutual

/-- `reduction_reason.rs` 24-59 `enum ReductionReason`. `Default` is never built. A `Partial` map is
a list of entries (key, reduced syntax, reason). -/
inductive Reason
  | comparison (c : CmpReason)
  | explicit
  | rule (generalisation : Syn) (mask : Mask) (reason : Reason)
  | inference (implication : Syn) (reason : Reason)
  | partly (parts : Parts)
  | existence (substitutions : Subst) (generalisation : Syn)
  | recursive (syn : Syn) (reason source : Reason)
  | cannotReduceToItself
  | leftToRight (reason : Reason) (left right : Syn)
  | rightToLeft (reason : Reason) (left right : Syn)

/-- `context_search.rs` 1276-1284 `enum ComparisonReason`. -/
inductive CmpReason
  | sameSyntax
  | reduction (reason reversed : OReason)
  | noGreaterThan

/-- `Option<ReductionReason>` inside a comparison reason. -/
inductive OReason
  | none
  | some (r : Reason)

/-- `PartialReductionReasons` (20-21). -/
inductive Parts
  | nil
  | cons (k : Key) (s : Syn) (r : Reason) (rest : Parts)

end

deriving instance Repr, DecidableEq for Reason, CmpReason, OReason, Parts

namespace OReason

/-- Conversion from `Option`. -/
def ofOption : Option Reason → OReason
  | .none => .none
  | .some r => .some r

/-- Conversion to `Option`. -/
def toOption : OReason → Option Reason
  | .none => .none
  | .some r => .some r

end OReason

namespace Parts

/-- Number of entries. -/
def length : Parts → Nat
  | nil => 0
  | cons _ _ _ rest => rest.length + 1

/-- `HashMap::get`. -/
def get? : Parts → Key → Option (Syn × Reason)
  | nil, _ => none
  | cons k s r rest, a => if k = a then some (s, r) else get? rest a

/-- `HashMap::insert`. -/
def insert : Parts → Key → Syn → Reason → Parts
  | nil, a, s, r => cons a s r nil
  | cons k s' r' rest, a, s, r =>
    if k = a then cons a s r rest else cons k s' r' (insert rest a s r)

/-- `HashMap::extend`. -/
def extend (m : Parts) : Parts → Parts
  | nil => m
  | cons k s r rest => extend (m.insert k s r) rest

end Parts

mutual

/-- `reduction_reason.rs` 171-228 `PartialEq for ReductionReason`: the two `todo!()` are panics. -/
def Reason.eq : Reason → Reason → Except Fault Bool
  | .comparison c1, .comparison c2 => c1.eq c2
  | .comparison _, _ => .ok false
  | .explicit, .explicit => .ok true
  | .explicit, _ => .ok false
  | .rule g1 m1 r1, .rule g2 m2 r2 =>
    if g1.key = g2.key ∧ mapEq (syntaxKeys m1) (syntaxKeys m2) then r1.eq r2 else .ok false
  | .rule _ _ _, _ => .ok false
  | .inference i1 r1, .inference i2 r2 => if i1.eqv i2 then r1.eq r2 else .ok false
  | .inference _ _, _ => .ok false
  | .partly p1, .partly p2 => if p1.length = p2.length then p1.eq p2 else .ok false
  | .partly _, _ => .ok false
  | .existence s1 g1, .existence s2 g2 =>
    .ok (mapEq (s1.map (fun p => (p.1, p.2.key))) (s2.map (fun p => (p.1, p.2.key))) &&
      g1.key = g2.key)
  | .existence _ _, _ => .ok false
  | .recursive s1 r1 f1, .recursive s2 r2 f2 =>
    if s1.key = s2.key then do
      if ← r1.eq r2 then f1.eq f2 else return false
    else .ok false
  | .recursive _ _ _, _ => .ok false
  | .cannotReduceToItself, _ => .error (.panic .reasonTodo)
  | .leftToRight _ _ _, _ => .error (.panic .reasonTodo)
  | .rightToLeft r1 l1 x1, .rightToLeft r2 l2 x2 => do
    if ← r1.eq r2 then return l1.key = l2.key ∧ x1.key = x2.key else return false
  | .rightToLeft _ _ _, _ => .ok false

/-- `context_search.rs` 1275 derived `PartialEq`. -/
def CmpReason.eq : CmpReason → CmpReason → Except Fault Bool
  | .sameSyntax, .sameSyntax => .ok true
  | .noGreaterThan, .noGreaterThan => .ok true
  | .reduction a b, .reduction c d => do if ← a.eq c then b.eq d else return false
  | _, _ => .ok false

/-- `PartialEq` of `Option`. -/
def OReason.eq : OReason → OReason → Except Fault Bool
  | .none, .none => .ok true
  | .some a, .some b => a.eq b
  | _, _ => .ok false

/-- Equality of the maps of two `Partial` reasons, entry by entry; which entry is looked at first is
unspecified in Rust. -/
def Parts.eq : Parts → Parts → Except Fault Bool
  | .nil, _ => .ok true
  | .cons k s r rest, other =>
    match other.get? k with
    | none => .ok false
    | some (s', r') =>
      if s.key = s'.key then do
        if ← r.eq r' then rest.eq other else return false
      else .ok false

end

/-- `reduction_reason.rs` 15-17 `ReductionResult`. -/
abbrev RR := Option (Syn × Reason)

/-- `reduction_reason.rs` 343-353 `recursive_reason`. -/
def recursiveReason (previous : Option Reason) (last : Reason) (syn : Syn) : Reason :=
  match previous with
  | none => last
  | some f => .recursive syn last f

/-- `reduction_reason.rs` 394-412 `partial`: flatten nested partial reasons. -/
def partialReason : List (Key × Syn × Reason) → Parts → Reason
  | [], acc => .partly acc
  | (_, _, .partly inner) :: rest, acc => partialReason rest (acc.extend inner)
  | (k, s, r) :: rest, acc => partialReason rest (acc.insert k s r)

/-- `reduction_reason.rs` 265-303 `simplify_reasoning`. -/
def simplifyReasoning (reason reversed : Option Reason) : Except Fault CmpReason :=
  let dflt := CmpReason.reduction (.ofOption reason) (.ofOption reversed)
  match reason, reversed with
  | some (.comparison (.reduction r rr)), x => do
    if ← (OReason.ofOption x).eq rr then return .reduction r rr else return dflt
  | some (.comparison _), _ => .ok dflt
  | r, some (.comparison (.reduction rev cmp)) => do
    if ← (OReason.ofOption r).eq cmp then return .reduction cmp rev else return dflt
  | _, _ => .ok dflt

/-- The caches of one search: `reductions.head` and `syntax_trees` of `context_cache/macro.rs` 14-20.
`contains_bound_variable_syntax` is never written to (48-56) and is left out. -/
structure Frame where
  red : AMap Key RR
  syn : AMap CId Syn
  deriving DecidableEq, Repr

/-- `context_cache/macro.rs` 14-20 `struct GenericCache`. The list of reduction caches of a search is
its own (`head`) followed by that of the search it was spawned from (`tail`); the caches of the
searches on the way to the current one are the frames, innermost first. All of them share one cache
of inferences (43). -/
structure Cache where
  frames : List Frame
  infs : AMap CId RR
  deriving DecidableEq, Repr

namespace Cache

/-- `context_cache/macro.rs` 22-31 `Default`. -/
def empty : Cache := ⟨[⟨[], []⟩], []⟩

/-- The search of `get_reduction_or_else` (`context_cache/macro.rs` 197-212). -/
def lookupIn (k : Key) : List Frame → Option RR
  | [] => none
  | f :: fs =>
    match f.red.get? k with
    | some r => some r
    | none => lookupIn k fs

/-- `context_cache/macro.rs` 197-212 `get_reduction_or_else`. -/
def reduction? (c : Cache) (t : Syn) : Option RR := lookupIn t.key c.frames

/-- `context_cache/macro.rs` 214-226 `insert_reduction`. -/
def insertReduction (c : Cache) (t : Syn) (r : RR) : Cache :=
  if !t.isVariable && (match r with | none => true | some (x, _) => decide (x.key ≠ t.key)) then
    match c.frames with
    | [] => c
    | f :: fs => { c with frames := { f with red := f.red.insert t.key r } :: fs }
  else c

/-- `context_cache/macro.rs` 59-67 `get_syntax_tree_or_else`. -/
def syntaxTree? (c : Cache) (id : CId) : Option Syn :=
  match c.frames with
  | [] => none
  | f :: _ => f.syn.get? id

/-- `context_cache/macro.rs` 69-77 `insert_syntax_tree`. -/
def insertSyntaxTree (c : Cache) (m : Mixed) (t : Syn) : Cache :=
  if m.isAnonymous then c
  else match c.frames with
    | [] => c
    | f :: fs => { c with frames := { f with syn := f.syn.insert m.id t } :: fs }

/-- `context_cache/macro.rs` 143-156 `get_inference_or_else`. -/
def inference? (c : Cache) (id : CId) : Option RR := c.infs.get? id

/-- `context_cache/macro.rs` 158-164 `insert_inference`. -/
def insertInference (c : Cache) (id : CId) (r : RR) : Cache :=
  { c with infs := c.infs.insert id r }

end Cache

end Zia

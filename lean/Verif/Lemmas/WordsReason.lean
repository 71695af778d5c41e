import Verif.Lemmas.WordsRead

/-!
# Renaming, reasons and the cache
-/

set_option linter.unusedSectionVars false

namespace Zia

open Spec HashOrder

variable (w : Words)

@[simp] theorem ren_comparison (c : CmpReason) : ren w (Reason.comparison c) = .comparison (ren w c) := rfl
@[simp] theorem ren_explicit : ren w Reason.explicit = .explicit := rfl
@[simp] theorem ren_rule (g : Syn) (m : Mask) (r : Reason) :
    ren w (Reason.rule g m r) = .rule (ren w g) (ren w m) (ren w r) := rfl
@[simp] theorem ren_inference (i : Syn) (r : Reason) :
    ren w (Reason.inference i r) = .inference (ren w i) (ren w r) := rfl
@[simp] theorem ren_partly (p : Parts) : ren w (Reason.partly p) = .partly (ren w p) := rfl
@[simp] theorem ren_existence (s : Subst) (g : Syn) :
    ren w (Reason.existence s g) = .existence (ren w s) (ren w g) := rfl
@[simp] theorem ren_recursive (s : Syn) (r f : Reason) :
    ren w (Reason.recursive s r f) = .recursive (ren w s) (ren w r) (ren w f) := rfl
@[simp] theorem ren_cannot : ren w Reason.cannotReduceToItself = .cannotReduceToItself := rfl
@[simp] theorem ren_leftToRight (r : Reason) (a b : Syn) :
    ren w (Reason.leftToRight r a b) = .leftToRight (ren w r) (ren w a) (ren w b) := rfl
@[simp] theorem ren_rightToLeft (r : Reason) (a b : Syn) :
    ren w (Reason.rightToLeft r a b) = .rightToLeft (ren w r) (ren w a) (ren w b) := rfl
@[simp] theorem ren_sameSyntax : ren w CmpReason.sameSyntax = .sameSyntax := rfl
@[simp] theorem ren_noGreaterThan : ren w CmpReason.noGreaterThan = .noGreaterThan := rfl
@[simp] theorem ren_cmp_reduction (a b : OReason) :
    ren w (CmpReason.reduction a b) = .reduction (ren w a) (ren w b) := rfl
@[simp] theorem ren_onone : ren w OReason.none = .none := rfl
@[simp] theorem ren_osome (r : Reason) : ren w (OReason.some r) = .some (ren w r) := rfl
@[simp] theorem ren_parts_nil : ren w Parts.nil = .nil := rfl
@[simp] theorem ren_parts_cons (k : Key) (s : Syn) (r : Reason) (p : Parts) :
    ren w (Parts.cons k s r p) = .cons (ren w k) (ren w s) (ren w r) (ren w p) := rfl

@[simp] theorem ren_ofOption (x : Option Reason) : OReason.ofOption (ren w x) = ren w (OReason.ofOption x) := by
  cases x <;> rfl

@[simp] theorem ren_parts_length : ∀ p : Parts, (ren w p).length = p.length
  | .nil => rfl
  | .cons k s r p => by
    rw [ren_parts_cons, Parts.length, Parts.length, ren_parts_length p]

theorem ren_parts_get? : ∀ (p : Parts) (a : Key), (ren w p).get? (ren w a) = ren w (p.get? a)
  | .nil, _ => rfl
  | .cons k s r p, a => by
    rw [ren_parts_cons, Parts.get?, Parts.get?, ren_parts_get? p]
    simp only [ren_key_inj]
    split <;> rfl

theorem ren_parts_insert : ∀ (p : Parts) (a : Key) (s : Syn) (r : Reason),
    (ren w p).insert (ren w a) (ren w s) (ren w r) = ren w (p.insert a s r)
  | .nil, _, _, _ => rfl
  | .cons k s' r' p, a, s, r => by
    rw [ren_parts_cons, Parts.insert, Parts.insert, ren_parts_insert p]
    simp only [ren_key_inj]
    split <;> rfl

theorem ren_parts_extend : ∀ (p m : Parts), Parts.extend (ren w m) (ren w p) = ren w (m.extend p)
  | .nil, _ => rfl
  | .cons k s r p, m => by
    rw [ren_parts_cons, Parts.extend, Parts.extend, ren_parts_insert, ren_parts_extend p]

theorem ren_partialReason (l : List (Key × Syn × Reason)) (acc : Parts) :
    partialReason (ren w l) (ren w acc) = ren w (partialReason l acc) := by
  induction l generalizing acc with
  | nil => rfl
  | cons p l ih =>
    obtain ⟨k, s, r⟩ := p
    cases r <;>
      simp only [ren_list_cons, ren_pair, ren_comparison, ren_explicit, ren_rule, ren_inference, ren_partly,
        ren_existence, ren_recursive, ren_cannot, ren_leftToRight, ren_rightToLeft, partialReason,
        ren_parts_extend, ih] <;>
      (rw [← ih, ← ren_parts_insert]; rfl)

theorem ren_recursiveReason (p : Option Reason) (r : Reason) (s : Syn) :
    recursiveReason (ren w p) (ren w r) (ren w s) = ren w (recursiveReason p r s) := by
  cases p <;> rfl

theorem ren_mapKeys {α : Type} [Ren α] (m : List (α × Syn)) :
    (ren w m).map (fun p => (p.1, p.2.key)) = ren w (m.map (fun p => (p.1, p.2.key))) := by
  induction m with
  | nil => rfl
  | cons p m ih =>
    obtain ⟨a, s⟩ := p
    simp only [ren_list_cons, List.map_cons, ren_pair, ih, ren_key]

theorem ren_skey_inj (a b : Syn) : ((ren w a).key = (ren w b).key) = (a.key = b.key) := by
  rw [ren_key, ren_key, ren_key_inj]

mutual

theorem ren_reason_eq : ∀ a b : Reason, (ren w a).eq (ren w b) = a.eq b
  | .comparison c, b => by
    cases b <;> simp only [ren_comparison, ren_explicit, ren_rule, ren_inference, ren_partly, ren_existence,
      ren_recursive, ren_cannot, ren_leftToRight, ren_rightToLeft, Reason.eq, ren_cmp_eq c]
  | .explicit, b => by
    cases b <;> simp only [ren_comparison, ren_explicit, ren_rule, ren_inference, ren_partly, ren_existence,
      ren_recursive, ren_cannot, ren_leftToRight, ren_rightToLeft, Reason.eq]
  | .rule g m r, b => by
    cases b <;> simp only [ren_comparison, ren_explicit, ren_rule, ren_inference, ren_partly, ren_existence,
      ren_recursive, ren_cannot, ren_leftToRight, ren_rightToLeft, Reason.eq, ren_reason_eq r, ren_skey_inj,
      ren_syntaxKeys, ren_mapEq]
  | .inference i r, b => by
    cases b <;> simp only [ren_comparison, ren_explicit, ren_rule, ren_inference, ren_partly, ren_existence,
      ren_recursive, ren_cannot, ren_leftToRight, ren_rightToLeft, Reason.eq, ren_reason_eq r, ren_eqv]
  | .partly p, b => by
    cases b <;> simp only [ren_comparison, ren_explicit, ren_rule, ren_inference, ren_partly, ren_existence,
      ren_recursive, ren_cannot, ren_leftToRight, ren_rightToLeft, Reason.eq, ren_parts_length, ren_parts_eq p]
  | .existence s g, b => by
    cases b <;> simp only [ren_comparison, ren_explicit, ren_rule, ren_inference, ren_partly, ren_existence,
      ren_recursive, ren_cannot, ren_leftToRight, ren_rightToLeft, Reason.eq, ren_skey_inj, ren_mapKeys,
      ren_mapEq]
  | .recursive s r f, b => by
    cases b <;> simp only [ren_comparison, ren_explicit, ren_rule, ren_inference, ren_partly, ren_existence,
      ren_recursive, ren_cannot, ren_leftToRight, ren_rightToLeft, Reason.eq, ren_reason_eq r, ren_reason_eq f,
      ren_skey_inj]
  | .cannotReduceToItself, b => by
    cases b <;> simp only [ren_comparison, ren_explicit, ren_rule, ren_inference, ren_partly, ren_existence,
      ren_recursive, ren_cannot, ren_leftToRight, ren_rightToLeft, Reason.eq]
  | .leftToRight _ _ _, b => by
    cases b <;> simp only [ren_comparison, ren_explicit, ren_rule, ren_inference, ren_partly, ren_existence,
      ren_recursive, ren_cannot, ren_leftToRight, ren_rightToLeft, Reason.eq]
  | .rightToLeft r x y, b => by
    cases b <;> simp only [ren_comparison, ren_explicit, ren_rule, ren_inference, ren_partly, ren_existence,
      ren_recursive, ren_cannot, ren_leftToRight, ren_rightToLeft, Reason.eq, ren_reason_eq r, ren_skey_inj]

theorem ren_cmp_eq : ∀ a b : CmpReason, (ren w a).eq (ren w b) = a.eq b
  | .sameSyntax, b => by
    cases b <;> simp only [ren_sameSyntax, ren_noGreaterThan, ren_cmp_reduction, CmpReason.eq]
  | .noGreaterThan, b => by
    cases b <;> simp only [ren_sameSyntax, ren_noGreaterThan, ren_cmp_reduction, CmpReason.eq]
  | .reduction x y, b => by
    cases b <;> simp only [ren_sameSyntax, ren_noGreaterThan, ren_cmp_reduction, CmpReason.eq,
      ren_oreason_eq x, ren_oreason_eq y]

theorem ren_oreason_eq : ∀ a b : OReason, (ren w a).eq (ren w b) = a.eq b
  | .none, b => by cases b <;> simp only [ren_onone, ren_osome, OReason.eq]
  | .some x, b => by cases b <;> simp only [ren_onone, ren_osome, OReason.eq, ren_reason_eq x]

theorem ren_parts_eq : ∀ a b : Parts, (ren w a).eq (ren w b) = a.eq b
  | .nil, b => by rw [ren_parts_nil, Parts.eq, Parts.eq]
  | .cons k s r p, b => by
    rw [ren_parts_cons, Parts.eq, Parts.eq, ren_parts_get?]
    cases b.get? k with
    | none => rfl
    | some x =>
      obtain ⟨s', r'⟩ := x
      simp only [ren_some, ren_pair, ren_skey_inj, ren_reason_eq r, ren_parts_eq p]

end

theorem ren_simplifyReasoning (a b : Option Reason) :
    RenE w (simplifyReasoning a b) (simplifyReasoning (ren w a) (ren w b)) := by
  have key1 : ∀ (r rr : OReason) (x : Option Reason) (d : CmpReason),
      RenE w (do if ← (OReason.ofOption x).eq rr then return CmpReason.reduction r rr else return d)
        (do if ← (OReason.ofOption (ren w x)).eq (ren w rr) then
              return CmpReason.reduction (ren w r) (ren w rr) else return (ren w d)) := by
    intro r rr x d
    rw [ren_ofOption, ren_oreason_eq]
    refine RenE.bind_rigid (fun b => ?_)
    split <;> rfl
  have key2 : ∀ (rev cmp : OReason) (x : Option Reason) (d : CmpReason),
      RenE w (do if ← (OReason.ofOption x).eq cmp then return CmpReason.reduction cmp rev else return d)
        (do if ← (OReason.ofOption (ren w x)).eq (ren w cmp) then
              return CmpReason.reduction (ren w cmp) (ren w rev) else return (ren w d)) := by
    intro r rr x d
    rw [ren_ofOption, ren_oreason_eq]
    refine RenE.bind_rigid (fun b => ?_)
    split <;> rfl
  rcases a with _ | (c | _ | _ | _ | _ | _ | _ | _ | _ | _)
  case some.comparison =>
    cases c with
    | reduction r rr =>
      have := key1 r rr b (.reduction (.ofOption (some (.comparison (.reduction r rr)))) (.ofOption b))
      rw [ren_cmp_reduction, ← ren_ofOption, ← ren_ofOption] at this
      exact this
    | sameSyntax => exact RenE.ok (by simp only [ren_ofOption]; rfl)
    | noGreaterThan => exact RenE.ok (by simp only [ren_ofOption]; rfl)
  all_goals
    rcases b with _ | ((_ | ⟨rev, cmp⟩ | _) | _ | _ | _ | _ | _ | _ | _ | _ | _)
    case some.comparison.reduction => exact key2 rev cmp _ (.reduction (.ofOption _) (.ofOption _))
    all_goals exact RenE.ok rfl

/-! ### The cache -/

variable {w}

@[simp] theorem ren_frames (c : Cache) : (ren w c).frames = ren w c.frames := rfl
@[simp] theorem ren_infs (c : Cache) : (ren w c).infs = ren w c.infs := rfl
@[simp] theorem ren_frame_red (f : Frame) : (ren w f).red = ren w f.red := rfl
@[simp] theorem ren_frame_syn (f : Frame) : (ren w f).syn = ren w f.syn := rfl

theorem ren_lookupIn (k : Key) (fs : List Frame) :
    Cache.lookupIn (ren w k) (ren w fs) = ren w (Cache.lookupIn k fs) := by
  induction fs with
  | nil => rfl
  | cons f fs ih =>
    simp only [ren_list_cons, Cache.lookupIn, ren_frame_red, ren_get?, ih]
    cases AMap.get? f.red k <;> rfl

@[simp] theorem ren_reduction? (c : Cache) (t : Syn) :
    (ren w c).reduction? (ren w t) = ren w (c.reduction? t) := by
  simp only [Cache.reduction?, ren_key, ren_frames, ren_lookupIn]

@[simp] theorem ren_syntaxTree? (c : Cache) (id : CId) : (ren w c).syntaxTree? id = ren w (c.syntaxTree? id) := by
  simp only [Cache.syntaxTree?, ren_frames]
  cases c.frames with
  | nil => rfl
  | cons f fs => simp

@[simp] theorem ren_inference? (c : Cache) (id : CId) : (ren w c).inference? id = ren w (c.inference? id) := by
  simp [Cache.inference?]

@[simp] theorem ren_insertReduction (c : Cache) (t : Syn) (r : RR) :
    (ren w c).insertReduction (ren w t) (ren w r) = ren w (c.insertReduction t r) := by
  obtain ⟨fs, infs⟩ := c
  have key : ∀ (p : Prop) [Decidable p],
      (if p then match (ren w (Cache.mk fs infs)).frames with
        | [] => ren w (Cache.mk fs infs)
        | f :: fs => { ren w (Cache.mk fs infs) with frames := { f with red := f.red.insert (ren w t).key (ren w r) } :: fs }
        else ren w (Cache.mk fs infs)) =
      ren w (if p then match fs with
        | [] => Cache.mk fs infs
        | f :: fs => { Cache.mk fs infs with frames := { f with red := f.red.insert t.key r } :: fs }
        else Cache.mk fs infs) := by
    intro p _
    split
    · cases fs with
      | nil => rfl
      | cons f fs => simp only [ren_frames, ren_list_cons, ren_key, ren_frame_red, ren_insert]; rfl
    · rfl
  rcases r with _ | ⟨x, y⟩
  · simp only [Cache.insertReduction, ren_none, ren_isVariable]
    exact key _
  · simp only [Cache.insertReduction, ren_some, ren_pair, ren_isVariable, ren_skey_inj, ne_eq]
    exact key _

@[simp] theorem ren_insertSyntaxTree (c : Cache) (m : Mixed) (t : Syn) :
    (ren w c).insertSyntaxTree (ren w m) (ren w t) = ren w (c.insertSyntaxTree m t) := by
  obtain ⟨fs, infs⟩ := c
  simp only [Cache.insertSyntaxTree, ren_mixed_isAnonymous]
  split
  · rfl
  · cases fs with
    | nil => rfl
    | cons f fs => simp only [ren_frames, ren_list_cons, ren_frame_syn, ren_mixed_id, ren_insert_id]; rfl

@[simp] theorem ren_insertInference (c : Cache) (id : CId) (r : RR) :
    (ren w c).insertInference id (ren w r) = ren w (c.insertInference id r) := by
  simp only [Cache.insertInference, ren_infs, ren_insert_id]; rfl

theorem ren_cache_empty : ren w Cache.empty = Cache.empty := rfl

end Zia

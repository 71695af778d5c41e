import Verif.Lemmas.Words

/-!
# Renaming what the program keeps
-/

namespace Zia

open Spec

/-- Values in which nothing is renamed. -/
class Rigid (α : Type) [Ren α] : Prop where
  eq : ∀ (w : Words) (a : α), ren w a = a

/-- Values that renaming keeps apart. -/
class RenInj (α : Type) [Ren α] : Prop where
  inj : ∀ (w : Words) (a b : α), ren w a = ren w b ↔ a = b

@[simp] theorem ren_rigid {α : Type} [Ren α] [Rigid α] (w : Words) (a : α) : ren w a = a :=
  Rigid.eq w a

instance : Rigid CId := ⟨fun _ _ => rfl⟩
instance : Rigid Nat := ⟨fun _ _ => rfl⟩
instance : Rigid Bool := ⟨fun _ _ => rfl⟩
instance : Rigid Unit := ⟨fun _ _ => rfl⟩
instance : Rigid CCT := ⟨fun _ _ => rfl⟩
instance : Rigid Assoc := ⟨fun _ _ => rfl⟩
instance : Rigid Cmp := ⟨fun _ _ => rfl⟩
instance : Rigid Kind := ⟨fun _ _ => rfl⟩
instance : Rigid Parser.Rank := ⟨fun _ _ => rfl⟩
instance : Rigid (VChange CId) := ⟨fun _ _ => rfl⟩

instance {α : Type} [Ren α] [Rigid α] : Rigid (Option α) :=
  ⟨fun w a => by cases a <;> simp [ren]⟩
instance {α β : Type} [Ren α] [Rigid α] [Ren β] [Rigid β] : Rigid (α × β) :=
  ⟨fun w a => by
    show (ren w a.1, ren w a.2) = a
    simp⟩
instance {α : Type} [Ren α] [Rigid α] : Rigid (List α) :=
  ⟨fun w a => by
    show a.map (ren w) = a
    induction a with
    | nil => rfl
    | cons x a ih => simp [ih]⟩

section

variable {α β : Type} [Ren α] [Ren β] (w : Words)

@[simp] theorem ren_none : ren w (none : Option α) = none := rfl
@[simp] theorem ren_some (a : α) : ren w (some a) = some (ren w a) := rfl
@[simp] theorem ren_pair (a : α) (b : β) : ren w (a, b) = (ren w a, ren w b) := rfl
@[simp] theorem ren_fst (p : α × β) : (ren w p).1 = ren w p.1 := rfl
@[simp] theorem ren_snd (p : α × β) : (ren w p).2 = ren w p.2 := rfl
@[simp] theorem ren_list_nil : ren w ([] : List α) = [] := rfl
@[simp] theorem ren_list_cons (a : α) (l : List α) : ren w (a :: l) = ren w a :: ren w l := rfl
theorem ren_list (l : List α) : ren w l = l.map (ren w) := rfl
@[simp] theorem ren_append (a b : List α) : ren w (a ++ b) = ren w a ++ ren w b :=
  List.map_append
@[simp] theorem ren_length (l : List α) : (ren w l).length = l.length := List.length_map _
@[simp] theorem ren_isEmpty (l : List α) : (ren w l).isEmpty = l.isEmpty := List.isEmpty_map
@[simp] theorem ren_isSome (x : Option α) : (ren w x).isSome = x.isSome := by cases x <;> rfl
@[simp] theorem ren_isNone (x : Option α) : (ren w x).isNone = x.isNone := by cases x <;> rfl
@[simp] theorem ren_getElem? (l : List α) (i : Nat) : (ren w l)[i]? = ren w l[i]? := List.getElem?_map
@[simp] theorem ren_take (l : List α) (i : Nat) : (ren w l).take i = ren w (l.take i) :=
  List.map_take.symm
@[simp] theorem ren_drop (l : List α) (i : Nat) : (ren w l).drop i = ren w (l.drop i) :=
  List.map_drop.symm
@[simp] theorem ren_set (l : List α) (i : Nat) (a : α) : (ren w l).set i (ren w a) = ren w (l.set i a) :=
  List.map_set.symm
@[simp] theorem ren_getLast? (l : List α) : (ren w l).getLast? = ren w l.getLast? := by
  show (l.map (ren w)).getLast? = _
  rw [List.getLast?_map]; rfl

end

instance : RenInj Str := ⟨fun w _ _ => ren_inj w⟩
instance {α : Type} [Ren α] [Rigid α] : RenInj α := ⟨fun w a b => by simp⟩
instance {α : Type} [Ren α] [RenInj α] : RenInj (Option α) :=
  ⟨fun w a b => by cases a <;> cases b <;> simp [RenInj.inj]⟩

section

variable {α β : Type} [Ren α] [Ren β] [DecidableEq α] [RenInj α] (w : Words)

theorem ren_mem {l : List α} {a : α} : ren w a ∈ ren w l ↔ a ∈ l := by
  show ren w a ∈ l.map (ren w) ↔ _
  rw [List.mem_map]
  constructor
  · rintro ⟨b, hb, e⟩
    rw [RenInj.inj] at e
    exact e ▸ hb
  · exact fun h => ⟨a, h, rfl⟩

theorem ren_lcontains (l : List α) (a : α) : (ren w l).contains (ren w a) = l.contains a := by
  rw [Bool.eq_iff_iff, List.contains_iff_mem, List.contains_iff_mem, ren_mem]

theorem ren_setInsert (l : List α) (a : α) :
    setInsert (ren w l) (ren w a) = ren w (setInsert l a) := by
  unfold setInsert
  simp only [ren_mem]
  split
  · rfl
  · simp

theorem ren_setExtend (l t : List α) : setExtend (ren w l) (ren w t) = ren w (setExtend l t) := by
  unfold setExtend
  induction t generalizing l with
  | nil => rfl
  | cons a t ih => simp only [ren_list_cons, List.foldl_cons, ren_setInsert, ih]

theorem ren_get? (m : AMap α β) (k : α) : AMap.get? (ren w m) (ren w k) = ren w (AMap.get? m k) := by
  induction m with
  | nil => rfl
  | cons p m ih =>
    obtain ⟨a, b⟩ := p
    simp only [ren_list_cons, ren_pair, AMap.get?, RenInj.inj, ih]
    split <;> rfl

theorem ren_insert (m : AMap α β) (k : α) (v : β) :
    AMap.insert (ren w m) (ren w k) (ren w v) = ren w (AMap.insert m k v) := by
  induction m with
  | nil => rfl
  | cons p m ih =>
    obtain ⟨a, b⟩ := p
    simp only [ren_list_cons, ren_pair, AMap.insert, RenInj.inj, ih]
    split <;> rfl

theorem ren_erase (m : AMap α β) (k : α) :
    AMap.erase (ren w m) (ren w k) = ren w (AMap.erase m k) := by
  induction m with
  | nil => rfl
  | cons p m ih =>
    obtain ⟨a, b⟩ := p
    simp only [ren_list_cons, ren_pair, AMap.erase, RenInj.inj, ih]
    split <;> rfl

end

section

variable {β : Type} [Ren β] (w : Words)

@[simp] theorem ren_get?_id (m : AMap CId β) (k : CId) :
    AMap.get? (ren w m) k = ren w (AMap.get? m k) := ren_get? w m k

@[simp] theorem ren_insert_id (m : AMap CId β) (k : CId) (v : β) :
    AMap.insert (ren w m) k (ren w v) = ren w (AMap.insert m k v) := ren_insert w m k v

@[simp] theorem ren_filter {α : Type} [Ren α] (p p' : α → Bool) (h : ∀ a, p' (ren w a) = p a)
    (l : List α) : (ren w l).filter p' = ren w (l.filter p) := by
  show (l.map (ren w)).filter p' = _
  rw [List.filter_map]
  congr 1
  exact List.filter_congr (fun a _ => h a)

end

/-! ### Syntax trees -/

section

variable (w : Words)

@[simp] theorem ren_key_syn (k : Key) : (ren w k).syn = ren w k.syn := rfl
@[simp] theorem ren_key_concept (k : Key) : (ren w k).concept = k.concept := rfl

instance : RenInj Key := ⟨fun w a b => by
  obtain ⟨s, c⟩ := a
  obtain ⟨s', c'⟩ := b
  show Key.mk (ren w s) c = Key.mk (ren w s') c' ↔ _
  simp only [Key.mk.injEq, RenInj.inj]⟩

@[simp] theorem ren_leaf (s : Option Str) (c : Option CId) (l : SLeaf) :
    ren w (Syn.leaf s c l) = .leaf (ren w s) c l := rfl

@[simp] theorem ren_branch (s : Option Str) (c : Option CId) (l r : Syn) (f b : List Key) :
    ren w (Syn.branch s c l r f b) = .branch (ren w s) c (ren w l) (ren w r) (ren w f) (ren w b) := rfl

@[simp] theorem ren_syntx (t : Syn) : (ren w t).syntx = ren w t.syntx := by cases t <;> rfl
@[simp] theorem ren_concept (t : Syn) : (ren w t).concept = t.concept := by cases t <;> rfl
@[simp] theorem ren_key (t : Syn) : (ren w t).key = ren w t.key := by cases t <;> rfl
@[simp] theorem ren_isVariable (t : Syn) : (ren w t).isVariable = t.isVariable := by
  cases t with
  | leaf s c l => cases l <;> rfl
  | branch s c l r f b => simp [Syn.isVariable]
@[simp] theorem ren_isLeafVariable (t : Syn) : (ren w t).isLeafVariable = t.isLeafVariable := by
  cases t with
  | leaf s c l => cases l <;> rfl
  | branch s c l r f b => rfl
@[simp] theorem ren_expansion (t : Syn) : (ren w t).expansion = ren w t.expansion := by
  cases t <;> rfl
@[simp] theorem ren_bindConcept (t : Syn) (c : CId) :
    (ren w t).bindConcept c = ren w (t.bindConcept c) := by cases t <;> rfl

theorem ren_key_inj {a b : Key} : ren w a = ren w b ↔ a = b := RenInj.inj w a b

theorem ren_nodeEq (a b : Syn) : Syn.nodeEq (ren w a) (ren w b) = Syn.nodeEq a b := by
  cases a <;> cases b
  · rfl
  · rfl
  · rfl
  · simp only [ren_branch, Syn.nodeEq, ren_key]
    congr 1 <;> rw [Bool.eq_iff_iff, beq_iff_eq, beq_iff_eq, ren_key_inj]

theorem ren_eqv (a b : Syn) : Syn.eqv (ren w a) (ren w b) = Syn.eqv a b := by
  simp only [Syn.eqv, ren_syntx, ren_concept, ren_nodeEq]
  cases a.syntx with
  | none => rfl
  | some s =>
    cases b.syntx with
    | none => rfl
    | some s' =>
      show (ren w s == ren w s') = (s == s')
      rw [Bool.eq_iff_iff, beq_iff_eq, beq_iff_eq, ren_inj]

theorem ren_ofStr (s : Str) : Syn.ofStr (ren w s) = ren w (Syn.ofStr s) := by
  simp only [Syn.ofStr, ren_isVariableName]
  rfl

theorem ren_pairVars (l r : Syn) : Syn.pairVars (ren w l) (ren w r) = ren w (Syn.pairVars l r) := by
  have hf : ∀ (xs ys : List Key), (ren w xs).filter (fun v => !(ren w ys).contains v) =
      ren w (xs.filter (fun v => !ys.contains v)) := fun xs ys =>
    ren_filter w _ _ (fun a => by rw [ren_lcontains]) xs
  have h0 : ∀ t : List Key, setExtend [] (ren w t) = ren w (setExtend [] t) :=
    fun t => ren_setExtend w [] t
  have h1 : ∀ (s : Option Str) (c : Option CId),
      setInsert [] (Key.mk (ren w s) c) = ren w (setInsert [] (Key.mk s c)) := fun _ _ => rfl
  cases r with
  | leaf s c k =>
    cases l with
    | leaf s' c' k' =>
      cases k <;> cases k' <;> simp [Syn.pairVars, Syn.key, Syn.syntx, Syn.concept] <;>
        first
        | rfl
        | exact ren_setInsert w [Key.mk s c] (Key.mk s' c')
    | branch s' c' l' r' f b =>
      cases k <;> simp only [Syn.pairVars, ren_leaf, ren_branch, ren_pair, ← ren_setExtend, ← hf] <;> rfl
  | branch s c l' r' f b =>
    cases l with
    | leaf s' c' k' =>
      cases k' <;> simp only [Syn.pairVars, ren_leaf, ren_branch, ren_pair, ← ren_setExtend,
        ← ren_setInsert, Bool.false_eq_true, if_false] <;> rfl
    | branch s' c' l'' r'' f' b' =>
      simp only [Syn.pairVars, ren_branch, ren_pair, ← ren_setExtend, ← hf]
      rfl

theorem ren_newPair (l r : Syn) : Syn.newPair (ren w l) (ren w r) = ren w (Syn.newPair l r) := by
  simp only [Syn.newPair, ren_pairVars]; rfl

theorem ren_bindPair (t l r : Syn) :
    Syn.bindPair (ren w t) (ren w l) (ren w r) = ren w (Syn.bindPair t l r) := by
  simp only [Syn.bindPair, ren_pairVars, ren_syntx, ren_concept]; rfl

theorem ren_contains_syn (t o : Syn) : Syn.contains (ren w t) (ren w o) = Syn.contains t o := by
  have hk : ∀ a b : Syn, ((ren w a).key == (ren w b).key) = (a.key == b.key) := by
    intro a b
    rw [Bool.eq_iff_iff, beq_iff_eq, beq_iff_eq, ren_key, ren_key, ren_key_inj]
  induction t with
  | leaf => rfl
  | branch s c l r f b ihl ihr => simp only [ren_branch, Syn.contains, hk, ihl, ihr]

theorem ren_substitute (σ : Subst) (t : Syn) :
    substitute (ren w σ) (ren w t) = ren w (substitute σ t) := by
  induction t with
  | leaf s c l =>
    simp only [ren_leaf, substitute]
    have := ren_get? w σ (Syn.leaf s c l).key
    have e : (Syn.leaf (ren w s) c l).key = ren w (Syn.leaf s c l).key := rfl
    rw [e, this]
    cases AMap.get? σ (Syn.leaf s c l).key <;> rfl
  | branch s c l r f b ihl ihr =>
    simp only [ren_branch, substitute]
    have := ren_get? w σ (Syn.branch s c l r f b).key
    have e : (Syn.branch (ren w s) c (ren w l) (ren w r) (ren w f) (ren w b)).key =
      ren w (Syn.branch s c l r f b).key := rfl
    rw [e, this]
    cases AMap.get? σ (Syn.branch s c l r f b).key
    · simp only [ren_none, ihl, ihr]; rfl
    · rfl

theorem ren_mergeInto {α : Type} [Ren α] [DecidableEq α] [RenInj α] (a : AMap α Syn)
    (b : List (α × Syn)) : mergeInto (ren w a) (ren w b) = ren w (mergeInto a b) := by
  induction b generalizing a with
  | nil => rfl
  | cons p b ih =>
    obtain ⟨k, v⟩ := p
    simp only [ren_list_cons, ren_pair, mergeInto, ren_get?, ren_insert]
    cases AMap.get? a k with
    | none => exact ih _
    | some e =>
      simp only [ren_some, ren_key, ne_eq, ren_key_inj, ih]
      split <;> rfl

theorem ren_consistentMerge {α : Type} [Ren α] [DecidableEq α] [RenInj α] (a b : AMap α Syn) :
    consistentMerge (ren w a) (ren w b) = ren w (consistentMerge a b) := by
  simp only [consistentMerge, ren_length, ren_mergeInto]
  split <;> rfl

@[simp] theorem ren_gen (x : ExSubst) : (ren w x).gen = ren w x.gen := rfl
@[simp] theorem ren_exam (x : ExSubst) : (ren w x).exam = ren w x.exam := rfl

theorem ren_merge (a b : ExSubst) : ExSubst.merge (ren w a) (ren w b) = ren w (ExSubst.merge a b) := by
  simp only [ExSubst.merge, ren_gen, ren_exam, ren_consistentMerge]
  cases consistentMerge a.gen b.gen <;> cases consistentMerge a.exam b.exam <;> rfl

theorem ren_checkLeaves (e g : Syn) : checkLeaves (ren w e) (ren w g) = ren w (checkLeaves e g) := by
  simp only [checkLeaves, ren_isVariable, ren_concept, ren_key, ren_key_inj]
  split
  · rfl
  · split <;> first | rfl | (split <;> rfl)

theorem ren_checkExample (e g : Syn) : checkExample (ren w e) (ren w g) = ren w (checkExample e g) := by
  induction e generalizing g with
  | leaf s c l =>
    cases g with
    | leaf s' c' l' => exact ren_checkLeaves w (.leaf s c l) (.leaf s' c' l')
    | branch => rfl
  | branch s c l r f b ihl ihr =>
    cases g with
    | leaf s' c' l' =>
      simp only [ren_branch, ren_leaf, checkExample]
      have := ren_isVariable w (.leaf s' c' l')
      rw [ren_leaf] at this
      rw [this]
      split <;> rfl
    | branch s' c' l' r' f' b' =>
      simp only [ren_branch, checkExample, ihl, ihr]
      cases checkExample l l' with
      | none => rfl
      | some a =>
        cases checkExample r r' with
        | none => rfl
        | some a' => exact ren_merge w a a'

theorem ren_syntaxKeys (m : Mask) : syntaxKeys (ren w m) = ren w (syntaxKeys m) := by
  induction m with
  | nil => rfl
  | cons p m ih =>
    have : syntaxKeys (p :: m) = (p.1, p.2.key) :: syntaxKeys m := rfl
    rw [this, ren_list_cons, ren_list_cons, ← ih]
    show (p.1, (ren w p.2).key) :: _ = _
    rw [ren_key]; rfl

theorem ren_mapEq {α β : Type} [Ren α] [Ren β] [DecidableEq α] [DecidableEq β] [RenInj α] [RenInj β]
    (a b : AMap α β) : mapEq (ren w a) (ren w b) = mapEq a b := by
  simp only [mapEq, ren_length]
  congr 1
  show (a.map (ren w)).all _ = _
  rw [List.all_map]
  congr 1
  funext p
  have e : (some (ren w p.2) : Option β) = ren w (some p.2) := rfl
  simp only [Function.comp, ren_fst, ren_snd, ren_get?]
  rw [e, Bool.eq_iff_iff, beq_iff_eq, beq_iff_eq, RenInj.inj]

theorem ren_masks_contains (l : MaskList) (m : Mask) :
    MaskList.contains (ren w l) (ren w m) = MaskList.contains l m := by
  induction l with
  | one h =>
    show mapEq (syntaxKeys (ren w h)) (syntaxKeys (ren w m)) = _
    rw [ren_syntaxKeys, ren_syntaxKeys, ren_mapEq]; rfl
  | cons h t ih =>
    show (mapEq (syntaxKeys (ren w h)) (syntaxKeys (ren w m)) || MaskList.contains (ren w t) (ren w m)) = _
    rw [ren_syntaxKeys, ren_syntaxKeys, ren_mapEq, ih]; rfl

theorem ren_masks_push (l : MaskList) (m : Mask) :
    MaskList.push (ren w l) (ren w m) = ren w (MaskList.push l m) := by
  simp only [MaskList.push, ren_masks_contains]
  split <;> rfl

@[simp] theorem ren_masks_get (l : MaskList) (c : CId) :
    MaskList.get (ren w l) c = ren w (MaskList.get l c) := by
  induction l with
  | one h =>
    show AMap.get? (ren w h) c = _
    rw [ren_get?_id]; rfl
  | cons h t ih =>
    show (match AMap.get? (ren w h) c with | some s => some s | none => MaskList.get (ren w t) c) = _
    rw [ren_get?_id, ih]
    simp only [MaskList.get]
    cases AMap.get? h c <;> rfl

@[simp] theorem ren_masks_tail (l : MaskList) : MaskList.tail? (ren w l) = ren w (MaskList.tail? l) := by
  cases l <;> rfl

theorem ren_displayJointLeft (a : Assoc) (x y : Str) :
    a.displayJointLeft (ren w x) (ren w y) = ren w (a.displayJointLeft x y) := by
  cases a with
  | left => exact (ren_append_sep w sep_space x y).symm
  | right =>
    show '(' :: ren w x ++ ' ' :: ren w y ++ [')'] = ren w ('(' :: x ++ ' ' :: y ++ [')'])
    rw [ren_snoc_sep w (by decide), List.cons_append, List.cons_append (a := '(') (as := x),
      ren_cons_sep w (by decide), ren_append_sep w sep_space, List.cons_append]

theorem ren_displayJointRight (a : Assoc) (x y : Str) :
    a.displayJointRight (ren w x) (ren w y) = ren w (a.displayJointRight x y) := by
  cases a with
  | right => exact (ren_append_sep w sep_space x y).symm
  | left =>
    show '(' :: ren w x ++ ' ' :: ren w y ++ [')'] = ren w ('(' :: x ++ ' ' :: y ++ [')'])
    rw [ren_snoc_sep w (by decide), List.cons_append, List.cons_append (a := '(') (as := x),
      ren_cons_sep w (by decide), ren_append_sep w sep_space, List.cons_append]

theorem ren_quoted {q : Char} (hq : isSep q = true) (s : Str) :
    q :: ren w s ++ [q] = ren w (q :: s ++ [q]) := by
  rw [ren_snoc_sep w hq, ren_cons_sep w hq]

end

end Zia

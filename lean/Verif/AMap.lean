/-!
# Hash maps as association lists

Rust `HashMap`, `HashSet` and `BiMap` are modelled by lists without repeated keys, in insertion
order. Iteration order of the Rust types is unspecified; the model uses insertion order.
-/

namespace Zia

abbrev AMap (α β : Type) := List (α × β)

namespace AMap

variable {α β : Type} [DecidableEq α]

/-- `HashMap::get`. -/
def get? : AMap α β → α → Option β
  | [], _ => none
  | (k, v) :: m, a => if k = a then some v else get? m a

/-- `HashMap::insert`: overwrite in place or add at the end. -/
def insert : AMap α β → α → β → AMap α β
  | [], a, b => [(a, b)]
  | (k, v) :: m, a, b => if k = a then (a, b) :: m else (k, v) :: insert m a b

/-- `HashMap::remove` (the map that remains). -/
def erase : AMap α β → α → AMap α β
  | [], _ => []
  | (k, v) :: m, a => if k = a then erase m a else (k, v) :: erase m a

/-- No key is stored twice. -/
def WF (m : AMap α β) : Prop := (m.map Prod.fst).Nodup

@[simp] theorem get?_nil (a : α) : get? ([] : AMap α β) a = none := rfl

theorem get?_cons (k : α) (v : β) (m : AMap α β) (a : α) :
    get? ((k, v) :: m) a = if k = a then some v else get? m a := rfl

theorem get?_insert (m : AMap α β) (a : α) (b : β) (a' : α) :
    get? (insert m a b) a' = if a = a' then some b else get? m a' := by
  induction m with
  | nil => rfl
  | cons p m ih =>
    obtain ⟨k, v⟩ := p
    by_cases h : k = a
    · subst h
      simp only [insert, if_true, get?_cons]
      by_cases h' : k = a' <;> simp [h']
    · simp only [insert, h, if_false, get?_cons, ih]
      by_cases h' : k = a'
      · subst h'
        have : ¬ a = k := fun e => h e.symm
        simp [this]
      · simp [h']

theorem get?_erase (m : AMap α β) (a a' : α) :
    get? (erase m a) a' = if a = a' then none else get? m a' := by
  induction m with
  | nil => simp [erase]
  | cons p m ih =>
    obtain ⟨k, v⟩ := p
    by_cases h : k = a
    · subst h
      simp only [erase, if_true, ih, get?_cons]
      by_cases h' : k = a' <;> simp [h']
    · simp only [erase, h, if_false, get?_cons, ih]
      by_cases h' : k = a'
      · subst h'
        have : ¬ a = k := fun e => h e.symm
        simp [this]
      · simp [h']

theorem get?_eq_none_iff (m : AMap α β) (a : α) : get? m a = none ↔ a ∉ m.map Prod.fst := by
  induction m with
  | nil => simp
  | cons p m ih =>
    obtain ⟨k, v⟩ := p
    by_cases h : k = a
    · subst h; simp [get?_cons]
    · have : ¬ a = k := fun e => h e.symm
      simp [get?_cons, h, ih, this]

theorem mem_of_get? (m : AMap α β) (a : α) (b : β) (h : get? m a = some b) : (a, b) ∈ m := by
  induction m with
  | nil => simp at h
  | cons p m ih =>
    obtain ⟨k, v⟩ := p
    rw [get?_cons] at h
    split at h
    · next hk => subst hk; simp at h; simp [h]
    · simp [ih h]

theorem get?_of_mem (m : AMap α β) (h : WF m) (a : α) (b : β) (hm : (a, b) ∈ m) :
    get? m a = some b := by
  induction m with
  | nil => simp at hm
  | cons p m ih =>
    obtain ⟨k, v⟩ := p
    simp only [WF, List.map_cons, List.nodup_cons] at h
    rcases List.mem_cons.1 hm with e | e
    · cases e; simp [get?_cons]
    · have : k ≠ a := by
        rintro rfl
        exact h.1 (List.mem_map.2 ⟨_, e, rfl⟩)
      rw [get?_cons, if_neg this]
      exact ih h.2 e

theorem fst_insert (m : AMap α β) (a : α) (b : β) :
    (insert m a b).map Prod.fst =
      if a ∈ m.map Prod.fst then m.map Prod.fst else m.map Prod.fst ++ [a] := by
  induction m with
  | nil => simp [insert]
  | cons p m ih =>
    obtain ⟨k, v⟩ := p
    by_cases h : k = a
    · subst h; simp [insert]
    · have h' : ¬ a = k := fun e => h e.symm
      simp only [insert, h, if_false, List.map_cons, ih, List.mem_cons, h', false_or]
      split <;> simp

theorem WF.insert {m : AMap α β} (h : WF m) (a : α) (b : β) : WF (insert m a b) := by
  unfold WF at h ⊢
  rw [fst_insert]
  split
  · exact h
  · next hn =>
    rw [List.nodup_append]
    refine ⟨h, by simp, ?_⟩
    intro x hx y hy e
    simp only [List.mem_singleton] at hy
    subst hy; subst e; exact hn hx

theorem erase_sublist (m : AMap α β) (a : α) : (erase m a).Sublist m := by
  induction m with
  | nil => simp [erase]
  | cons p m ih =>
    obtain ⟨k, v⟩ := p
    by_cases h : k = a
    · simp only [erase, h, if_true]; exact ih.trans (List.sublist_cons_self _ _)
    · simp only [erase, h, if_false]; exact ih.cons_cons _

theorem WF.erase {m : AMap α β} (h : WF m) (a : α) : WF (erase m a) :=
  List.Nodup.sublist ((erase_sublist m a).map _) h

omit [DecidableEq α] in
theorem WF.nil : WF ([] : AMap α β) := List.nodup_nil

end AMap

/-- `HashSet::insert`. -/
def setInsert {α : Type} [DecidableEq α] (s : List α) (a : α) : List α :=
  if a ∈ s then s else s ++ [a]

/-- `HashSet::extend`. -/
def setExtend {α : Type} [DecidableEq α] (s t : List α) : List α := t.foldl setInsert s

theorem mem_setInsert {α : Type} [DecidableEq α] (s : List α) (a x : α) :
    x ∈ setInsert s a ↔ x ∈ s ∨ x = a := by
  unfold setInsert
  split
  · next h => exact ⟨Or.inl, fun h' => h'.elim id (fun e => e ▸ h)⟩
  · simp

theorem mem_setExtend {α : Type} [DecidableEq α] (s t : List α) (x : α) :
    x ∈ setExtend s t ↔ x ∈ s ∨ x ∈ t := by
  unfold setExtend
  induction t generalizing s with
  | nil => simp
  | cons a t ih => simp only [List.foldl_cons, ih, mem_setInsert, List.mem_cons, or_assoc]

end Zia

import Verif.Spec.Syntax
import Mathlib.Data.List.Perm.Subperm
import Mathlib.Data.List.Perm.Basic
import Mathlib.Tactic.Tauto

/-! # Helper lemmas about syntax trees -/

namespace Zia

open Zia.Spec

theorem key_eq_iff (s t : Syn) : s.key = t.key ↔ Alike s t := by
  simp [Syn.key, Alike]

@[simp] theorem at?_nil (t : Syn) : at? t [] = some t := by cases t <;> rfl

theorem sub_refl (t : Syn) : Sub t t := ⟨[], by simp⟩

theorem at?_append (t : Syn) (p q : Path) :
    at? t (p ++ q) = (at? t p).bind (fun s => at? s q) := by
  induction p generalizing t with
  | nil => simp
  | cons b p ih =>
    cases t with
    | leaf => simp [at?]
    | branch s c l r f bb => cases b <;> simp [at?, ih]

theorem sub_trans {a b c : Syn} (h : Sub a b) (h' : Sub b c) : Sub a c := by
  obtain ⟨p, hp⟩ := h
  obtain ⟨q, hq⟩ := h'
  exact ⟨q ++ p, by rw [at?_append, hq]; simpa using hp⟩

theorem sub_branch {s : Syn} {sy c l r f b} (h : Sub s (.branch sy c l r f b)) :
    s = .branch sy c l r f b ∨ Sub s l ∨ Sub s r := by
  obtain ⟨p, hp⟩ := h
  match p with
  | [] => left; simpa using hp.symm
  | false :: p => right; left; exact ⟨p, hp⟩
  | true :: p => right; right; exact ⟨p, hp⟩

theorem sub_left {s : Syn} {sy c l r f b} (h : Sub s l) : Sub s (.branch sy c l r f b) := by
  obtain ⟨p, hp⟩ := h; exact ⟨false :: p, hp⟩

theorem sub_right {s : Syn} {sy c l r f b} (h : Sub s r) : Sub s (.branch sy c l r f b) := by
  obtain ⟨p, hp⟩ := h; exact ⟨true :: p, hp⟩

theorem sub_leaf {s : Syn} {sy c l} (h : Sub s (.leaf sy c l)) : s = .leaf sy c l := by
  obtain ⟨p, hp⟩ := h
  match p with
  | [] => simpa using hp.symm
  | _ :: _ => simp [at?] at hp

theorem properSub_branch {s : Syn} {sy c l r f b} :
    ProperSub s (.branch sy c l r f b) ↔ Sub s l ∨ Sub s r := by
  constructor
  · rintro ⟨p, hne, hp⟩
    match p with
    | [] => exact absurd rfl hne
    | false :: p => left; exact ⟨p, hp⟩
    | true :: p => right; exact ⟨p, hp⟩
  · rintro (⟨p, hp⟩ | ⟨p, hp⟩)
    · exact ⟨false :: p, by simp, hp⟩
    · exact ⟨true :: p, by simp, hp⟩

theorem properSub_leaf {s : Syn} {sy c l} : ¬ ProperSub s (.leaf sy c l) := by
  rintro ⟨p, hne, hp⟩
  match p with
  | [] => exact hne rfl
  | _ :: _ => simp [at?] at hp

theorem contains_iff (t o : Syn) : t.contains o = true ↔ ∃ s, ProperSub s t ∧ s.key = o.key := by
  induction t with
  | leaf s c l =>
    simp only [Syn.contains, Bool.false_eq_true, false_iff]
    rintro ⟨s, h, _⟩; exact properSub_leaf h
  | branch s c l r f b ihl ihr =>
    simp only [Syn.contains, Bool.or_eq_true, ihl, ihr, beq_iff_eq]
    have key : ∀ t : Syn, (∃ s, Sub s t ∧ s.key = o.key) ↔
        (o.key = t.key ∨ ∃ s, ProperSub s t ∧ s.key = o.key) := by
      intro t
      constructor
      · rintro ⟨s, ⟨p, hp⟩, hk⟩
        by_cases hn : p = []
        · subst hn; left; simp at hp; rw [hp, hk]
        · right; exact ⟨s, ⟨p, hn, hp⟩, hk⟩
      · rintro (h | ⟨s, ⟨p, _, hp⟩, hk⟩)
        · exact ⟨t, sub_refl t, h.symm⟩
        · exact ⟨s, ⟨p, hp⟩, hk⟩
    constructor
    · rintro (((h | h) | h) | h)
      · exact ⟨l, properSub_branch.2 (Or.inl (sub_refl l)), h.symm⟩
      · exact ⟨r, properSub_branch.2 (Or.inr (sub_refl r)), h.symm⟩
      · obtain ⟨s, h1, h2⟩ := (key l).2 (Or.inr h)
        exact ⟨s, properSub_branch.2 (Or.inl h1), h2⟩
      · obtain ⟨s, h1, h2⟩ := (key r).2 (Or.inr h)
        exact ⟨s, properSub_branch.2 (Or.inr h1), h2⟩
    · rintro ⟨s, h1, h2⟩
      rcases properSub_branch.1 h1 with h | h
      · rcases (key l).1 ⟨s, h, h2⟩ with h | h
        · exact Or.inl (Or.inl (Or.inl h))
        · exact Or.inl (Or.inr h)
      · rcases (key r).1 ⟨s, h, h2⟩ with h | h
        · exact Or.inl (Or.inl (Or.inr h))
        · exact Or.inr h

/-! ## Stored variable sets -/

/-- The stored sets of every branch are the computed ones. -/
def VarsOk : Syn → Prop
  | .leaf .. => True
  | .branch _ _ l r f b => VarsOk l ∧ VarsOk r ∧ f = (Syn.pairVars l r).1 ∧ b = (Syn.pairVars l r).2

theorem built_varsOk {t : Syn} (h : Built t) : VarsOk t := by
  induction h with
  | leaf => trivial
  | pair _ _ h1 h2 => exact ⟨h1, h2, rfl, rfl⟩
  | expand _ _ _ _ h1 h2 => exact ⟨h1, h2, rfl, rfl⟩
  | @bind t c _ h => cases t <;> exact h

/-- The free variables as used by `pairVars`: a leaf variable counts as itself. -/
def fvOf : Syn → List Key
  | .branch _ _ _ _ f _ => f
  | .leaf s c .variable => [⟨s, c⟩]
  | .leaf .. => []

def bvOf : Syn → List Key
  | .branch _ _ _ _ _ b => b
  | .leaf .. => []

theorem mem_pairVars (l r : Syn) (k : Key) :
    (k ∈ (Syn.pairVars l r).1 ↔
      (k ∈ fvOf l ∧ ¬ (IsVariable l ∧ IsQuantifier r)) ∨ (k ∈ fvOf r ∧ ¬ k ∈ bvOf l)) ∧
    (k ∈ (Syn.pairVars l r).2 ↔
      (IsVariable l ∧ IsQuantifier r ∧ k = l.key) ∨ k ∈ bvOf l ∨
        (k ∈ bvOf r ∧ ¬ (IsBranch l ∧ k ∈ fvOf l))) := by
  rcases l with ⟨s, c, lt⟩ | ⟨s, c, ll, lr, f, b⟩ <;> rcases r with ⟨s', c', rt⟩ | ⟨s', c', rl, rr, f', b'⟩
  · cases lt <;> cases rt <;>
      simp [Syn.pairVars, fvOf, bvOf, IsVariable, IsQuantifier, IsBranch, mem_setInsert, Syn.key,
        Syn.syntx, Syn.concept, or_comm]
  · cases lt <;>
      simp [Syn.pairVars, fvOf, bvOf, IsVariable, IsQuantifier, IsBranch, mem_setInsert,
        mem_setExtend, Syn.key, Syn.syntx, Syn.concept, or_comm]
  · cases rt <;>
      simp [Syn.pairVars, fvOf, bvOf, IsVariable, IsQuantifier, IsBranch, mem_setInsert,
        mem_setExtend, Syn.key, Syn.syntx, Syn.concept, or_comm]
  · simp [Syn.pairVars, fvOf, bvOf, IsVariable, IsQuantifier, IsBranch, mem_setExtend, or_comm]

theorem vars_correct_aux (t : Syn) (h : VarsOk t) (k : Key) :
    (k ∈ fvOf t ↔ Free t k) ∧ (k ∈ bvOf t ↔ Binds t k) := by
  induction t with
  | leaf s c l => cases l <;> simp [fvOf, bvOf, Free, Binds]
  | branch s c l r f b ihl ihr =>
    obtain ⟨h1, h2, h3, h4⟩ := h
    have hl := ihl h1
    have hr := ihr h2
    have hp := mem_pairVars l r k
    rw [hl.1, hl.2, hr.1, hr.2] at hp
    simp only [Free, Binds]
    subst h3; subst h4
    exact hp

theorem no_vars_of_none (t : Syn) (h : VarsOk t) :
    (∃ k, Free t k ∨ Binds t k) ↔ ∃ s, Sub s t ∧ IsVariable s := by
  induction t with
  | leaf s c l =>
    cases l with
    | «variable» =>
      exact ⟨fun _ => ⟨_, sub_refl _, trivial⟩, fun _ => ⟨⟨s, c⟩, Or.inl (by simp [Free])⟩⟩
    | constant =>
      constructor
      · rintro ⟨k, h | h⟩ <;> simp [Free, Binds] at h
      · rintro ⟨u, hu, hv⟩; rw [sub_leaf hu] at hv; simp [IsVariable] at hv
    | quantifier =>
      constructor
      · rintro ⟨k, h | h⟩ <;> simp [Free, Binds] at h
      · rintro ⟨u, hu, hv⟩; rw [sub_leaf hu] at hv; simp [IsVariable] at hv
  | branch s c l r f b ihl ihr =>
    obtain ⟨h1, h2, _, _⟩ := h
    have hl := ihl h1
    have hr := ihr h2
    constructor
    · rintro ⟨k, hk⟩
      have : (∃ k, Free l k ∨ Binds l k) ∨ (∃ k, Free r k ∨ Binds r k) := by
        simp only [Free, Binds] at hk
        rcases hk with (⟨h, _⟩ | ⟨h, _⟩) | (⟨hv, _, hk⟩ | h | ⟨h, _⟩)
        · exact Or.inl ⟨k, Or.inl h⟩
        · exact Or.inr ⟨k, Or.inl h⟩
        · left
          rcases l with ⟨s', c', lt⟩ | _
          · cases lt <;> simp [IsVariable] at hv
            exact ⟨⟨s', c'⟩, Or.inl (by simp [Free])⟩
          · simp [IsVariable] at hv
        · exact Or.inl ⟨k, Or.inr h⟩
        · exact Or.inr ⟨k, Or.inr h⟩
      rcases this with h | h
      · obtain ⟨u, hu, hv⟩ := hl.1 h; exact ⟨u, sub_left hu, hv⟩
      · obtain ⟨u, hu, hv⟩ := hr.1 h; exact ⟨u, sub_right hu, hv⟩
    · rintro ⟨u, hu, hv⟩
      rcases sub_branch hu with rfl | hu | hu
      · simp [IsVariable] at hv
      · obtain ⟨k, hk⟩ := hl.2 ⟨u, hu, hv⟩
        refine ⟨k, ?_⟩
        simp only [Free, Binds]
        rcases hk with hk | hk
        · by_cases hq : IsVariable l ∧ IsQuantifier r
          · right; left
            refine ⟨hq.1, hq.2, ?_⟩
            rcases l with ⟨s', c', lt⟩ | _
            · cases lt <;> simp [IsVariable] at hq
              simpa [Free, Syn.key, Syn.syntx, Syn.concept] using hk
            · simp [IsVariable] at hq
          · left; left; exact ⟨hk, hq⟩
        · right; right; left; exact hk
      · obtain ⟨k, hk⟩ := hr.2 ⟨u, hu, hv⟩
        refine ⟨k, ?_⟩
        simp only [Free, Binds]
        rcases hk with hk | hk
        · by_cases hb : Binds l k
          · right; right; left; exact hb
          · left; right; exact ⟨hk, hb⟩
        · by_cases hf : IsBranch l ∧ Free l k
          · left; left
            refine ⟨hf.2, fun hq => ?_⟩
            rcases l with _ | _
            · simp [IsBranch] at hf
            · simp [IsVariable] at hq
          · right; right; right; exact ⟨hk, hf⟩

theorem isVariable_iff_nonempty (t : Syn) :
    t.isVariable = true ↔ ∃ k, k ∈ fvOf t ∨ k ∈ bvOf t := by
  cases t with
  | leaf s c l => cases l <;> simp [Syn.isVariable, fvOf, bvOf]
  | branch s c l r f b =>
    simp only [Syn.isVariable, fvOf, bvOf, Bool.or_eq_true, Bool.not_eq_true', List.isEmpty_eq_false_iff]
    constructor
    · rintro (h | h)
      · obtain ⟨x, hx⟩ := List.exists_mem_of_ne_nil _ h; exact ⟨x, Or.inl hx⟩
      · obtain ⟨x, hx⟩ := List.exists_mem_of_ne_nil _ h; exact ⟨x, Or.inr hx⟩
    · rintro ⟨x, hx | hx⟩
      · exact Or.inl (List.ne_nil_of_mem hx)
      · exact Or.inr (List.ne_nil_of_mem hx)

/-! ## Substitution -/

theorem substitute_hit (σ : Subst) (t v : Syn) (h : σ.get? t.key = some v) :
    substitute σ t = v := by
  cases t <;> simp [substitute, h]

theorem substitute_miss_leaf (σ : Subst) (s c l) (h : σ.get? (Syn.leaf s c l).key = none) :
    substitute σ (.leaf s c l) = .leaf s c l := by
  simp [substitute, h]

theorem substitute_miss_branch (σ : Subst) (s c l r f b)
    (h : σ.get? (Syn.branch s c l r f b).key = none) :
    substitute σ (.branch s c l r f b) = .branch s c (substitute σ l) (substitute σ r) f b := by
  simp [substitute, h]

theorem substitute_none (σ : Subst) (t : Syn) (h : ∀ s, Sub s t → σ.get? s.key = none) :
    substitute σ t = t := by
  induction t with
  | leaf s c l => exact substitute_miss_leaf σ s c l (h _ (sub_refl _))
  | branch s c l r f b ihl ihr =>
    rw [substitute_miss_branch σ s c l r f b (h _ (sub_refl _)),
      ihl (fun s hs => h s (sub_left hs)), ihr (fun s hs => h s (sub_right hs))]

theorem substitute_same (σ : Subst) (t : Syn)
    (h : ∀ s v, Sub s t → σ.get? s.key = some v → v = s) : substitute σ t = t := by
  induction t with
  | leaf s c l =>
    cases hx : σ.get? (Syn.leaf s c l).key with
    | none => exact substitute_miss_leaf σ s c l hx
    | some v => rw [substitute_hit σ _ v hx]; exact h _ _ (sub_refl _) hx
  | branch s c l r f b ihl ihr =>
    cases hx : σ.get? (Syn.branch s c l r f b).key with
    | none =>
      rw [substitute_miss_branch σ s c l r f b hx,
        ihl (fun s v hs => h s v (sub_left hs)), ihr (fun s v hs => h s v (sub_right hs))]
    | some v => rw [substitute_hit σ _ v hx]; exact h _ _ (sub_refl _) hx

theorem untouched_cons {σ : Subst} {s c l r f bb} {b : Bool} {p : Path}
    (h : Untouched σ (.branch s c l r f bb) (b :: p)) :
    σ.get? (Syn.branch s c l r f bb).key = none ∧
      Untouched σ (if b then r else l) p := by
  refine ⟨h [] _ (List.nil_prefix) (by simp) (by simp), ?_⟩
  intro q u hq hne hu
  refine h (b :: q) u (by simpa using hq) (by simpa using hne) ?_
  cases b <;> simpa [at?] using hu

theorem substitute_at (σ : Subst) (t : Syn) (p : Path) (h : Untouched σ t p) (s : Syn)
    (hs : at? t p = some s) : at? (substitute σ t) p = some (substitute σ s) := by
  induction p generalizing t with
  | nil => simp at hs; simp [hs]
  | cons b p ih =>
    cases t with
    | leaf => simp [at?] at hs
    | branch sy c l r f bb =>
      obtain ⟨h1, h2⟩ := untouched_cons h
      rw [substitute_miss_branch σ _ _ _ _ _ _ h1]
      cases b
      · simp only [at?] at hs ⊢; exact ih l h2 hs
      · simp only [at?] at hs ⊢; exact ih r h2 hs

theorem substitute_origin (σ : Subst) (t : Syn) (p : Path) (u : Syn)
    (hu : at? (substitute σ t) p = some u) :
    (∃ q p' s v, p = q ++ p' ∧ at? t q = some s ∧ Untouched σ t q ∧ σ.get? s.key = some v ∧
      at? v p' = some u) ∨
    (∃ s, at? t p = some s ∧ Untouched σ t p ∧ σ.get? s.key = none ∧ u.key = s.key) := by
  induction p generalizing t with
  | nil =>
    have hun : Untouched σ t [] := by
      intro q s hq hne; exact absurd (List.prefix_nil.1 hq) hne
    simp only [at?_nil, Option.some.injEq] at hu
    cases hx : σ.get? t.key with
    | some v =>
      rw [substitute_hit σ t v hx] at hu
      exact Or.inl ⟨[], [], t, v, rfl, by simp, hun, hx, by simp [hu]⟩
    | none =>
      refine Or.inr ⟨t, by simp, hun, hx, ?_⟩
      subst hu
      cases t with
      | leaf => rw [substitute_miss_leaf σ _ _ _ hx]
      | branch => rw [substitute_miss_branch σ _ _ _ _ _ _ hx]; rfl
  | cons b p ih =>
    cases hx : σ.get? t.key with
    | some v =>
      rw [substitute_hit σ t v hx] at hu
      have hun : Untouched σ t [] := by
        intro q s hq hne; exact absurd (List.prefix_nil.1 hq) hne
      exact Or.inl ⟨[], b :: p, t, v, rfl, by simp, hun, hx, hu⟩
    | none =>
      cases t with
      | leaf => rw [substitute_miss_leaf σ _ _ _ hx] at hu; simp [at?] at hu
      | branch sy c l r f bb =>
        rw [substitute_miss_branch σ _ _ _ _ _ _ hx] at hu
        have hun : ∀ q, Untouched σ (if b then r else l) q →
            Untouched σ (.branch sy c l r f bb) (b :: q) := by
          intro q hq q' s hq' hne hs
          match q' with
          | [] => simp at hs; rw [← hs]; exact hx
          | b' :: q' =>
            obtain ⟨rfl, hq''⟩ := List.cons_prefix_cons.1 hq'
            refine hq q' s hq'' (by simpa using hne) ?_
            cases b' <;> simpa [at?] using hs
        have hu' : at? (substitute σ (if b then r else l)) p = some u := by
          cases b <;> simpa [at?] using hu
        rcases ih _ hu' with ⟨q, p', s, v, h1, h2, h3, h4, h5⟩ | ⟨s, h1, h2, h3, h4⟩
        · refine Or.inl ⟨b :: q, p', s, v, by simp [h1], ?_, hun q h3, h4, h5⟩
          cases b <;> simpa [at?] using h2
        · refine Or.inr ⟨s, ?_, hun p h2, h3, h4⟩
          cases b <;> simpa [at?] using h1

theorem substitute_idem (σ : Subst)
    (h : ∀ k v, σ.get? k = some v → ∀ s, Sub s v → σ.get? s.key = none) (t : Syn) :
    substitute σ (substitute σ t) = substitute σ t := by
  induction t with
  | leaf s c l =>
    cases hx : σ.get? (Syn.leaf s c l).key with
    | some v => rw [substitute_hit σ _ v hx]; exact substitute_none σ v (h _ v hx)
    | none => rw [substitute_miss_leaf σ _ _ _ hx, substitute_miss_leaf σ _ _ _ hx]
  | branch s c l r f b ihl ihr =>
    cases hx : σ.get? (Syn.branch s c l r f b).key with
    | some v => rw [substitute_hit σ _ v hx]; exact substitute_none σ v (h _ v hx)
    | none =>
      rw [substitute_miss_branch σ _ _ _ _ _ _ hx]
      rw [substitute_miss_branch σ _ _ _ _ _ _ (by simpa [Syn.key, Syn.syntx, Syn.concept] using hx),
        ihl, ihr]

/-! ## Merging -/

section merge
variable {α : Type} [DecidableEq α]

theorem mergeInto_spec (small : List (α × Syn)) : ∀ (large : AMap α Syn), large.WF →
    (small.map Prod.fst).Nodup →
    match mergeInto large small with
    | some m => m.WF ∧ (∀ k, m.get? k = match large.get? k with
          | some v => some v
          | none => AMap.get? small k) ∧
        ∀ k u v, large.get? k = some u → AMap.get? small k = some v → u.key = v.key
    | none => ∃ k u v, large.get? k = some u ∧ AMap.get? small k = some v ∧ u.key ≠ v.key := by
  induction small with
  | nil =>
    intro large hl _
    simp only [mergeInto]
    refine ⟨hl, fun k => ?_, by simp⟩
    cases large.get? k <;> simp
  | cons p small ih =>
    obtain ⟨k, v⟩ := p
    intro large hl hs
    simp only [List.map_cons, List.nodup_cons] at hs
    simp only [mergeInto]
    have hkn : AMap.get? small k = none := (AMap.get?_eq_none_iff small k).2 hs.1
    cases hx : large.get? k with
    | some e =>
      simp only
      by_cases he : e.key = v.key
      · simp only [he, ne_eq, not_true_eq_false, if_false]
        have h := ih large hl hs.2
        cases hm : mergeInto large small with
        | some m =>
          rw [hm] at h
          obtain ⟨h1, h2, h3⟩ := h
          refine ⟨h1, ?_, ?_⟩
          · intro k'
            rw [h2 k']
            by_cases hk : k = k'
            · subst hk; simp [hx]
            · simp [AMap.get?_cons, hk]
          · intro k' u w hu hw
            rw [AMap.get?_cons] at hw
            split at hw
            · next hk => subst hk; rw [hx] at hu; cases hu; cases hw; exact he
            · exact h3 k' u w hu hw
        | none =>
          rw [hm] at h
          obtain ⟨k', u, w, h1, h2, h3⟩ := h
          refine ⟨k', u, w, h1, ?_, h3⟩
          have : ¬ k = k' := by rintro rfl; rw [hkn] at h2; cases h2
          simpa [AMap.get?_cons, this] using h2
      · simp only [ne_eq, he, not_false_eq_true, if_true]
        exact ⟨k, e, v, hx, by simp [AMap.get?_cons], he⟩
    | none =>
      simp only
      have h := ih (large.insert k v) (hl.insert k v) hs.2
      cases hm : mergeInto (large.insert k v) small with
      | some m =>
        rw [hm] at h
        obtain ⟨h1, h2, h3⟩ := h
        refine ⟨h1, ?_, ?_⟩
        · intro k'
          rw [h2 k', AMap.get?_insert]
          by_cases hk : k = k'
          · subst hk; simp [hx, AMap.get?_cons]
          · simp [AMap.get?_cons, hk]
        · intro k' u w hu hw
          rw [AMap.get?_cons] at hw
          split at hw
          · next hk => subst hk; rw [hx] at hu; cases hu
          · next hk => exact h3 k' u w (by rw [AMap.get?_insert]; simp [hk, hu]) hw
      | none =>
        rw [hm] at h
        obtain ⟨k', u, w, h1, h2, h3⟩ := h
        have hk : ¬ k = k' := by rintro rfl; rw [hkn] at h2; cases h2
        rw [AMap.get?_insert] at h1
        simp only [hk, if_false] at h1
        exact ⟨k', u, w, h1, by simpa [AMap.get?_cons, hk] using h2, h3⟩

theorem consistentMerge_spec (a b : AMap α Syn) (ha : a.WF) (hb : b.WF) :
    match consistentMerge a b with
    | some m => m.WF ∧ Agree a b ∧
        (∀ k, m.get? k = match a.get? k with | some v => (if a.length > b.length then some v else
            match b.get? k with | some w => some w | none => some v) | none => b.get? k)
    | none => ¬ Agree a b := by
  unfold consistentMerge
  by_cases hlen : a.length > b.length
  · simp only [hlen, if_true]
    have h := mergeInto_spec b a ha hb
    cases hm : mergeInto a b with
    | some m =>
      rw [hm] at h
      obtain ⟨h1, h2, h3⟩ := h
      refine ⟨h1, ?_, h2⟩
      intro k u v hu hv; exact (key_eq_iff u v).1 (h3 k u v hu hv)
    | none =>
      rw [hm] at h
      obtain ⟨k, u, v, hu, hv, hne⟩ := h
      intro hag; exact hne ((key_eq_iff u v).2 (hag k u v hu hv))
  · simp only [hlen, if_false]
    have h := mergeInto_spec a b hb ha
    cases hm : mergeInto b a with
    | some m =>
      rw [hm] at h
      obtain ⟨h1, h2, h3⟩ := h
      refine ⟨h1, ?_, ?_⟩
      · intro k u v hu hv; exact (key_eq_iff u v).1 (h3 k v u hv hu).symm
      · intro k
        rw [h2 k]
        cases a.get? k <;> cases b.get? k <;> rfl
    | none =>
      rw [hm] at h
      obtain ⟨k, u, v, hu, hv, hne⟩ := h
      intro hag; exact hne ((key_eq_iff v u).2 (hag k v u hv hu)).symm

/-- Keys of the values of a successful merge. -/
theorem consistentMerge_keys (a b m : AMap α Syn) (ha : a.WF) (hb : b.WF)
    (h : consistentMerge a b = some m) :
    m.WF ∧ (∀ k v, a.get? k = some v → ∃ w, m.get? k = some w ∧ w.key = v.key) ∧
    (∀ k v, b.get? k = some v → ∃ w, m.get? k = some w ∧ w.key = v.key) ∧
    (∀ k w, m.get? k = some w → a.get? k = some w ∨ b.get? k = some w) := by
  have hs := consistentMerge_spec a b ha hb
  rw [h] at hs
  obtain ⟨h1, h2, h3⟩ := hs
  refine ⟨h1, ?_, ?_, ?_⟩
  · intro k v hv
    rw [h3 k, hv]
    by_cases hlen : a.length > b.length
    · simp [hlen]
    · simp only [hlen, if_false]
      cases hb' : b.get? k with
      | none => exact ⟨v, rfl, rfl⟩
      | some w => exact ⟨w, rfl, ((key_eq_iff v w).2 (h2 k v w hv hb')).symm⟩
  · intro k v hv
    rw [h3 k]
    cases ha' : a.get? k with
    | none => exact ⟨v, by simpa using hv, rfl⟩
    | some u =>
      by_cases hlen : a.length > b.length
      · exact ⟨u, by simp [hlen], (key_eq_iff u v).2 (h2 k u v ha' hv)⟩
      · exact ⟨v, by simp [hlen, hv], rfl⟩
  · intro k w hw
    rw [h3 k] at hw
    cases ha' : a.get? k with
    | none => rw [ha'] at hw; exact Or.inr (by simpa using hw)
    | some u =>
      rw [ha'] at hw
      by_cases hlen : a.length > b.length
      · simp [hlen] at hw; exact Or.inl (by rw [hw])
      · simp only [hlen, if_false] at hw
        cases hb' : b.get? k with
        | none => rw [hb'] at hw; exact Or.inl (by simpa using hw)
        | some v => rw [hb'] at hw; exact Or.inr (by simpa using hw)

end merge

/-! ## Matching -/

theorem Alike.trans' {a b c : Syn} (h : Alike a b) (h' : Alike b c) : Alike a c :=
  ⟨h.1.trans h'.1, h.2.trans h'.2⟩

theorem fits_mono {σ σ' : Key → Option Syn} {ρ ρ' : CId → Option Syn}
    (hσ : ∀ k v, σ k = some v → ∃ w, σ' k = some w ∧ w.key = v.key)
    (hρ : ∀ k v, ρ k = some v → ∃ w, ρ' k = some w ∧ w.key = v.key)
    (e g : Syn) (h : Fits σ ρ e g) : Fits σ' ρ' e g := by
  induction g generalizing e with
  | branch sg cg lg rg fg bg ihl ihr =>
    cases e with
    | branch se ce le re fe be => exact ⟨ihl le h.1, ihr re h.2⟩
    | leaf se ce l =>
      cases ce <;> cases l <;> simp [Fits] at h
  | leaf sg cg l =>
    cases l with
    | «variable» =>
      have h' : ∃ v, σ ⟨sg, cg⟩ = some v ∧ Alike v e := by
        cases e <;> simpa [Fits] using h
      obtain ⟨v, hv, hal⟩ := h'
      obtain ⟨w, hw, hk⟩ := hσ _ v hv
      have : ∃ v, σ' ⟨sg, cg⟩ = some v ∧ Alike v e :=
        ⟨w, hw, Alike.trans' ((key_eq_iff w v).1 hk) hal⟩
      cases e <;> simpa [Fits] using this
    | constant =>
      cases e with
      | branch => simp [Fits] at h
      | leaf se ce le =>
        cases ce with
        | none => cases le <;> simpa [Fits] using h
        | some id =>
          cases le with
          | «variable» =>
            obtain ⟨v, hv, hal⟩ := h
            obtain ⟨w, hw, hk⟩ := hρ _ v hv
            exact ⟨w, hw, Alike.trans' ((key_eq_iff w v).1 hk) hal⟩
          | constant => simpa [Fits] using h
          | quantifier => simpa [Fits] using h
    | quantifier =>
      cases e with
      | branch => simp [Fits] at h
      | leaf se ce le =>
        cases ce with
        | none => cases le <;> simpa [Fits] using h
        | some id =>
          cases le with
          | «variable» =>
            obtain ⟨v, hv, hal⟩ := h
            obtain ⟨w, hw, hk⟩ := hρ _ v hv
            exact ⟨w, hw, Alike.trans' ((key_eq_iff w v).1 hk) hal⟩
          | constant => simpa [Fits] using h
          | quantifier => simpa [Fits] using h

theorem merge_some {a b m : ExSubst} (h : a.merge b = some m) :
    consistentMerge a.gen b.gen = some m.gen ∧ consistentMerge a.exam b.exam = some m.exam := by
  unfold ExSubst.merge at h
  split at h
  · next g e h1 h2 => cases h; exact ⟨h1, h2⟩
  · cases h

/-- What `checkExample` returns: well formed maps under which the example fits, and every entry is
needed, in the sense that any other assignment that fits agrees with it. -/
theorem checkExample_spec (e g : Syn) :
    match checkExample e g with
    | some s => s.gen.WF ∧ s.exam.WF ∧ Fits s.gen.get? s.exam.get? e g ∧
        ∀ σ ρ, Fits σ ρ e g →
          (∀ k v, s.gen.get? k = some v → ∃ w, σ k = some w ∧ w.key = v.key) ∧
          (∀ k v, s.exam.get? k = some v → ∃ w, ρ k = some w ∧ w.key = v.key)
    | none => ∀ σ ρ, ¬ Fits σ ρ e g := by
  induction g generalizing e with
  | branch sg cg lg rg fg bg ihl ihr =>
    cases e with
    | leaf se ce l =>
      simp only [checkExample]
      intro σ ρ h
      cases ce <;> cases l <;> simp [Fits] at h
    | branch se ce le re fe be =>
      simp only [checkExample]
      have hl := ihl le
      have hr := ihr re
      cases hcl : checkExample le lg with
      | none =>
        rw [hcl] at hl
        simp only
        intro σ ρ h; exact hl σ ρ h.1
      | some a =>
        rw [hcl] at hl
        obtain ⟨a1, a2, a3, a4⟩ := hl
        cases hcr : checkExample re rg with
        | none =>
          rw [hcr] at hr
          simp only
          intro σ ρ h; exact hr σ ρ h.2
        | some b =>
          rw [hcr] at hr
          obtain ⟨b1, b2, b3, b4⟩ := hr
          simp only
          cases hm : a.merge b with
          | some m =>
            obtain ⟨m1, m2⟩ := merge_some hm
            obtain ⟨w1, g1, g2, g3⟩ := consistentMerge_keys _ _ _ a1 b1 m1
            obtain ⟨w2, x1, x2, x3⟩ := consistentMerge_keys _ _ _ a2 b2 m2
            refine ⟨w1, w2, ⟨fits_mono g1 x1 _ _ a3, fits_mono g2 x2 _ _ b3⟩, ?_⟩
            intro σ ρ h
            obtain ⟨p1, p2⟩ := a4 σ ρ h.1
            obtain ⟨q1, q2⟩ := b4 σ ρ h.2
            refine ⟨fun k v hv => ?_, fun k v hv => ?_⟩
            · rcases g3 k v hv with h | h
              · exact p1 k v h
              · exact q1 k v h
            · rcases x3 k v hv with h | h
              · exact p2 k v h
              · exact q2 k v h
          | none =>
            intro σ ρ h
            obtain ⟨p1, p2⟩ := a4 σ ρ h.1
            obtain ⟨q1, q2⟩ := b4 σ ρ h.2
            have hg := consistentMerge_spec a.gen b.gen a1 b1
            have hx := consistentMerge_spec a.exam b.exam a2 b2
            unfold ExSubst.merge at hm
            cases h1 : consistentMerge a.gen b.gen with
            | none =>
              rw [h1] at hg
              apply hg
              intro k u v hu hv
              obtain ⟨w, hw, hk⟩ := p1 k u hu
              obtain ⟨w', hw', hk'⟩ := q1 k v hv
              rw [hw] at hw'; cases hw'
              rw [← key_eq_iff, ← hk, ← hk']
            | some m1 =>
              cases h2 : consistentMerge a.exam b.exam with
              | none =>
                rw [h2] at hx
                apply hx
                intro k u v hu hv
                obtain ⟨w, hw, hk⟩ := p2 k u hu
                obtain ⟨w', hw', hk'⟩ := q2 k v hv
                rw [hw] at hw'; cases hw'
                rw [← key_eq_iff, ← hk, ← hk']
              | some m2 => rw [h1, h2] at hm; cases hm
  | leaf sg cg l =>
    have single : ∀ {α : Type} [DecidableEq α] (k : α) (v : Syn), AMap.WF [(k, v)] := by
      intro α _ k v; simp [AMap.WF]
    have wfnil : ∀ {α : Type} [DecidableEq α], AMap.WF ([] : AMap α Syn) := by
      intro α _; simp [AMap.WF]
    by_cases hv : l = .variable
    · subst hv
      have hfit : ∀ σ ρ, Fits σ ρ e (.leaf sg cg .variable) ↔
          ∃ v, σ ⟨sg, cg⟩ = some v ∧ Alike v e := by
        intro σ ρ; cases e <;> simp [Fits]
      have hc : checkExample e (.leaf sg cg .variable) = some ⟨[(⟨sg, cg⟩, e)], []⟩ := by
        cases e <;> simp [checkExample, checkLeaves, Syn.isVariable, Syn.key, Syn.syntx, Syn.concept]
      rw [hc]
      refine ⟨single _ _, wfnil, (hfit _ _).2 ⟨e, by simp [AMap.get?_cons], rfl, rfl⟩, ?_⟩
      intro σ ρ h
      obtain ⟨w, hw, hal⟩ := (hfit σ ρ).1 h
      refine ⟨fun k v hk => ?_, by simp⟩
      rw [AMap.get?_cons] at hk
      split at hk
      · next heq => subst heq; cases hk; exact ⟨w, hw, (key_eq_iff w e).2 hal⟩
      · simp at hk
    · have hgv : (Syn.leaf sg cg l).isVariable = false := by cases l <;> simp_all [Syn.isVariable]
      cases e with
      | branch se ce le re fe be =>
        have hc : checkExample (.branch se ce le re fe be) (.leaf sg cg l) = none := by
          simp [checkExample, hgv]
        rw [hc]
        intro σ ρ h
        cases l <;> simp [Fits] at h hv
      | leaf se ce le =>
        by_cases hev : le = .variable ∧ ∃ id, ce = some id
        · obtain ⟨rfl, id, rfl⟩ := hev
          have hc : checkExample (.leaf se (some id) .variable) (.leaf sg cg l) =
              some ⟨[], [(id, .leaf sg cg l)]⟩ := by
            simp [checkExample, checkLeaves, hgv, Syn.concept]
            simp [Syn.isVariable]
          have hfit : ∀ σ ρ, Fits σ ρ (.leaf se (some id) .variable) (.leaf sg cg l) ↔
              ∃ v, ρ id = some v ∧ Alike v (.leaf sg cg l) := by
            intro σ ρ
            cases l <;> simp [Fits] at hv ⊢
          rw [hc]
          refine ⟨wfnil, single _ _, (hfit _ _).2 ⟨_, by simp [AMap.get?_cons], rfl, rfl⟩, ?_⟩
          intro σ ρ h
          obtain ⟨w, hw, hal⟩ := (hfit σ ρ).1 h
          refine ⟨by simp, fun k v hk => ?_⟩
          rw [AMap.get?_cons] at hk
          split at hk
          · next heq => subst heq; cases hk; exact ⟨w, hw, (key_eq_iff w _).2 hal⟩
          · simp at hk
        · have hfit : ∀ σ ρ, Fits σ ρ (.leaf se ce le) (.leaf sg cg l) ↔ se = sg ∧ ce = cg := by
            intro σ ρ
            cases l <;> cases ce <;> cases le <;> simp [Fits] at hv hev ⊢
          have hc : checkExample (.leaf se ce le) (.leaf sg cg l) =
              if se = sg ∧ ce = cg then some ⟨[], []⟩ else none := by
            cases ce <;> cases le <;>
              simp [checkExample, checkLeaves, hgv, Syn.concept, Syn.key, Syn.syntx] at hev ⊢ <;>
              simp [Syn.isVariable]
          rw [hc]
          by_cases heq : se = sg ∧ ce = cg
          · rw [if_pos heq]
            exact ⟨wfnil, wfnil, (hfit _ _).2 heq, fun σ ρ _ => ⟨by simp, by simp⟩⟩
          · rw [if_neg heq]
            intro σ ρ h; exact heq ((hfit σ ρ).1 h)

/-- An expression fits itself when its variables stand for themselves. -/
theorem fits_self (σ : Key → Option Syn) (ρ : CId → Option Syn) (t : Syn)
    (h : ∀ s, Sub s t → IsVariable s → ∃ v, σ s.key = some v ∧ v.key = s.key) : Fits σ ρ t t := by
  induction t with
  | leaf s c l =>
    cases l with
    | «variable» =>
      obtain ⟨v, hv, hk⟩ := h _ (sub_refl _) trivial
      have : ∃ v, σ ⟨s, c⟩ = some v ∧ Alike v (.leaf s c .variable) := ⟨v, hv, (key_eq_iff _ _).1 hk⟩
      simpa [Fits] using this
    | constant => cases c <;> simp [Fits]
    | quantifier => cases c <;> simp [Fits]
  | branch s c l r f b ihl ihr =>
    exact ⟨ihl (fun s hs => h s (sub_left hs)), ihr (fun s hs => h s (sub_right hs))⟩

theorem checkExample_values (e g : Syn) (s : ExSubst) (h : checkExample e g = some s) :
    ∀ k v, s.gen.get? k = some v → Sub v e := by
  induction g generalizing e s with
  | branch sg cg lg rg fg bg ihl ihr =>
    cases e with
    | leaf => simp [checkExample] at h
    | branch se ce le re fe be =>
      simp only [checkExample] at h
      have wl := checkExample_spec le lg
      have wr := checkExample_spec re rg
      cases hl : checkExample le lg with
      | none => simp [hl] at h
      | some a =>
        cases hr : checkExample re rg with
        | none => simp [hl, hr] at h
        | some b =>
          rw [hl] at wl; rw [hr] at wr
          simp only [hl, hr] at h
          obtain ⟨m1, _⟩ := merge_some h
          obtain ⟨_, _, _, hor⟩ := consistentMerge_keys _ _ _ wl.1 wr.1 m1
          intro k v hv
          rcases hor k v hv with h' | h'
          · exact sub_left (ihl le a hl k v h')
          · exact sub_right (ihr re b hr k v h')
  | leaf sg cg l =>
    have single : ∀ (k' k : Key) (v : Syn), AMap.get? [(k', e)] k = some v → Sub v e := by
      intro k' k v hk
      rw [AMap.get?_cons] at hk
      split at hk
      · cases hk; exact sub_refl _
      · simp at hk
    cases e with
    | branch se ce le re fe be =>
      simp only [checkExample] at h
      split at h
      · cases h; exact fun k v hv => single _ k v hv
      · cases h
    | leaf se ce le =>
      simp only [checkExample, checkLeaves] at h
      split at h
      · cases h; exact fun k v hv => single _ k v hv
      · split at h
        · cases h; simp
        · split at h
          · cases h; simp
          · cases h

theorem sameLeaves_refl (t : Syn) : SameLeaves t t := by
  induction t with
  | leaf => exact ⟨rfl, rfl⟩
  | branch s c l r f b ihl ihr => exact ⟨ihl, ihr⟩

theorem fits_instance (σ : Key → Option Syn) (whole : Syn) (hf : Faithful whole)
    (hσ : ∀ k v, σ k = some v → Sub v whole) (g : Syn) : ∀ e, Sub e whole →
    Fits σ (fun _ => none) e g → SameLeaves (instantiate σ g) e := by
  induction g with
  | branch sg cg lg rg fg bg ihl ihr =>
    intro e he h
    cases e with
    | leaf se ce l => cases ce <;> cases l <;> simp [Fits] at h
    | branch se ce le re fe be =>
      exact ⟨ihl le (sub_trans (sub_left (sub_refl _)) he) h.1,
        ihr re (sub_trans (sub_right (sub_refl _)) he) h.2⟩
  | leaf sg cg l =>
    intro e he h
    by_cases hv : l = .variable
    · subst hv
      have h' : ∃ v, σ ⟨sg, cg⟩ = some v ∧ Alike v e := by
        cases e <;> simpa [Fits] using h
      obtain ⟨v, hv, hal⟩ := h'
      simp only [instantiate, hv, Option.getD_some]
      rw [hf v e (hσ _ v hv) he hal]
      exact sameLeaves_refl e
    · have hi : instantiate σ (.leaf sg cg l) = .leaf sg cg l := by
        cases l <;> simp_all [instantiate]
      rw [hi]
      cases e with
      | branch => cases l <;> simp [Fits] at h hv
      | leaf se ce le =>
        have : se = sg ∧ ce = cg := by
          cases l <;> cases ce <;> cases le <;> simp [Fits] at h hv ⊢ <;> exact h
        exact ⟨by simp [Syn.syntx, this.1], by simp [Syn.concept, this.2]⟩

/-! ## Mask lists -/

theorem mapEq_iff {α β : Type} [DecidableEq α] [DecidableEq β] (a b : AMap α β)
    (ha : a.WF) (hb : b.WF) : mapEq a b = true ↔ ∀ k, a.get? k = b.get? k := by
  unfold mapEq
  simp only [Bool.and_eq_true, beq_iff_eq, List.all_eq_true]
  constructor
  · rintro ⟨hlen, hall⟩ k
    cases hk : a.get? k with
    | some v => exact (hall (k, v) (AMap.mem_of_get? a k v hk)).symm
    | none =>
      symm
      rw [AMap.get?_eq_none_iff] at hk ⊢
      -- keys of `a` are keys of `b`, and there are as many of them
      have hsub : a.map Prod.fst ⊆ b.map Prod.fst := by
        intro x hx
        obtain ⟨⟨x', v⟩, hm, rfl⟩ := List.mem_map.1 hx
        exact List.mem_map.2 ⟨(x', v), AMap.mem_of_get? b x' v (hall _ hm), rfl⟩
      have hperm : (a.map Prod.fst).Perm (b.map Prod.fst) :=
        List.Subperm.perm_of_length_le (List.subperm_of_subset ha hsub) (by simp [hlen])
      intro hkb; exact hk (hperm.mem_iff.2 hkb)
  · intro h
    refine ⟨?_, ?_⟩
    · have hperm : (a.map Prod.fst).Perm (b.map Prod.fst) := by
        refine (List.perm_ext_iff_of_nodup ha hb).2 ?_
        intro x
        have := h x
        have e1 := AMap.get?_eq_none_iff a x
        have e2 := AMap.get?_eq_none_iff b x
        rw [this] at e1
        have := e1.symm.trans e2
        tauto
      simpa using hperm.length_eq
    · rintro ⟨k, v⟩ hm
      rw [← h k]; exact AMap.get?_of_mem a ha k v hm

theorem get?_syntaxKeys (m : Mask) (k : CId) :
    (syntaxKeys m).get? k = (m.get? k).map Syn.key := by
  induction m with
  | nil => rfl
  | cons p m ih =>
    obtain ⟨a, b⟩ := p
    simp only [syntaxKeys, List.map_cons, AMap.get?_cons]
    split
    · rfl
    · exact ih

theorem wf_syntaxKeys {m : Mask} (h : m.WF) : (syntaxKeys m).WF := by
  unfold AMap.WF at h ⊢
  simpa [syntaxKeys, Function.comp_def] using h

theorem maskEq_iff (a b : Mask) (ha : a.WF) (hb : b.WF) :
    mapEq (syntaxKeys a) (syntaxKeys b) = true ↔ SameMask a b := by
  rw [mapEq_iff _ _ (wf_syntaxKeys ha) (wf_syntaxKeys hb)]
  simp only [get?_syntaxKeys]; rfl

theorem maskList_contains_iff (l : MaskList) (h : Mask) (hl : ∀ m ∈ masks l, m.WF) (hw : h.WF) :
    l.contains h = true ↔ ∃ m ∈ masks l, SameMask m h := by
  induction l with
  | one a => simp [MaskList.contains, masks, maskEq_iff a h (hl a (by simp [masks])) hw]
  | cons a t ih =>
    simp only [MaskList.contains, masks, Bool.or_eq_true, List.mem_cons, exists_eq_or_imp]
    rw [maskEq_iff a h (hl a (by simp [masks])) hw, ih (fun m hm => hl m (by simp [masks, hm]))]

theorem pushed_inv {l : MaskList} (h : Pushed l) :
    (∀ m ∈ masks l, m.WF) ∧ (masks l).Pairwise (fun a b => ¬ SameMask a b) := by
  induction h with
  | one a ha => exact ⟨by simp [masks, ha], by simp [masks]⟩
  | @push l l' h hl hw hp ih =>
    unfold MaskList.push at hp
    split at hp
    · cases hp
    · next hc =>
      cases hp
      refine ⟨by simpa [masks, hw] using ih.1, ?_⟩
      simp only [masks, List.pairwise_cons]
      refine ⟨?_, ih.2⟩
      intro m hm hs
      exact hc ((maskList_contains_iff l h ih.1 hw).2 ⟨m, hm, fun id => (hs id).symm⟩)

end Zia

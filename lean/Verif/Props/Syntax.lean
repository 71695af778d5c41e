import Verif.Lemmas.Syntax

/-!
# Properties C11 to C17, C41, C42: syntax trees, substitution, matching
-/

namespace Zia.Props

open Zia Zia.Spec

/-! Sample expressions used in the examples and in the counterexamples. -/

def symA : Syn := .leaf (some ['a']) (some (.com 20)) .constant
def symB : Syn := .leaf (some ['b']) (some (.com 21)) .constant
def symC : Syn := .leaf (some ['c']) (some (.com 22)) .constant
def varX : Syn := .leaf (some ['_', 'x', '_']) (some (.com 30)) .variable
def varY : Syn := .leaf (some ['_', 'y', '_']) (some (.com 31)) .variable
def quant : Syn := .leaf (some ['e']) (some (.com 11)) .quantifier

/-! ## C11 -/

/-- C11. Comparison is reflexive. -/
theorem eqv_refl (t : Syn) : t.eqv t = true := by
  unfold Syn.eqv
  cases t with
  | leaf s c l => cases s <;> cases c <;> simp [Syn.syntx, Syn.concept, Syn.nodeEq]
  | branch s c l r f b => cases s <;> cases c <;> simp [Syn.syntx, Syn.concept, Syn.nodeEq]

/-- C11. Comparison is symmetric. -/
theorem eqv_symm (a b : Syn) : a.eqv b = b.eqv a := by
  have hn : ∀ a b : Syn, Syn.nodeEq a b = Syn.nodeEq b a := by
    intro a b
    cases a <;> cases b
    · simp only [Syn.nodeEq]; exact BEq.comm
    · rfl
    · rfl
    · simp only [Syn.nodeEq]
      rw [BEq.comm (a := Syn.key _), BEq.comm (a := Syn.key _)]
      congr 1; exact BEq.comm
  unfold Syn.eqv
  cases a.syntx <;> cases b.syntx <;> cases a.concept <;> cases b.concept <;>
    first
      | exact hn a b
      | exact BEq.comm

/-- C11 fails: comparison is not transitive. A tree known only by its concept equals trees with
different texts. -/
theorem eqv_not_trans : ∃ a b c : Syn, a.eqv b = true ∧ b.eqv c = true ∧ a.eqv c = false :=
  ⟨.leaf (some ['a']) (some (.com 1)) .constant, .leaf none (some (.com 1)) .constant,
    .leaf (some ['b']) (some (.com 1)) .constant, by decide⟩

/-- C11, the part that holds: among trees that all carry text, comparison is an equivalence. Missing:
transitivity for trees without text, which is false by `eqv_not_trans`. -/
theorem eqv_trans_partial (a b c : Syn) (hb : b.syntx ≠ none) (ha : a.syntx ≠ none)
    (hc : c.syntx ≠ none) (h : a.eqv b = true) (h' : b.eqv c = true) : a.eqv c = true := by
  obtain ⟨x, hx⟩ := Option.ne_none_iff_exists'.1 ha
  obtain ⟨y, hy⟩ := Option.ne_none_iff_exists'.1 hb
  obtain ⟨z, hz⟩ := Option.ne_none_iff_exists'.1 hc
  simp only [Syn.eqv, hx, hy, hz, beq_iff_eq] at h h' ⊢
  rw [h, h']

example : symA.syntx ≠ none ∧ (symA.bindConcept (.com 3)).syntx ≠ none ∧
    symA.eqv (symA.bindConcept (.com 3)) = true := by decide

/-! ## C12 -/

/-- C12. `contains` is true iff a proper subexpression has the same text and concept. -/
theorem contains_iff_properSub (t o : Syn) :
    t.contains o = true ↔ ∃ s, ProperSub s t ∧ Alike s o := by
  rw [contains_iff]; simp only [key_eq_iff]

/-- C12. Whatever a subexpression contains, the whole expression contains. -/
theorem contains_of_sub (t u o : Syn) (hu : Sub u t) (h : u.contains o = true) :
    t.contains o = true := by
  rw [contains_iff] at h ⊢
  obtain ⟨s, ⟨p, hne, hp⟩, hk⟩ := h
  obtain ⟨q, hq⟩ := hu
  exact ⟨s, ⟨q ++ p, by simp [hne], by rw [at?_append, hq]; simpa using hp⟩, hk⟩

example : (Syn.newPair symA (Syn.newPair symB symC)).contains symC = true := by decide
example : (Syn.newPair symA symB).contains symC = false := by decide

/-! ## C13 -/

/-- C13. The variable sets stored in a tree are those of the scoping rule. -/
theorem vars_correct (t : Syn) (h : Built t) (hb : IsBranch t) (k : Key) :
    (k ∈ storedFree t ↔ Free t k) ∧ (k ∈ storedBinding t ↔ Binds t k) := by
  have := vars_correct_aux t (built_varsOk h) k
  cases t with
  | leaf => simp [IsBranch] at hb
  | branch => exact this

/-- C13. A tree is classified as variable iff some leaf of it is a variable. -/
theorem isVariable_iff (t : Syn) (h : Built t) :
    t.isVariable = true ↔ ∃ s, Sub s t ∧ IsVariable s := by
  rw [isVariable_iff_nonempty, ← no_vars_of_none t (built_varsOk h)]
  constructor
  · rintro ⟨k, hk⟩
    exact ⟨k, hk.imp (vars_correct_aux t (built_varsOk h) k).1.1
      (vars_correct_aux t (built_varsOk h) k).2.1⟩
  · rintro ⟨k, hk⟩
    exact ⟨k, hk.imp (vars_correct_aux t (built_varsOk h) k).1.2
      (vars_correct_aux t (built_varsOk h) k).2.2⟩

/-- `(_x_ exists_such_that) (a _x_)`: the second `_x_` is captured. -/
def boundSample : Syn := Syn.newPair (Syn.newPair varX quant) (Syn.newPair symA varX)

example : Built boundSample ∧ IsBranch boundSample :=
  ⟨.pair (.pair (.leaf ..) (.leaf ..)) (.pair (.leaf ..) (.leaf ..)), trivial⟩
example : storedFree boundSample = [] ∧ storedBinding boundSample = [varX.key] := by decide

/-! ## C14 -/

/-- C14. Nothing changes when no subexpression is in the domain. -/
theorem substitute_unchanged (σ : Subst) (t : Syn) (h : ∀ s, Sub s t → σ.get? s.key = none) :
    substitute σ t = t := substitute_none σ t h

/-- C14. Each outermost occurrence is replaced by its value, and the places around it are kept. -/
theorem substitute_replaces (σ : Subst) (t : Syn) (p : Path) (s v : Syn)
    (hp : at? t p = some s) (hu : Untouched σ t p) (hv : σ.get? s.key = some v) :
    at? (substitute σ t) p = some v := by
  rw [substitute_at σ t p hu s hp, substitute_hit σ s v hv]

/-- C14. Every part of the result comes from the value of an outermost occurrence or stands where
an alike expression stood. -/
theorem substitute_only (σ : Subst) (t : Syn) (p : Path) (u : Syn)
    (hu : at? (substitute σ t) p = some u) :
    (∃ q p' s v, p = q ++ p' ∧ at? t q = some s ∧ Untouched σ t q ∧ σ.get? s.key = some v ∧
      at? v p' = some u) ∨
    (∃ s, at? t p = some s ∧ Untouched σ t p ∧ σ.get? s.key = none ∧ Alike u s) := by
  have := substitute_origin σ t p u hu
  simpa only [key_eq_iff] using this

/-- C14. Replacing expressions by themselves changes nothing. -/
theorem substitute_identity (σ : Subst) (t : Syn)
    (h : ∀ s v, Sub s t → σ.get? s.key = some v → v = s) : substitute σ t = t :=
  substitute_same σ t h

/-- C14. Substituting twice is substituting once when the values mention nothing of the domain. -/
theorem substitute_idempotent (σ : Subst) (t : Syn)
    (h : ∀ k v, σ.get? k = some v → ∀ s, Sub s v → σ.get? s.key = none) :
    substitute σ (substitute σ t) = substitute σ t := substitute_idem σ h t

def sampleSubst : Subst := [(varX.key, symB)]

example : ∀ k v, sampleSubst.get? k = some v → ∀ s, Sub s v → sampleSubst.get? s.key = none := by
  intro k v h s hs
  have := AMap.mem_of_get? _ _ _ h
  simp [sampleSubst] at this
  obtain ⟨rfl, rfl⟩ := this
  rw [sub_leaf hs]; decide

example : at? (Syn.newPair symA varX) [true] = some varX ∧
    Untouched sampleSubst (Syn.newPair symA varX) [true] ∧
    sampleSubst.get? varX.key = some symB := by
  refine ⟨by decide, ?_, by decide⟩
  intro q s hq hne hs
  have : q = [] := by
    rcases q with _ | ⟨b, q⟩
    · rfl
    · simp only [List.cons_prefix_cons, List.prefix_nil] at hq
      obtain ⟨rfl, rfl⟩ := hq
      exact absurd rfl hne
  subst this
  simp at hs; subst hs; decide

/-! ## C41 -/

/-- C41 fails: substitution keeps the old variable sets, so a tree without variables can still be
classified as variable. -/
theorem substitute_stale_vars :
    ∃ (σ : Subst) (t : Syn), Built t ∧ (∀ s, Sub s (substitute σ t) → ¬ IsVariable s) ∧
      (substitute σ t).isVariable = true := by
  refine ⟨sampleSubst, Syn.newPair symA varX, .pair (.leaf ..) (.leaf ..), ?_, by decide⟩
  have e : substitute sampleSubst (Syn.newPair symA varX) =
    .branch none none symA symB [varX.key] [] := by decide
  rw [e]
  intro s hs
  rcases sub_branch hs with rfl | h | h
  · exact id
  · rw [sub_leaf h]; exact id
  · rw [sub_leaf h]; exact id

/-- C41, the part that holds: after a substitution that leaves every branch's own children sets
alone, that is one that hits only the root or nothing, the sets are right. Missing: substitutions
that change a proper subexpression, for which it is false by `substitute_stale_vars`. -/
theorem substitute_vars_partial (σ : Subst) (t : Syn) (h : Built t)
    (hσ : ∀ k v, σ.get? k = some v → Built v)
    (hit : σ.get? t.key ≠ none ∨ ∀ s, ProperSub s t → σ.get? s.key = none) :
    Built (substitute σ t) := by
  cases hx : σ.get? t.key with
  | some v => rw [substitute_hit σ t v hx]; exact hσ _ _ hx
  | none =>
    rcases hit with hit | hit
    · exact absurd hx hit
    · rw [substitute_none σ t]
      · exact h
      · rintro s ⟨p, hp⟩
        by_cases hn : p = []
        · subst hn; simp at hp; rw [← hp]; exact hx
        · exact hit s ⟨p, hn, hp⟩

example : sampleSubst.get? varX.key ≠ none ∧ Built varX := ⟨by decide, .leaf ..⟩

/-! ## C15 -/

section
variable {α : Type} [DecidableEq α]

/-- C15. Merging succeeds iff shared variables are given alike expressions. -/
theorem merge_succeeds_iff (a b : AMap α Syn) (ha : a.WF) (hb : b.WF) :
    (∃ m, consistentMerge a b = some m) ↔ Agree a b := by
  have h := consistentMerge_spec a b ha hb
  cases hm : consistentMerge a b with
  | some m => rw [hm] at h; exact ⟨fun _ => h.2.1, fun _ => ⟨m, rfl⟩⟩
  | none => rw [hm] at h; exact ⟨(by rintro ⟨m, hm⟩; cases hm), fun h' => absurd h' h⟩

/-- C15. The result extends both maps, up to alikeness, and has no other entries. -/
theorem merge_result (a b m : AMap α Syn) (ha : a.WF) (hb : b.WF)
    (h : consistentMerge a b = some m) :
    m.WF ∧ (∀ k v, a.get? k = some v → ∃ w, m.get? k = some w ∧ Alike w v) ∧
    (∀ k v, b.get? k = some v → ∃ w, m.get? k = some w ∧ Alike w v) ∧
    (∀ k w, m.get? k = some w → a.get? k = some w ∨ b.get? k = some w) := by
  have := consistentMerge_keys a b m ha hb h
  simpa only [key_eq_iff] using this

/-- C15. The order of the two maps does not matter, up to alikeness. -/
theorem merge_comm (a b : AMap α Syn) (ha : a.WF) (hb : b.WF) :
    ((∃ m, consistentMerge a b = some m) ↔ ∃ m, consistentMerge b a = some m) ∧
    ∀ m m', consistentMerge a b = some m → consistentMerge b a = some m' →
      ∀ k, (m.get? k).map Syn.key = (m'.get? k).map Syn.key := by
  refine ⟨?_, ?_⟩
  · rw [merge_succeeds_iff a b ha hb, merge_succeeds_iff b a hb ha]
    exact ⟨fun h k u v hu hv => ⟨(h k v u hv hu).1.symm, (h k v u hv hu).2.symm⟩,
      fun h k u v hu hv => ⟨(h k v u hv hu).1.symm, (h k v u hv hu).2.symm⟩⟩
  · intro m m' h h' k
    obtain ⟨_, a1, b1, c1⟩ := consistentMerge_keys a b m ha hb h
    obtain ⟨_, b2, a2, c2⟩ := consistentMerge_keys b a m' hb ha h'
    cases hm : m.get? k with
    | some w =>
      rcases c1 k w hm with h | h
      · obtain ⟨w', hw', hk⟩ := a2 k w h; simp [hw', hk]
      · obtain ⟨w', hw', hk⟩ := b2 k w h; simp [hw', hk]
    | none =>
      cases hm' : m'.get? k with
      | none => rfl
      | some w =>
        rcases c2 k w hm' with h | h
        · obtain ⟨w', hw', _⟩ := b1 k w h; rw [hm] at hw'; cases hw'
        · obtain ⟨w', hw', _⟩ := a1 k w h; rw [hm] at hw'; cases hw'

end

/-- C15 fails for "the same expression" read literally: two different compound expressions without
text and concept count as the same. -/
theorem merge_conflates : ∃ (a b m : Subst) (k : Key) (u v : Syn),
    a.get? k = some u ∧ b.get? k = some v ∧ u.eqv v = false ∧ consistentMerge a b = some m :=
  ⟨[(varX.key, Syn.newPair symA symB)], [(varX.key, Syn.newPair symB symC)],
    [(varX.key, Syn.newPair symB symC)], varX.key, Syn.newPair symA symB, Syn.newPair symB symC,
    by decide⟩

example : AMap.WF ([(varX.key, symA), (varY.key, symB)] : Subst) ∧
    Agree ([(varX.key, symA), (varY.key, symB)] : Subst) [(varX.key, symA)] ∧
    ¬ Agree ([(varX.key, symA)] : Subst) [(varX.key, symB)] := by
  refine ⟨by simp [AMap.WF, varX, varY, Syn.key, Syn.syntx, Syn.concept], ?_, ?_⟩
  · exact (merge_succeeds_iff _ _ (by simp [AMap.WF, varX, varY, Syn.key, Syn.syntx, Syn.concept])
      (by simp [AMap.WF])).1 ⟨_, rfl⟩
  · intro h
    have := h varX.key symA symB (by decide) (by decide)
    simp [Alike, symA, symB, Syn.syntx, Syn.concept] at this

/-! ## C16 -/

/-- C16. A successful match makes the example fit the pattern, place by place, and gives the least
assignment that does. -/
theorem match_sound (e g : Syn) (s : ExSubst) (h : checkExample e g = some s) :
    Fits s.gen.get? s.exam.get? e g ∧
    ∀ σ ρ, Fits σ ρ e g →
      (∀ k v, s.gen.get? k = some v → ∃ w, σ k = some w ∧ Alike w v) ∧
      (∀ k v, s.exam.get? k = some v → ∃ w, ρ k = some w ∧ Alike w v) := by
  have hs := checkExample_spec e g
  rw [h] at hs
  simpa only [key_eq_iff] using hs.2.2

/-- C16. A match is found whenever there is one. -/
theorem match_complete (e g : Syn) (σ : Key → Option Syn) (ρ : CId → Option Syn)
    (h : Fits σ ρ e g) : ∃ s, checkExample e g = some s := by
  have hs := checkExample_spec e g
  cases hc : checkExample e g with
  | some s => exact ⟨s, rfl⟩
  | none => rw [hc] at hs; exact absurd h (hs σ ρ)

/-- C16. Every expression matches itself. -/
theorem match_self (t : Syn) : ∃ s, checkExample t t = some s :=
  match_complete t t (fun k => some (.leaf k.syn k.concept .constant)) (fun _ => none)
    (fits_self _ _ t (fun s _ _ => ⟨_, rfl, rfl⟩))

/-- C16. If the example's parts are told apart by text and concept and its own variables were not
used, then putting the matched expressions in place of the variables of the pattern gives the
example. -/
theorem match_instance_partial (e g : Syn) (s : ExSubst) (h : checkExample e g = some s)
    (hx : s.exam = []) (hf : Faithful e) : SameLeaves (instantiate s.gen.get? g) e := by
  obtain ⟨h1, _⟩ := match_sound e g s h
  have hx' : s.exam.get? = fun _ => none := by rw [hx]; rfl
  rw [hx'] at h1
  exact fits_instance _ e hf (checkExample_values e g s h) g e (sub_refl e) h1

/-- C16 fails without that hypothesis: `_x_ _x_` matches `(a b) (b c)`. -/
theorem match_not_instance : ∃ e g s, checkExample e g = some s ∧ s.exam = [] ∧
    ¬ SameLeaves (instantiate s.gen.get? g) e := by
  refine ⟨Syn.newPair (Syn.newPair symA symB) (Syn.newPair symB symC), Syn.newPair varX varX,
    ⟨[(varX.key, Syn.newPair symB symC)], []⟩, by decide, rfl, ?_⟩
  have e : instantiate (AMap.get? [(varX.key, Syn.newPair symB symC)]) (Syn.newPair varX varX) =
    .branch none none (Syn.newPair symB symC) (Syn.newPair symB symC) [varX.key] [] := by decide
  rw [e]
  simp [SameLeaves, Syn.newPair, symA, symB, Alike, Syn.syntx]

example : checkExample (Syn.newPair symA symB) (Syn.newPair varX symB) =
    some ⟨[(varX.key, symA)], []⟩ ∧ Faithful (Syn.newPair symA symB) := by
  refine ⟨by decide, ?_⟩
  intro u v hu hv hal
  have cases3 : ∀ w, Sub w (Syn.newPair symA symB) → w = Syn.newPair symA symB ∨ w = symA ∨ w = symB := by
    intro w hw
    rcases sub_branch hw with h | h | h
    · exact Or.inl h
    · exact Or.inr (Or.inl (sub_leaf h))
    · exact Or.inr (Or.inr (sub_leaf h))
  rcases cases3 u hu with rfl | rfl | rfl <;> rcases cases3 v hv with rfl | rfl | rfl <;>
    first
      | rfl
      | (exact absurd hal (by simp [Alike, symA, symB, Syn.newPair, Syn.syntx, Syn.concept]))

/-! ## C17 -/

/-- C17. A mask is pushed iff it differs from every mask on the list, and then it is on top. -/
theorem push_iff (l : MaskList) (hl : Pushed l) (h : Mask) (hw : h.WF) (l' : MaskList) :
    l.push h = some l' ↔ (∀ m ∈ masks l, ¬ SameMask m h) ∧ masks l' = h :: masks l := by
  have hc := maskList_contains_iff l h (pushed_inv hl).1 hw
  have hinj : ∀ a b : MaskList, masks a = masks b → a = b := by
    intro a
    induction a with
    | one x =>
      intro b hb
      cases b with
      | one y => simp [masks] at hb; rw [hb]
      | cons y t => cases t <;> simp [masks] at hb
    | cons x t ih =>
      intro b hb
      cases b with
      | one y => cases t <;> simp [masks] at hb
      | cons y t' => simp [masks] at hb; rw [hb.1, ih t' hb.2]
  unfold MaskList.push
  by_cases hx : l.contains h = true
  · simp only [hx, if_true]
    obtain ⟨m, hm, hs⟩ := hc.1 hx
    constructor
    · intro h'; cases h'
    · rintro ⟨h1, _⟩; exact absurd hs (h1 m hm)
  · simp only [hx]
    have : ∀ m ∈ masks l, ¬ SameMask m h := fun m hm hs => hx (hc.2 ⟨m, hm, hs⟩)
    constructor
    · intro h'
      simp at h'
      exact ⟨this, by rw [← h']; rfl⟩
    · rintro ⟨_, h2⟩
      have : l' = .cons h l := hinj _ _ (by rw [h2]; rfl)
      simp [this]

/-- C17. A list built by pushes never holds the same assignment twice. -/
theorem pushed_distinct (l : MaskList) (h : Pushed l) :
    (masks l).Pairwise (fun a b => ¬ SameMask a b) := (pushed_inv h).2

/-- C17. A lookup sees the innermost assignment. -/
theorem get_innermost (l : MaskList) (id : CId) :
    l.get id = (masks l).findSome? (fun m => m.get? id) := by
  induction l with
  | one h => simp only [MaskList.get, masks, List.findSome?_cons]; cases AMap.get? h id <;> rfl
  | cons h t ih =>
    simp only [MaskList.get, masks, List.findSome?_cons, ih]
    cases AMap.get? h id <;> rfl

/-- C17. If only finitely many assignments are possible, at most that many masks can be stacked, so
rule application through masks cannot go on for ever. -/
theorem pushed_bounded (l : MaskList) (h : Pushed l) (possible : List Mask)
    (hp : ∀ m ∈ masks l, ∃ u ∈ possible, SameMask m u) :
    (masks l).length ≤ possible.length := by
  classical
  have key : ∀ (ms us : List Mask), ms.Pairwise (fun a b => ¬ SameMask a b) →
      (∀ m ∈ ms, ∃ u ∈ us, SameMask m u) → ms.length ≤ us.length := by
    intro ms
    induction ms with
    | nil => simp
    | cons m ms ih =>
      intro us hpw hcov
      obtain ⟨u, hu, hs⟩ := hcov m (by simp)
      have hpw' := List.pairwise_cons.1 hpw
      have := ih (us.erase u) hpw'.2 (by
        intro m' hm'
        obtain ⟨u', hu', hs'⟩ := hcov m' (by simp [hm'])
        refine ⟨u', ?_, hs'⟩
        have hne : u' ≠ u := by
          rintro rfl
          exact hpw'.1 m' hm' (fun id => (hs id).trans (hs' id).symm)
        exact (List.mem_erase_of_ne hne).2 hu')
      rw [List.length_erase_of_mem hu] at this
      have hpos : 0 < us.length := List.length_pos_of_mem hu
      simp only [List.length_cons]; omega
  exact key _ _ (pushed_distinct l h) hp

example : Pushed (.cons [(.com 30, symB)] (.one [(.com 30, symA)])) :=
  .push (.one [(.com 30, symA)] (by simp [AMap.WF])) (h := [(.com 30, symB)]) (by simp [AMap.WF])
    (by decide)

/-! ## C42 -/

/-- C42 fails: trees that compare equal need not hash equally, so hash maps keyed by trees miss. -/
theorem hash_incoherent : ∃ a b : Syn, a.eqv b = true ∧ a.hashInput ≠ b.hashInput :=
  ⟨.leaf (some ['a']) (some (.com 1)) .constant, .leaf (some ['a']) none .constant, by decide⟩

/-- C42, the part that holds: alike trees compare equal and hash equally. Missing: trees that
compare equal although only one of them carries a concept or a text. -/
theorem alike_hash_partial (a b : Syn) (h : Alike a b) (hs : a.syntx ≠ none ∨ a.concept ≠ none) :
    a.eqv b = true ∧ a.hashInput = b.hashInput := by
  obtain ⟨h1, h2⟩ := h
  refine ⟨?_, by simp [Syn.hashInput, h1, h2]⟩
  unfold Syn.eqv
  rw [← h1, ← h2]
  cases hx : a.syntx with
  | some s => simp
  | none =>
    cases hy : a.concept with
    | some c => simp
    | none => simp [hx, hy] at hs

example : Alike symA symA ∧ symA.syntx ≠ none := ⟨⟨rfl, rfl⟩, by decide⟩

end Zia.Props

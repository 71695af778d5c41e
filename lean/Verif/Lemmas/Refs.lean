import Verif.Lemmas.Store

/-!
# Stored references stay valid
-/

namespace Zia

/-- Something holds of every stored concept. -/
def AllC (P : Nat → Con → Prop) (cs : List Con) : Prop := ∀ i c, cs[i]? = some c → P i c

theorem AllC.set {P : Nat → Con → Prop} {cs : List Con} {i : Nat} {a : Con} (h : AllC P cs)
    (ha : P i a) : AllC P (cs.set i a) := by
  intro j c hj
  rw [List.getElem?_set] at hj
  split at hj
  · next e =>
    subst e
    split at hj
    · simp at hj; subst hj; exact ha
    · simp at hj
  · exact h j c hj

theorem AllC.push {P : Nat → Con → Prop} {cs : List Con} {a : Con} (h : AllC P cs)
    (ha : P cs.length a) : AllC P (cs ++ [a]) := by
  intro j c hj
  rw [List.getElem?_append] at hj
  split at hj
  · exact h j c hj
  · next e =>
    rw [List.getElem?_singleton] at hj
    split at hj
    · simp at hj; subst hj
      have : j = cs.length := by omega
      subst this; exact ha
    · simp at hj

theorem AllC.mono {P Q : Nat → Con → Prop} {cs : List Con} (h : AllC P cs)
    (hPQ : ∀ i c, P i c → Q i c) : AllC Q cs := fun i c hi => hPQ i c (h i c hi)

/-- All ids in a concept are below `n`. -/
def Bounded (n : Nat) (c : Con) : Prop := ∀ x ∈ Spec.refs c, x < n

/-- The concept at a position carries that position as its id and refers to ids below `n`. -/
def Fit (n : Nat) (i : Nat) (c : Con) : Prop := c.id = i ∧ Bounded n c

theorem Fit.mono {n m i : Nat} {c : Con} (h : Fit n i c) (hnm : n ≤ m) : Fit m i c :=
  ⟨h.1, fun x hx => Nat.lt_of_lt_of_le (h.2 x hx) hnm⟩

theorem mem_insert_or {α β : Type} [DecidableEq α] {m : AMap α β} {a : α} {b : β} {p : α × β}
    (h : p ∈ m.insert a b) : p = (a, b) ∨ p ∈ m := by
  induction m with
  | nil => simpa [AMap.insert] using h
  | cons q m ih =>
    obtain ⟨k, v⟩ := q
    simp only [AMap.insert] at h
    split at h
    · rcases List.mem_cons.1 h with h | h
      · exact .inl h
      · exact .inr (List.mem_cons_of_mem _ h)
    · rcases List.mem_cons.1 h with h | h
      · exact .inr (by simp [h])
      · exact (ih h).imp id (List.mem_cons_of_mem _)

theorem mem_of_mem_erase {α β : Type} [DecidableEq α] {m : AMap α β} {a : α} {p : α × β}
    (h : p ∈ m.erase a) : p ∈ m := (AMap.erase_sublist m a).subset h

/-- The ids of the specific part. -/
def specRefs (sp : Specific Nat) : List Nat :=
  match sp with
  | .concrete _ => []
  | .str _ => []
  | .abst (.comp l r f b) red => l :: r :: (f ++ b ++ red.toList)
  | .abst (.leaf _) red => red.toList

theorem mem_refs {c : Con} {x : Nat} : x ∈ Spec.refs c ↔ x ∈ specRefs c.spec ∨
    (∃ p ∈ c.leftOf, x = p.1 ∨ x = p.2) ∨ (∃ p ∈ c.rightOf, x = p.1 ∨ x = p.2) ∨ x ∈ c.redFrom := by
  simp only [Spec.refs, List.mem_append, List.mem_flatMap, List.mem_cons, List.not_mem_nil, or_false,
    or_assoc]
  rfl

theorem Fit.addLeft {n i k v : Nat} {c : Con} (h : Fit n i c) (hk : k < n) (hv : v < n) :
    Fit n i (c.addLeft k v) := by
  refine ⟨h.1, fun x hx => ?_⟩
  rw [mem_refs] at hx
  rcases hx with hx | ⟨p, hp, hx⟩ | hx | hx
  · exact h.2 x (mem_refs.2 (.inl hx))
  · rcases mem_insert_or hp with rfl | hp
    · rcases hx with rfl | rfl <;> assumption
    · exact h.2 x (mem_refs.2 (.inr (.inl ⟨p, hp, hx⟩)))
  · exact h.2 x (mem_refs.2 (.inr (.inr (.inl hx))))
  · exact h.2 x (mem_refs.2 (.inr (.inr (.inr hx))))

theorem Fit.addRight {n i k v : Nat} {c : Con} (h : Fit n i c) (hk : k < n) (hv : v < n) :
    Fit n i (c.addRight k v) := by
  refine ⟨h.1, fun x hx => ?_⟩
  rw [mem_refs] at hx
  rcases hx with hx | hx | ⟨p, hp, hx⟩ | hx
  · exact h.2 x (mem_refs.2 (.inl hx))
  · exact h.2 x (mem_refs.2 (.inr (.inl hx)))
  · rcases mem_insert_or hp with rfl | hp
    · rcases hx with rfl | rfl <;> assumption
    · exact h.2 x (mem_refs.2 (.inr (.inr (.inl ⟨p, hp, hx⟩))))
  · exact h.2 x (mem_refs.2 (.inr (.inr (.inr hx))))

theorem Fit.dropLeft {n i k : Nat} {c : Con} (h : Fit n i c) : Fit n i (c.dropLeft k) := by
  refine ⟨h.1, fun x hx => ?_⟩
  rw [mem_refs] at hx
  rcases hx with hx | ⟨p, hp, hx⟩ | hx | hx
  · exact h.2 x (mem_refs.2 (.inl hx))
  · exact h.2 x (mem_refs.2 (.inr (.inl ⟨p, mem_of_mem_erase hp, hx⟩)))
  · exact h.2 x (mem_refs.2 (.inr (.inr (.inl hx))))
  · exact h.2 x (mem_refs.2 (.inr (.inr (.inr hx))))

theorem Fit.dropRight {n i k : Nat} {c : Con} (h : Fit n i c) : Fit n i (c.dropRight k) := by
  refine ⟨h.1, fun x hx => ?_⟩
  rw [mem_refs] at hx
  rcases hx with hx | hx | ⟨p, hp, hx⟩ | hx
  · exact h.2 x (mem_refs.2 (.inl hx))
  · exact h.2 x (mem_refs.2 (.inr (.inl hx)))
  · exact h.2 x (mem_refs.2 (.inr (.inr (.inl ⟨p, mem_of_mem_erase hp, hx⟩))))
  · exact h.2 x (mem_refs.2 (.inr (.inr (.inr hx))))

theorem Fit.addFrom {n i k : Nat} {c : Con} (h : Fit n i c) (hk : k < n) :
    Fit n i (c.addFrom k) := by
  refine ⟨h.1, fun x hx => ?_⟩
  rw [mem_refs] at hx
  rcases hx with hx | hx | hx | hx
  · exact h.2 x (mem_refs.2 (.inl hx))
  · exact h.2 x (mem_refs.2 (.inr (.inl hx)))
  · exact h.2 x (mem_refs.2 (.inr (.inr (.inl hx))))
  · simp only [Concept.addFrom, mem_setInsert] at hx
    rcases hx with hx | rfl
    · exact h.2 x (mem_refs.2 (.inr (.inr (.inr hx))))
    · exact hk

theorem Fit.dropFrom {n i k : Nat} {c : Con} (h : Fit n i c) : Fit n i (c.dropFrom k) := by
  refine ⟨h.1, fun x hx => ?_⟩
  rw [mem_refs] at hx
  rcases hx with hx | hx | hx | hx
  · exact h.2 x (mem_refs.2 (.inl hx))
  · exact h.2 x (mem_refs.2 (.inr (.inl hx)))
  · exact h.2 x (mem_refs.2 (.inr (.inr (.inl hx))))
  · exact h.2 x (mem_refs.2 (.inr (.inr (.inr ((List.mem_filter.1 hx).1)))))

theorem Fit.withSpec {n i : Nat} {c : Con} {sp : Specific Nat} (h : Fit n i c)
    (hs : ∀ x ∈ specRefs sp, x < n) : Fit n i (c.withSpec sp) := by
  refine ⟨h.1, fun x hx => ?_⟩
  rw [mem_refs] at hx
  rcases hx with hx | hx | hx | hx
  · exact hs x hx
  · exact h.2 x (mem_refs.2 (.inr (.inl hx)))
  · exact h.2 x (mem_refs.2 (.inr (.inr (.inl hx))))
  · exact h.2 x (mem_refs.2 (.inr (.inr (.inr hx))))

/-- The ids in the composition. -/
def compRefs : MComp Nat → List Nat
  | .comp l r f b => l :: r :: (f ++ b)
  | .leaf _ => []

theorem mem_specRefs_abst {mc : MComp Nat} {red : Option Nat} {x : Nat} :
    x ∈ specRefs (.abst mc red) ↔ x ∈ compRefs mc ∨ x ∈ red := by
  cases mc <;> simp [specRefs, compRefs, or_assoc]

theorem mem_compositionVars {l r : Con} {x : Nat}
    (h : x ∈ (compositionVars l r).1 ∨ x ∈ (compositionVars l r).2) :
    x = r.id ∨ x ∈ Spec.refs l ∨ x ∈ Spec.refs r := by
  have hs : ∀ (c : Con) l r f b red, c.spec = .abst (.comp l r f b) red → ∀ x, x ∈ f ∨ x ∈ b →
      x ∈ Spec.refs c := by
    intro c l r f b red hs x hx
    rw [mem_refs, hs, mem_specRefs_abst]
    simp only [compRefs, List.mem_cons, List.mem_append]
    tauto
  have h1 := hs l
  have h2 := hs r
  rw [compositionVars] at h
  rcases hr : r.spec with t | ⟨⟨a, b, f, g⟩ | _ | _ | _, red⟩ | t <;>
  rcases hl : l.spec with t' | ⟨⟨a', b', f', g'⟩ | _ | _ | _, red'⟩ | t' <;>
  simp only [hr, hl, mem_setExtend, mem_setInsert, List.mem_filter, List.not_mem_nil, false_or,
    or_false, List.mem_singleton, false_and] at h h1 h2 <;>
  first
  | exact h.elim
  | (have h1 := fun h => h1 _ _ _ _ _ rfl x h
     have h2 := fun h => h2 _ _ _ _ _ rfl x h
     tauto)
  | (have h1 := fun h => h1 _ _ _ _ _ rfl x h
     tauto)
  | (have h2 := fun h => h2 _ _ _ _ _ rfl x h
     tauto)
  | tauto

theorem compOf_refs {n : Nat} {l r : Con} (hl : Bounded n l) (hr : Bounded n r) (hli : l.id < n)
    (hri : r.id < n) : ∀ x ∈ compRefs (compOf l r), x < n := by
  intro x hx
  simp only [compOf, compRefs, List.mem_cons, List.mem_append] at hx
  rcases hx with rfl | rfl | hx
  · exact hli
  · exact hri
  · rcases mem_compositionVars hx with rfl | hx | hx
    · exact hri
    · exact hl x hx
    · exact hr x hx

theorem red_lt {n : Nat} {c : Con} {mc : MComp Nat} {red : Option Nat} (h : Bounded n c)
    (hs : c.spec = .abst mc red) : ∀ x ∈ red, x < n := by
  intro x hx
  apply h x
  rw [mem_refs, hs, mem_specRefs_abst]
  exact .inl (.inr hx)

theorem comp_lt {n : Nat} {c : Con} {mc : MComp Nat} {red : Option Nat} (h : Bounded n c)
    (hs : c.spec = .abst mc red) : ∀ x ∈ compRefs mc, x < n := by
  intro x hx
  apply h x
  rw [mem_refs, hs, mem_specRefs_abst]
  exact .inl (.inl hx)

theorem lt_of_get {cs : List Con} {i : Nat} {c : Con} (h : cs[i]? = some c) : i < cs.length := by
  rw [List.getElem?_eq_some_iff] at h
  exact h.1

theorem leafOrConcrete_refs {t : Option CCT} : specRefs (leafOrConcrete t) = [] := by
  cases t <;> rfl

theorem AllC.bounded {n : Nat} {cs : List Con} {i : Nat} {c : Con} (h : AllC (Fit n) cs)
    (hi : cs[i]? = some c) : Bounded n c := (h i c hi).2

theorem AllC.idLt {cs : List Con} {n i : Nat} {c : Con} (h : AllC (Fit n) cs)
    (hi : cs[i]? = some c) : c.id < cs.length := by
  rw [(h i c hi).1]; exact lt_of_get hi

/-- The references are valid and the temporary ids name stored concepts. -/
structure RefsInv (s : Snap) : Prop where
  valid : Spec.RefsValid s
  prev : ∀ u n, s.prev.get? u = some n → n < s.concepts.length

theorem RefsInv.fit {s : Snap} (h : RefsInv s) : AllC (Fit s.concepts.length) s.concepts :=
  fun i c hi => ⟨h.valid.ids i c hi, h.valid.concepts i c hi⟩

theorem refsInv_iff {s : Snap} : RefsInv s ↔ AllC (Fit s.concepts.length) s.concepts ∧
    (∀ t i, (t, i) ∈ s.stringMap → i < s.concepts.length) ∧
    (∀ i t, (i, t) ∈ s.concrete → i < s.concepts.length) ∧
    (∀ u n, s.prev.get? u = some n → n < s.concepts.length) := by
  constructor
  · intro h
    exact ⟨h.fit, h.valid.strings, h.valid.concrete, h.prev⟩
  · rintro ⟨h1, h2, h3, h4⟩
    exact ⟨⟨fun i c hi => (h1 i c hi).1, fun i c hi => (h1 i c hi).2, h2, h3⟩, h4⟩

/-- Pushing a concept. -/
theorem RefsInv.push {s : Snap} (h : RefsInv s) {u : Nat} {cs : List Con} {c : Con}
    (hl : cs.length = s.concepts.length)
    (hcs : AllC (Fit (s.concepts.length + 1)) cs)
    (hc : Fit (s.concepts.length + 1) s.concepts.length c) : RefsInv (s.pushNew u cs c) := by
  rw [refsInv_iff] at h ⊢
  obtain ⟨h1, h2, h3, h4⟩ := h
  have hlen : (s.pushNew u cs c).concepts.length = s.concepts.length + 1 := by
    simp [Snap.pushNew, hl]
  rw [hlen]
  refine ⟨?_, ?_, ?_, ?_⟩
  · exact hcs.push (by rw [hl]; exact hc)
  · intro t i hi; exact Nat.lt_succ_of_lt (h2 t i hi)
  · intro t i hi; exact Nat.lt_succ_of_lt (h3 t i hi)
  · intro v n hv
    simp only [Snap.pushNew, AMap.get?_insert] at hv
    split at hv
    · simp at hv; omega
    · exact Nat.lt_succ_of_lt (h4 v n hv)

theorem RefsInv.register {s : Snap} (h : RefsInv s) {i : Nat} {t : Option CCT}
    (hi : i < s.concepts.length) : RefsInv (s.registerConcrete i t) := by
  cases t with
  | none => exact h
  | some t =>
    rw [refsInv_iff] at h ⊢
    obtain ⟨h1, h2, h3, h4⟩ := h
    refine ⟨h1, h2, ?_, h4⟩
    intro j t' hj
    simp only [Snap.registerConcrete, bimapInsert, List.mem_append, List.mem_singleton] at hj
    rcases hj with hj | hj
    · exact h3 j t' ((List.mem_filter.1 hj).1)
    · cases hj; exact hi

theorem RefsInv.withConcepts {s : Snap} (h : RefsInv s) {cs : List Con}
    (hl : cs.length = s.concepts.length) (hcs : AllC (Fit s.concepts.length) cs) :
    RefsInv (s.withConcepts cs) := by
  rw [refsInv_iff] at h ⊢
  obtain ⟨h1, h2, h3, h4⟩ := h
  simp only [Snap.withConcepts, hl]
  exact ⟨hcs, h2, h3, h4⟩

theorem fit_mk' {n i : Nat} {sp : Specific Nat} (h : ∀ x ∈ specRefs sp, x < n) :
    Fit n i (Concept.mk' i sp) := by
  refine ⟨rfl, fun x hx => ?_⟩
  rw [mem_refs] at hx
  rcases hx with hx | ⟨p, hp, _⟩ | ⟨p, hp, _⟩ | hx
  · exact h x hx
  · simp [Concept.mk'] at hp
  · simp [Concept.mk'] at hp
  · simp [Concept.mk'] at hx

/-- Every change keeps the references valid. -/
theorem Step.refsInv {s s' : Snap} {p : CId × Direct CId} (h : RefsInv s) (st : Step s p s') :
    RefsInv s' := by
  have fit := h.fit
  have fit1 : AllC (Fit (s.concepts.length + 1)) s.concepts :=
    fit.mono (fun i c hc => hc.mono (Nat.le_succ _))
  have idl : ∀ {i : Nat} {c : Con}, s.concepts[i]? = some c → c.id < s.concepts.length :=
    fun hi => fit.idLt hi
  have idl1 : ∀ {i : Nat} {c : Con}, s.concepts[i]? = some c → c.id < s.concepts.length + 1 :=
    fun hi => Nat.lt_succ_of_lt (fit.idLt hi)
  have new1 : s.concepts.length < s.concepts.length + 1 := Nat.lt_succ_self _
  cases st with
  | freeVariable u => exact h.push rfl fit1 (fit_mk' (by simp [specRefs]))
  | boundVariable u => exact h.push rfl fit1 (fit_mk' (by simp [specRefs]))
  | str u t =>
    have h' := h.push (u := u) rfl fit1 (fit_mk' (i := s.concepts.length) (sp := .str t)
      (by simp [specRefs]))
    rw [refsInv_iff] at h' ⊢
    obtain ⟨h1, h2, h3, h4⟩ := h'
    refine ⟨h1, ?_, h3, h4⟩
    intro t' i hi
    rcases mem_insert_or hi with hi | hi
    · cases hi; simp [Snap.pushNew]
    · exact h2 t' i hi
  | composition u p l r cl cr hl hr hne hcl hcr hlo hro =>
    refine h.push (by simp) ((fit1.set ?_).set ?_) (fit_mk' ?_)
    · exact (fit1 l cl hcl).addLeft (idl1 hcr) new1
    · exact (fit1 r cr hcr).addRight (idl1 hcl) new1
    · intro x hx
      rw [mem_specRefs_abst] at hx
      rcases hx with hx | hx
      · exact compOf_refs (fit1.bounded hcl) (fit1.bounded hcr) (idl1 hcl) (idl1 hcr) x hx
      · simp at hx
  | left u comp r t ri k cr ck red f b hr hk hne hcr hck hs hro hv =>
    refine RefsInv.register (h.push (by simp) ((fit1.set ?_).set ?_) ?_) (by simp [Snap.pushNew])
    · exact (fit1 ri cr hcr).addRight new1 (idl1 hck)
    · refine (fit1 k ck hck).withSpec ?_
      intro x hx
      rw [mem_specRefs_abst] at hx
      rcases hx with hx | hx
      · simp only [compRefs, List.mem_cons, List.mem_append] at hx
        rcases hx with rfl | rfl | hx
        · exact new1
        · exact idl1 hcr
        · rcases hv x hx with rfl | hx
          · exact new1
          · exact fit1.bounded hcr x hx
      · exact red_lt (fit1.bounded hck) hs x hx
    · refine ⟨rfl, fun x hx => ?_⟩
      rw [mem_refs] at hx
      simp only [leafOrConcrete_refs, List.not_mem_nil, List.mem_singleton, false_or, or_false,
        false_and, exists_false, exists_eq_left] at hx
      rcases hx with rfl | rfl
      · exact idl1 hcr
      · exact idl1 hck
  | right u comp l t li k cl ck red f b hl hk hne hcl hck hs hlo hv =>
    refine RefsInv.register (h.push (by simp) ((fit1.set ?_).set ?_) ?_) (by simp [Snap.pushNew])
    · exact (fit1 li cl hcl).addLeft new1 (idl1 hck)
    · refine (fit1 k ck hck).withSpec ?_
      intro x hx
      rw [mem_specRefs_abst] at hx
      rcases hx with hx | hx
      · simp only [compRefs, List.mem_cons, List.mem_append] at hx
        rcases hx with rfl | rfl | hx
        · exact idl1 hcl
        · exact new1
        · rcases hv x hx with rfl | hx
          · exact idl1 hcl
          · exact fit1.bounded hcl x hx
      · exact red_lt (fit1.bounded hck) hs x hx
    · refine ⟨rfl, fun x hx => ?_⟩
      rw [mem_refs] at hx
      simp only [leafOrConcrete_refs, List.not_mem_nil, List.mem_singleton, false_or, or_false,
        false_and, exists_false, exists_eq_left] at hx
      rcases hx with rfl | rfl
      · exact idl1 hcl
      · exact idl1 hck
  | double u comp t k ck mc red hk hck hs =>
    refine RefsInv.register (h.push (by simp) (fit1.set ?_) ?_) (by simp [Snap.pushNew])
    · refine (fit1 k ck hck).withSpec ?_
      intro x hx
      rw [mem_specRefs_abst] at hx
      rcases hx with hx | hx
      · simp only [compRefs, List.mem_cons, List.append_nil, List.not_mem_nil, or_false,
          or_self] at hx
        subst hx; exact new1
      · exact red_lt (fit1.bounded hck) hs x hx
    · refine ⟨rfl, fun x hx => ?_⟩
      rw [mem_refs] at hx
      simp only [leafOrConcrete_refs, List.not_mem_nil, List.mem_singleton, false_or, or_false,
        exists_eq_left, or_self] at hx
      rcases hx with rfl | rfl
      · exact new1
      · exact idl1 hck
  | reducesTo u r ri cr hr hcr =>
    refine h.push (by simp) (fit1.set ?_) (fit_mk' ?_)
    · exact (fit1 ri cr hcr).addFrom new1
    · intro x hx
      rw [mem_specRefs_abst] at hx
      simp only [compRefs, List.not_mem_nil, false_or, Option.mem_def, Option.some.injEq] at hx
      subst hx; exact idl1 hcr
  | composeCreate comp p k l r ck cl cr mc red hk hl hr hkl hkr hlr hck hcl hcr hs hlo hro =>
    refine h.withConcepts (by simp) (((fit.set ?_).set ?_).set ?_)
    · refine (fit k ck hck).withSpec ?_
      intro x hx
      rw [mem_specRefs_abst] at hx
      rcases hx with hx | hx
      · exact compOf_refs (fit.bounded hcl) (fit.bounded hcr) (idl hcl) (idl hcr) x hx
      · exact red_lt (fit.bounded hck) hs x hx
    · exact (fit l cl hcl).addLeft (idl hcr) (idl hck)
    · exact (fit r cr hcr).addRight (idl hcl) (idl hck)
  | composeUpdate comp b a k bl br al ar ck cbl cbr cal car mc red hk hbl hbr hal har hnd hck hcbl
      hcbr hcal hcar hs hlo hro =>
    refine h.withConcepts (by simp) (((((fit.set ?_).set ?_).set ?_).set ?_).set ?_)
    · refine (fit k ck hck).withSpec ?_
      intro x hx
      rw [mem_specRefs_abst] at hx
      rcases hx with hx | hx
      · exact compOf_refs (fit.bounded hcal) (fit.bounded hcar) (idl hcal) (idl hcar) x hx
      · exact red_lt (fit.bounded hck) hs x hx
    · exact (fit bl cbl hcbl).dropLeft
    · exact (fit br cbr hcbr).dropRight
    · exact (fit al cal hcal).addLeft (idl hcar) (idl hck)
    · exact (fit ar car hcar).addRight (idl hcal) (idl hck)
  | composeRemove comp p k l r ck cl cr mc red hk hl hr hkl hkr hlr hck hcl hcr hs =>
    refine h.withConcepts (by simp) (((fit.set ?_).set ?_).set ?_)
    · refine (fit k ck hck).withSpec ?_
      intro x hx
      rw [mem_specRefs_abst] at hx
      rcases hx with hx | hx
      · simp [compRefs] at hx
      · exact red_lt (fit.bounded hck) hs x hx
    · exact (fit l cl hcl).dropLeft
    · exact (fit r cr hcr).dropRight
  | reduceCreate c r k ri ck cr mc red hk hr hne hck hcr hs =>
    refine h.withConcepts (by simp) ((fit.set ?_).set ?_)
    · refine (fit k ck hck).withSpec ?_
      intro x hx
      rw [mem_specRefs_abst] at hx
      rcases hx with hx | hx
      · exact comp_lt (fit.bounded hck) hs x hx
      · simp at hx; subst hx; exact idl hcr
    · exact (fit ri cr hcr).addFrom (idl hck)
  | reduceUpdate c b a k bi ai ck cb ca mc red hk hb ha hkb hka hba hck hcb hca hs =>
    refine h.withConcepts (by simp) (((fit.set ?_).set ?_).set ?_)
    · refine (fit k ck hck).withSpec ?_
      intro x hx
      rw [mem_specRefs_abst] at hx
      rcases hx with hx | hx
      · exact comp_lt (fit.bounded hck) hs x hx
      · simp at hx; subst hx; exact idl hca
    · exact (fit bi cb hcb).dropFrom
    · exact (fit ai ca hca).addFrom (idl hck)
  | reduceRemove c b k bi ck cb mc red hk hb hne hck hcb hs =>
    refine h.withConcepts (by simp) ((fit.set ?_).set ?_)
    · refine (fit k ck hck).withSpec ?_
      intro x hx
      rw [mem_specRefs_abst] at hx
      rcases hx with hx | hx
      · exact comp_lt (fit.bounded hck) hs x hx
      · simp at hx
    · exact (fit bi cb hcb).dropFrom

end Zia

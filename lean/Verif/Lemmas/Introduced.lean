import Verif.Lemmas.Grown

/-!
# What is kept when words are introduced
-/

namespace Zia
open Spec Relation
set_option linter.unusedSectionVars false

variable {s s' : Snap} {N : List Str}

namespace Added
variable (T : Added s s' N)
include T

/-- The concepts there are. -/
theorem cases {k : Nat} {sp : Specific Nat} (h : specs s' k = some sp) :
    k < s.concepts.length ∨ ∃ m t, N[m]? = some t ∧
      (k = s.concepts.length + 3 * m ∨ k = s.concepts.length + 3 * m + 1 ∨ k = s.concepts.length + 3 * m + 2) := by
  have hk : k < s'.concepts.length := by
    simp only [specs, look, Option.map_eq_some_iff] at h
    obtain ⟨c, hc, _⟩ := h
    exact lt_of_get hc
  rcases Nat.lt_or_ge k s.concepts.length with h0 | h0
  · exact .inl h0
  · right
    have hl := T.len
    have hm : (k - s.concepts.length) / 3 < N.length := by omega
    refine ⟨(k - s.concepts.length) / 3, _, List.getElem?_eq_getElem hm, ?_⟩
    omega

/-- The reductions there are. -/
theorem reduces {a b : Nat} : ReducesTo s' a b ↔ ReducesTo s a b ∨
    ∃ m t, N[m]? = some t ∧ a = s.concepts.length + 3 * m + 1 ∧ b = s.concepts.length + 3 * m := by
  constructor
  · intro h
    rw [reducesTo_specs] at h
    obtain ⟨sp, h4, h5⟩ := h
    rcases T.cases h4 with hk | ⟨m, t, hm, hk⟩
    · rw [T.old a hk] at h4
      exact .inl (reducesTo_specs.2 ⟨sp, h4, h5⟩)
    · obtain ⟨n1, ⟨f, b', n2⟩, n3⟩ := T.new m t hm
      rcases hk with rfl | rfl | rfl
      · rw [n1] at h4; cases h4; cases h5
      · rw [n2] at h4; cases h4; cases h5
        exact .inr ⟨m, t, hm, rfl, rfl⟩
      · rw [n3] at h4; cases h4; cases h5
  · rintro (h | ⟨m, t, hm, rfl, rfl⟩)
    · rw [reducesTo_specs] at h ⊢
      obtain ⟨sp, h4, h5⟩ := h
      refine ⟨sp, ?_, h5⟩
      rw [T.old a ?_, h4]
      simp only [specs, look, Option.map_eq_some_iff] at h4
      obtain ⟨c, hc, _⟩ := h4
      exact lt_of_get hc
    · obtain ⟨_, ⟨f, b', n2⟩, _⟩ := T.new m t hm
      exact reducesTo_specs.2 ⟨_, n2, rfl⟩

/-- The compositions there are. -/
theorem composed {k l r : Nat} : ComposedOf s' k l r ↔ ComposedOf s k l r ∨
    ∃ m t, N[m]? = some t ∧ k = s.concepts.length + 3 * m + 1 ∧ l = builtin .label ∧
      r = s.concepts.length + 3 * m + 2 := by
  constructor
  · intro h
    rw [composedOf_specs] at h
    obtain ⟨sp, h4, h5⟩ := h
    rcases T.cases h4 with hk | ⟨m, t, hm, hk⟩
    · rw [T.old k hk] at h4
      exact .inl (composedOf_specs.2 ⟨sp, h4, h5⟩)
    · obtain ⟨n1, ⟨f, b', n2⟩, n3⟩ := T.new m t hm
      rcases hk with rfl | rfl | rfl
      · rw [n1] at h4; cases h4; cases h5
      · rw [n2] at h4; cases h4; cases h5
        exact .inr ⟨m, t, hm, rfl, rfl, rfl⟩
      · rw [n3] at h4; cases h4; cases h5
  · rintro (h | ⟨m, t, hm, rfl, rfl, rfl⟩)
    · rw [composedOf_specs] at h ⊢
      obtain ⟨sp, h4, h5⟩ := h
      have hk : k < s.concepts.length := by
        simp only [specs, look, Option.map_eq_some_iff] at h4
        obtain ⟨c, hc, _⟩ := h4
        exact lt_of_get hc
      exact ⟨sp, by rw [T.old k hk, h4], h5⟩
    · obtain ⟨_, ⟨f, b', n2⟩, _⟩ := T.new m t hm
      exact composedOf_specs.2 ⟨_, n2, rfl⟩

/-- The strings there are. -/
theorem strings {k : Nat} {t : Str} : IsString s' k t ↔ IsString s k t ∨
    ∃ m, N[m]? = some t ∧ k = s.concepts.length + 3 * m := by
  simp only [isString_specs]
  constructor
  · intro h4
    rcases T.cases h4 with hk | ⟨m, t, hm, hk⟩
    · rw [T.old k hk] at h4
      exact .inl h4
    · obtain ⟨n1, ⟨f, b', n2⟩, n3⟩ := T.new m t hm
      rcases hk with rfl | rfl | rfl
      · rw [n1] at h4; cases h4
        exact .inr ⟨m, hm, rfl⟩
      · rw [n2] at h4; cases h4
      · rw [n3] at h4; cases h4
  · rintro (h4 | ⟨m, hm, rfl⟩)
    · have hk : k < s.concepts.length := by
        simp only [specs, look, Option.map_eq_some_iff] at h4
        obtain ⟨c, hc, _⟩ := h4
        exact lt_of_get hc
      rw [T.old k hk, h4]
    · exact (T.new m t hm).1

variable (U : Nameable s)
include U

/-- What follows a concept that was stored. -/
theorem onward {k q : Nat} (hk : k < s.concepts.length) (h : ReflTransGen (ReducesTo s') k q) :
    ReflTransGen (ReducesTo s) k q := by
  induction h using ReflTransGen.head_induction_on with
  | refl => exact .refl
  | head h hq ih =>
    rcases T.reduces.1 h with hr | ⟨m, t, hm, rfl, rfl⟩
    · exact .head hr (ih (reducesTo_lt U.refs hr).2)
    · omega

omit T in
theorem hasName_lt {z : Nat} {t : Str} (h : HasName s z t) : z < s.concepts.length := by
  obtain ⟨k, r, hk, _⟩ := h
  exact (composedOf_lt U.refs hk).2

/-- The names there are. -/
theorem named {z : Nat} {t : Str} (h : HasName s' z t) :
    HasName s z t ∨ ∃ m, N[m]? = some t ∧ z = s.concepts.length + 3 * m + 2 := by
  obtain ⟨k, r, hk, hr, hs⟩ := h
  rcases T.composed.1 hk with hk | ⟨m, u, hm, rfl, _, rfl⟩
  · left
    have hlt : k < s.concepts.length := by
      obtain ⟨c, hc, _⟩ := hk
      exact lt_of_get hc
    obtain ⟨k', h1, h2⟩ := TransGen.head'_iff.1 hr
    rcases T.reduces.1 h1 with hr' | ⟨m, t, hm, e, rfl⟩
    · have h3 := T.onward U (reducesTo_lt U.refs hr').2 h2
      refine ⟨k, r, hk, .head' hr' h3, ?_⟩
      rcases T.strings.1 hs with h | ⟨m, _, rfl⟩
      · exact h
      · have := chain_old U.refs (reducesTo_lt U.refs hr').2 h3
        omega
    · omega
  · right
    obtain ⟨k', h1, h2⟩ := TransGen.head'_iff.1 hr
    have : k' = s.concepts.length + 3 * m := by
      rcases T.reduces.1 h1 with hr' | ⟨m, t, hm, e, rfl⟩
      · have := (reducesTo_lt U.refs hr').1
        omega
      · omega
    subst this
    have hst := (T.strings (t := u)).2 (.inr ⟨m, hm, rfl⟩)
    rcases ReflTransGen.cases_head h2 with rfl | ⟨q, hq, _⟩
    · rw [isString_specs] at hst hs
      rw [hst] at hs
      cases hs
      exact ⟨m, hm, rfl⟩
    · exact absurd hq (isString_iff.1 hst).unreduced

omit U in
/-- The names that were stored are. -/
theorem keepsName {z : Nat} {t : Str} (h : HasName s z t) : HasName s' z t := by
  obtain ⟨k, r, hk, hr, hs⟩ := h
  exact ⟨k, r, T.composed.2 (.inl hk), TransGen.mono (fun a b hab => T.reduces.2 (.inl hab)) _ _ hr,
    T.strings.2 (.inl hs)⟩

omit U in
theorem newName {m : Nat} {t : Str} (h : N[m]? = some t) : HasName s' (s.concepts.length + 3 * m + 2) t :=
  ⟨_, _, T.composed.2 (.inr ⟨m, t, h, rfl, rfl, rfl⟩), .single (T.reduces.2 (.inr ⟨m, t, h, rfl, rfl⟩)),
    T.strings.2 (.inr ⟨m, h, rfl⟩)⟩

variable (hN : ∀ t ∈ N, Syn.isVariableName t = false)
include hN

/-- What is displayed as a variable was. -/
theorem shown {k : Nat} (h : ShownAsVariable s' k) : ShownAsVariable s k := by
  obtain ⟨z, t, hz, hn, hv⟩ := h
  have hs : HasName s z t := by
    rcases T.named U hn with h | ⟨m, hm, _⟩
    · exact h
    · rw [hN t (List.mem_of_getElem? hm)] at hv
      cases hv
  have hlt := hasName_lt U hs
  rcases Nat.lt_or_ge k s.concepts.length with hk | hk
  · exact ⟨z, t, T.onward U hk hz, hs, hv⟩
  · exfalso
    rcases ReflTransGen.cases_head hz with rfl | ⟨q, h1, h2⟩
    · omega
    · rcases T.reduces.1 h1 with hr | ⟨m, u, hm, rfl, rfl⟩
      · have := (reducesTo_lt U.refs hr).1
        omega
      · have hst := (T.strings (t := u)).2 (.inr ⟨m, hm, rfl⟩)
        rcases ReflTransGen.cases_head h2 with rfl | ⟨q, hq, _⟩
        · omega
        · exact absurd hq (isString_iff.1 hst).unreduced

omit U hN in
/-- What is a variable was, or is new. -/
theorem ofVariables {k : Nat} (h : OfVariables s' k) : OfVariables s k ∨
    ∃ m t, N[m]? = some t ∧ k = s.concepts.length + 3 * m + 1 := by
  have an : ∀ {s : Snap} {k}, OfVariables s k ↔ ∃ sp, specs s k = some sp ∧
      ∀ c : Con, c.spec = sp → c.isAnonymous = true := by
    intro s k
    constructor
    · rintro ⟨c, hc, ha⟩
      refine ⟨c.spec, specs_get hc, fun c' e => ?_⟩
      unfold Concept.isAnonymous at ha ⊢
      rw [e]; exact ha
    · rintro ⟨sp, hs, hc⟩
      simp only [specs, look, Option.map_eq_some_iff] at hs
      obtain ⟨c, h1, h2⟩ := hs
      exact ⟨c, h1, hc c h2⟩
  obtain ⟨sp, h4, h5⟩ := an.1 h
  rcases T.cases h4 with hk | ⟨m, t, hm, hk⟩
  · rw [T.old k hk] at h4
    exact .inl (an.2 ⟨sp, h4, h5⟩)
  · obtain ⟨n1, ⟨f, b', n2⟩, n3⟩ := T.new m t hm
    rcases hk with rfl | rfl | rfl
    · rw [n1] at h4; cases h4
      have := h5 ⟨0, [], [], [], .str t⟩ rfl
      cases this
    · exact .inr ⟨m, t, hm, rfl⟩
    · rw [n3] at h4; cases h4
      have := h5 ⟨0, [], [], [], .abst (.leaf .constant) none⟩ rfl
      cases this

theorem varies {k : Nat} (h : MayVary s' k) : MayVary s k ∨
    ∃ m t, N[m]? = some t ∧ k = s.concepts.length + 3 * m + 1 := by
  rcases h with h | h
  · exact (T.ofVariables h).imp_left .inl
  · exact .inl (.inr (T.shown U hN h))

theorem constant_of {q : Nat} (h1 : ¬MayVary s q) (h2 : ∀ m, q ≠ s.concepts.length + 3 * m + 1) : ¬MayVary s' q := by
  intro hv
  rcases T.varies U hN hv with h | ⟨m, _, _, e⟩
  · exact h1 h
  · exact h2 m e

/-- A concept with a name and without definition stays such. -/
theorem keepsPlain {q : Nat} {t : Str} (ht : PlainWord s q t) : PlainWord s' q t := by
  have hq : q < s.concepts.length := hasName_lt U ht.name
  refine ⟨T.keepsName ht.name, ?_, ?_, ht.constant⟩
  · intro l r hc
    rcases T.composed.1 hc with h | ⟨m, _, _, e, _⟩
    · exact ht.simple l r h
    · omega
  · intro u hs
    rcases T.strings.1 hs with h | ⟨m, _, e⟩
    · exact ht.nostring u h
    · omega

/-- A known word is still one. -/
theorem keepsWord {q : Nat} {t : Str} (ht : PlainWord s q t) (hu : Unconnected s q) :
    PlainWord s' q t ∧ Unconnected s' q := by
  have hq : q < s.concepts.length := hasName_lt U ht.name
  refine ⟨⟨T.keepsName ht.name, ?_, ?_, ht.constant⟩, ?_, ?_, ?_⟩
  · intro l r hc
    rcases T.composed.1 hc with h | ⟨m, _, _, e, _⟩
    · exact ht.simple l r h
    · omega
  · intro u hs
    rcases T.strings.1 hs with h | ⟨m, _, e⟩
    · exact ht.nostring u h
    · omega
  · intro k r hc
    rcases T.composed.1 hc with h | ⟨m, _, _, _, e, _⟩
    · exact hu.left k r h
    · obtain ⟨k', _, hk', _⟩ := ht.name
      rw [← e] at hk'
      exact hu.left _ _ hk'
  · intro k l hc
    rcases T.composed.1 hc with h | ⟨m, _, _, _, e, _⟩
    · exact hu.right k l h
    · exact e
  · exact T.constant_of U hN hu.constant (fun m => by omega)

/-- A new word is a word. -/
theorem newWord {m : Nat} {t : Str} (hm : N[m]? = some t) :
    PlainWord s' (s.concepts.length + 3 * m + 2) t ∧ Unconnected s' (s.concepts.length + 3 * m + 2) := by
  refine ⟨⟨T.newName hm, ?_, ?_, hN t (List.mem_of_getElem? hm)⟩, ?_, ?_, ?_⟩
  · intro l r hc
    rcases T.composed.1 hc with ⟨c, hc, _⟩ | ⟨m, _, _, e', _⟩
    · have := lt_of_get hc
      omega
    · omega
  · intro u hs
    rcases T.strings.1 hs with ⟨c, hc, _⟩ | ⟨m, _, e⟩
    · have := lt_of_get hc
      omega
    · omega
  · intro k r hc
    rcases T.composed.1 hc with h | ⟨m', u, hm', e1, e2, _⟩
    · have := (composedOf_lt U.refs h).1
      omega
    · have := label_lt U
      omega
  · intro k l hc
    rcases T.composed.1 hc with h | ⟨m, _, _, _, e, _⟩
    · have := (composedOf_lt U.refs h).2
      omega
    · exact e
  · refine T.constant_of U hN ?_ (fun m => by omega)
    rintro (⟨c, hc, _⟩ | hv)
    · have := lt_of_get hc
      omega
    · obtain ⟨z, t, hz, hn, hv⟩ := hv
      have h1 := hasName_lt U hn
      rcases ReflTransGen.cases_head hz with rfl | ⟨q, h1, h2⟩
      · omega
      · have := (reducesTo_lt U.refs h1).1
        omega

/-- There still is no rule about everything. -/
theorem noBlanketRule (hr : NoBlanketRule s) (hf : RedFwd s.concepts) (hv : RedRev (look s'.concepts)) :
    NoBlanketRule s' := by
  have ne : builtin .implication ≠ builtin .label := by decide
  have lab : ¬MayVary s' (builtin .label) := by
    intro h
    have hl := label_lt U
    rcases T.varies U hN h with (⟨c, hc, ha⟩ | h) | ⟨m, _, _, e⟩
    · obtain ⟨k, hk, e⟩ := (U.concrete _).2 rfl
      rw [hk] at hc
      cases hc
      simp [Concept.isAnonymous, e] at ha
    · exact hr.operators .label (by simp) h
    · omega
  have comp : ∀ {k l r}, k < s.concepts.length → ComposedOf s' k l r → ComposedOf s k l r := by
    intro k l r hk h
    rcases T.composed.1 h with h | ⟨m, _, _, e, _⟩
    · exact h
    · omega
  have vary : ∀ {k}, k < s.concepts.length → MayVary s' k → MayVary s k := by
    intro k hk h
    rcases T.varies U hN h with h | ⟨m, _, _, e⟩
    · exact h
    · omega
  refine ⟨?_, ?_, ?_, ?_⟩
  · intro k l r hc hs
    have hs := T.shown U hN hs
    rcases T.composed.1 hc with h | ⟨m, _, _, e, _⟩
    · exact hr.names k l r h hs
    · obtain ⟨z, t, hz, hn, _⟩ := hs
      have := hasName_lt U hn
      rcases ReflTransGen.cases_head hz with rfl | ⟨q, h1, h2⟩
      · omega
      · have := (reducesTo_lt U.refs h1).1
        omega
  · intro t ht hs
    exact hr.operators t ht (T.shown U hN hs)
  · intro e r hc h
    rcases T.composed.1 hc with h' | ⟨m, _, _, _, e, _⟩
    · obtain ⟨l', r', hq⟩ := hr.conclusions e r h' (vary (composedOf_lt U.refs h').2 h)
      exact ⟨l', r', T.composed.2 (.inl hq)⟩
    · exact absurd e ne
  · intro e l r q p d hc hl hq hpd hp
    rcases T.composed.1 hc with h | ⟨m, _, _, _, e, _⟩
    · obtain ⟨ll, lr⟩ := composedOf_lt U.refs h
      have hq' : (q = r ∨ ListsReduced s r q) ∧ q < s.concepts.length := by
        rcases hq with rfl | ⟨c, hc, hm⟩
        · exact ⟨.inl rfl, lr⟩
        · have hqr := reducesTo_iff.2 (hv r c q hc hm)
          rcases T.reduces.1 hqr with hqr | ⟨m, _, _, _, e⟩
          · refine ⟨.inr ?_, (reducesTo_lt U.refs hqr).1⟩
            obtain ⟨cq, h1, h2⟩ := reducesTo_iff.1 hqr
            obtain ⟨k, h3, h4⟩ := hf q cq r h1 h2
            exact ⟨k, h3, h4⟩
          · omega
      have hpd' := comp hq'.2 hpd
      obtain ⟨lp, ld⟩ := composedOf_lt U.refs hpd'
      obtain ⟨h1, h2⟩ := hr.rules e l r q p d h (hl.imp_right (vary ll)) hq'.1 hpd' (vary lp hp)
      refine ⟨fun hd => ?_, fun l' r' hd => ?_⟩
      · obtain ⟨l', r', h3⟩ := h1 (vary ld hd)
        exact ⟨l', r', T.composed.2 (.inl h3)⟩
      · have hd' := comp ld hd
        obtain ⟨h3, h4⟩ := h2 l' r' hd'
        exact ⟨h3, fun hv => h4 (vary (composedOf_lt U.refs hd').1 hv)⟩
    · rcases hl with rfl | hl
      · exact absurd e ne
      · rw [e] at hl
        exact absurd hl lab

end Added

/-- What is read of a concept is what was read before. -/
theorem Added.sameRead (T : Added s s' N) {k : Nat} {c : Con} (hk : s.concepts[k]? = some c) :
    ∃ c', s'.concepts[k]? = some c' ∧ c'.composition = c.composition ∧ c'.redFrom = c.redFrom ∧ c'.cct = c.cct := by
  have hlt := lt_of_get hk
  have h1 := T.from_ k hlt
  have hlen : k < s'.concepts.length := by rw [T.len]; omega
  have hk' : s'.concepts[k]? = some s'.concepts[k] := List.getElem?_eq_getElem hlen
  refine ⟨_, hk', ?_⟩
  unfold froms at h1
  rw [hk, hk'] at h1
  simp only [Option.map_some, Option.some.injEq] at h1
  have h2 := T.old k hlt
  rw [specs_get hk', specs_get hk] at h2
  simp only [Option.some.injEq] at h2
  exact ⟨by rw [composition_eq, composition_eq, h2], h1, by simp [Concept.cct, h2]⟩

theorem Added.sameLoop [HashOrder] (T : Added s s' N) (hs : RefsInv s) : ∀ (n : Nat) (L : List CId),
    (∀ a ∈ L, ∃ k, a = .com k ∧ k < s.concepts.length) →
    (View.mk s' Nested.default).labelleeLoop n L = (View.mk s Nested.default).labelleeLoop n L := by
  intro n
  induction n with
  | zero => intros; rfl
  | succ n ih =>
    intro L hL
    cases L with
    | nil => rfl
    | cons a L =>
      obtain ⟨k, rfl, hlt⟩ := hL a List.mem_cons_self
      have hc : s.concepts[k]? = some s.concepts[k] := List.getElem?_eq_getElem hlt
      obtain ⟨c', h1, h2, h3, _⟩ := T.sameRead hc
      have e1 : (Mixed.ofCon c').reducesFrom = (Mixed.ofCon s.concepts[k]).reducesFrom := by
        show (((HashOrder.order c'.redFrom).map CId.com).filter _) ++ _ = _
        rw [h3]; rfl
      have e2 : (Mixed.ofCon c').composition = (Mixed.ofCon s.concepts[k]).composition := by
        show c'.composition.map _ = s.concepts[k].composition.map _
        rw [h2]
      have next : ∀ a ∈ L ++ (Mixed.ofCon s.concepts[k]).reducesFrom,
          ∃ k, a = .com k ∧ k < s.concepts.length := by
        intro a ha
        rcases List.mem_append.1 ha with ha | ha
        · exact hL a (List.mem_cons_of_mem _ ha)
        · obtain ⟨j, rfl, hj⟩ := ofCon_reducesFrom.1 ha
          exact ⟨j, rfl, hs.valid.concepts k _ hc j (by simp [Spec.refs, hj])⟩
      have ih := ih _ next
      have hr : ∀ r x, (Mixed.ofCon s.concepts[k]).composition = some (r, x) →
          (View.mk s' Nested.default).cct r = (View.mk s Nested.default).cct r := by
        intro r x h
        have h : s.concepts[k].composition.map (fun p => (CId.com p.1, CId.com p.2)) = some (r, x) := h
        cases hp : s.concepts[k].composition with
        | none => rw [hp] at h; cases h
        | some p =>
          rw [hp] at h
          cases h
          have := (composedOf_lt hs (k := k) (l := p.1) (r := p.2) ⟨_, hc, hp⟩).1
          have hc1 := List.getElem?_eq_getElem this
          obtain ⟨c1, q1, _, _, q2⟩ := T.sameRead hc1
          unfold View.cct
          rw [rest_read hc1, rest_read q1]
          exact congrArg Except.ok q2
      simp only [View.labelleeLoop]
      rw [rest_read hc, rest_read h1]
      simp only [bind, Except.bind, e1, e2, ih]
      cases hm : (Mixed.ofCon s.concepts[k]).composition with
      | none => rfl
      | some p =>
        obtain ⟨r, x⟩ := p
        simp only [hr r x hm]

/-- A known word stands for what it stood for before. -/
theorem Added.sameLookup [HashOrder] (T : Added s s' N) (hs : Nameable s) {t : Str} (ht : t ∉ N) (n : Nat) :
    (View.mk s' Nested.default).conceptFromLabel n t = (View.mk s Nested.default).conceptFromLabel n t := by
  have e : (View.mk s' Nested.default).stringConcept t = (View.mk s Nested.default).stringConcept t := by
    show Except.ok ((s'.stringMap.get? t).map CId.com) = Except.ok ((s.stringMap.get? t).map CId.com)
    rw [T.table t ht]
  unfold View.conceptFromLabel
  rw [e]
  cases hz : s.stringMap.get? t with
  | none =>
    have : (View.mk s Nested.default).stringConcept t = .ok none := by
      show Except.ok ((s.stringMap.get? t).map CId.com) = _
      rw [hz]; rfl
    rw [this]; rfl
  | some z =>
    have : (View.mk s Nested.default).stringConcept t = .ok (some (.com z)) := by
      show Except.ok ((s.stringMap.get? t).map CId.com) = _
      rw [hz]; rfl
    rw [this]
    show (View.mk s' Nested.default).labellee n (.com z) = (View.mk s Nested.default).labellee n (.com z)
    have hzt : IsString s z t := isString_iff.2 (hs.strings t z (AMap.mem_of_get? _ _ _ hz))
    obtain ⟨cz, hcz, _⟩ := id hzt
    obtain ⟨c', h1, _, h3, _⟩ := T.sameRead hcz
    unfold View.labellee
    rw [rest_read hcz, rest_read h1]
    have e1 : (Mixed.ofCon c').reducesFrom = (Mixed.ofCon cz).reducesFrom := by
      show (((HashOrder.order c'.redFrom).map CId.com).filter _) ++ _ = _
      rw [h3]; rfl
    simp only [bind, Except.bind, e1]
    exact T.sameLoop hs.refs n _ fun a ha => by
      obtain ⟨k, rfl, hk⟩ := ofCon_reducesFrom.1 ha
      exact ⟨k, rfl, hs.refs.valid.concepts z _ hcz k (by simp [Spec.refs, hk])⟩

end Zia

import Verif.Lemmas.LearnNew
import Verif.Spec.Query

/-!
# Asking after teaching

What the store is after `let (x (-> y))`, concept by concept, and that the conditions under which a word is
answered with what it reduces to are kept.
-/

namespace Zia
open CM Spec Relation
set_option linter.unusedSectionVars false

/-- Which concepts are listed as reducing to a stored concept. -/
def froms (s : Snap) (k : Nat) : Option (List Nat) := (s.concepts[k]?).map (·.redFrom)

/-- The words `N` were introduced: each is a string, the concept that names it and the concept of the word. -/
structure Added (s g : Snap) (N : List Str) : Prop where
  len : g.concepts.length = s.concepts.length + 3 * N.length
  old : ∀ k, k < s.concepts.length → specs g k = specs s k
  new : ∀ m t, N[m]? = some t → specs g (s.concepts.length + 3 * m) = some (.str t) ∧
    (∃ f b, specs g (s.concepts.length + 3 * m + 1) = some (.abst (.comp (builtin .label)
      (s.concepts.length + 3 * m + 2) f b) (some (s.concepts.length + 3 * m)))) ∧
    specs g (s.concepts.length + 3 * m + 2) = some (.abst (.leaf .constant) none)
  from_ : ∀ k, k < s.concepts.length → froms g k = froms s k
  table : ∀ t, t ∉ N → g.stringMap.get? t = s.stringMap.get? t

theorem Added.refl (s : Snap) : Added s s [] :=
  ⟨by simp, fun _ _ => rfl, fun m t h => by simp at h, fun _ _ => rfl, fun _ _ => rfl⟩

theorem specs_get {s : Snap} {i : Nat} {c : Con} (h : s.concepts[i]? = some c) : specs s i = some c.spec := by
  simp [specs, look, h]

theorem Added.snoc {s g g1 g2 g3 : Snap} {N : List Str} (h : Added s g N) (hr : RefsInv g)
    {u u1 u2 : Nat} {t : Str}
    (s1 : Step g (.unc u, .new (.str t)) g1)
    (s2 : Step g1 (.unc u1, .new (.reducesTo (.unc u))) g2)
    (s3 : Step g2 (.unc u2, .new (.right (.unc u1) (.com (builtin .label)) none)) g3) :
    Added s g3 (N ++ [t]) ∧ g3.convert (.unc u2) = .ok (s.concepts.length + 3 * N.length + 2) := by
  obtain ⟨q1, ⟨c1, q2, q2'⟩, ⟨c2, f, b, q3, q3'⟩, ⟨c3, q4, q4'⟩, q5, q6⟩ :=
    labelled_exact (s2.refsInv (s1.refsInv hr)) (fun li e => by cases e; rfl) s1 s2 s3
  have keep : ∀ k, k < g.concepts.length → specs g3 k = specs g k := by
    intro k hk
    obtain ⟨c, h1, h2, _⟩ := q1 k _ (List.getElem?_eq_getElem hk)
    rw [specs_get h1, specs_get (List.getElem?_eq_getElem hk), h2]
  have hl := h.len
  have tab : ∀ w, w ≠ t → g3.stringMap.get? w = g.stringMap.get? w := by
    intro w hw
    have e1 : g1.stringMap = g.stringMap.insert t g.concepts.length := by cases s1; rfl
    have e2 : g2.stringMap = g1.stringMap := by cases s2; rfl
    have e3 : g3.stringMap = g2.stringMap := by cases s3; rfl
    rw [e3, e2, e1, AMap.get?_insert, if_neg (fun e => hw e.symm)]
  refine ⟨⟨?_, ?_, ?_, ?_, ?_⟩, ?_⟩
  · rw [q5, hl]; simp; omega
  · intro k hk
    rw [keep k (by omega), h.old k hk]
  · intro m w hm
    by_cases hlt : m < N.length
    · rw [List.getElem?_append_left hlt] at hm
      obtain ⟨a1, a2, a3⟩ := h.new m w hm
      rw [keep _ (by omega), keep _ (by omega), keep _ (by omega)]
      exact ⟨a1, a2, a3⟩
    · have : m = N.length := by
        have : m < (N ++ [t]).length := by
          rcases Nat.lt_or_ge m (N ++ [t]).length with h | h
          · exact h
          · rw [List.getElem?_eq_none h] at hm; cases hm
        simp at this
        omega
      subst this
      rw [List.getElem?_concat_length] at hm
      cases hm
      rw [hl] at q2 q3 q3' q4
      refine ⟨?_, ⟨f, b, ?_⟩, ?_⟩
      · rw [specs_get q2, q2']
      · rw [specs_get q3, q3']
      · rw [specs_get q4, q4']
  · intro k hk
    obtain ⟨c, h1, _, h2⟩ := q1 k _ (List.getElem?_eq_getElem (by omega : k < g.concepts.length))
    rw [← h.from_ k hk]
    unfold froms
    rw [h1, List.getElem?_eq_getElem (by omega : k < g.concepts.length)]
    simp [h2]
  · intro w hw
    simp only [List.mem_append, List.mem_singleton, not_or] at hw
    rw [tab w hw.2, h.table w hw.1]
  · rw [q6, hl]

theorem applyAll_three {s g : Snap} {p q r : CId × Direct CId} (h : s.applyAll [p, q, r] = .ok g) :
    ∃ g1 g2, Step s p g1 ∧ Step g1 q g2 ∧ Step g2 r g := by
  simp only [Snap.applyAll, Except.bind_eq_ok] at h
  obtain ⟨g1, h1, g2, h2, g3, h3, h⟩ := h
  cases h
  exact ⟨g1, g2, applyOne_step h1, applyOne_step h2, applyOne_step h3⟩

theorem added_one {s g : Snap} (hr : RefsInv s) {t : Str} (h : s.applyAll (oneName t).order = .ok g) :
    Added s g [t] ∧ g.convert (.unc 2) = .ok (s.concepts.length + 2) := by
  obtain ⟨g1, g2, s1, s2, s3⟩ := applyAll_three h
  exact (Added.refl s).snoc hr s1 s2 s3

theorem added_two {s g : Snap} (hr : RefsInv s) {t u : Str} (h : s.applyAll (twoNames t u).order = .ok g) :
    Added s g [t, u] ∧ g.convert (.unc 2) = .ok (s.concepts.length + 2) ∧
      g.convert (.unc 5) = .ok (s.concepts.length + 5) := by
  simp only [twoNames, applyAll_append, Except.bind_eq_ok] at h
  obtain ⟨g0, h0, h⟩ := h
  obtain ⟨a1, a2⟩ := added_one hr h0
  obtain ⟨g1, g2, s1, s2, s3⟩ := applyAll_three h
  obtain ⟨b1, b2⟩ := a1.snoc (applyAll_refsInv hr h0) s1 s2 s3
  refine ⟨b1, ?_, b2⟩
  have a2 : g0.prev.get? 2 = some (s.concepts.length + 2) := by
    simp only [Snap.convert] at a2
    cases hg : g0.prev.get? 2 with
    | none => rw [hg] at a2; cases a2
    | some i => rw [hg] at a2; cases a2; rfl
  have := s3.prev (s2.prev (s1.prev a2 (by simp)) (by simp)) (by simp)
  simp [Snap.convert, this]

/-- After the words `N` were introduced, `i` was taught to reduce to `j`. -/
structure Told (s s' : Snap) (N : List Str) (i j : Nat) : Prop where
  len : s'.concepts.length = s.concepts.length + 3 * N.length
  old : ∀ k, k < s.concepts.length → k ≠ i → specs s' k = specs s k
  new : ∀ m t, N[m]? = some t → specs s' (s.concepts.length + 3 * m) = some (.str t) ∧
    (∃ f b, specs s' (s.concepts.length + 3 * m + 1) = some (.abst (.comp (builtin .label)
      (s.concepts.length + 3 * m + 2) f b) (some (s.concepts.length + 3 * m)))) ∧
    (s.concepts.length + 3 * m + 2 ≠ i →
      specs s' (s.concepts.length + 3 * m + 2) = some (.abst (.leaf .constant) none))
  self : ∃ l, specs s' i = some (.abst (.leaf l) (some j)) ∧
    (i < s.concepts.length → specs s i = some (.abst (.leaf l) none)) ∧ (s.concepts.length ≤ i → l = .constant)
  first : i < s.concepts.length ∨ ∃ m t, N[m]? = some t ∧ i = s.concepts.length + 3 * m + 2
  second : j < s.concepts.length ∨ ∃ m t, N[m]? = some t ∧ j = s.concepts.length + 3 * m + 2
  differ : i ≠ j

/-- What is supposed of the words and the store before. -/
structure Untold (s : Snap) (N : List Str) (i j : Nat) : Prop where
  names : Nameable s
  constant : ∀ t ∈ N, Syn.isVariableName t = false
  first : i < s.concepts.length → (∃ t, PlainWord s i t) ∧ Unconnected s i ∧ ∀ k, ¬ReducesTo s i k
  second : j < s.concepts.length → ∀ q, ReflTransGen (ReducesTo s) j q →
    (∃ t, PlainWord s q t) ∧ Unconnected s q

variable {s s' : Snap} {N : List Str} {i j : Nat}

theorem reducesTo_old (h : RefsInv s) {a b : Nat} (hr : ReducesTo s a b) :
    a < s.concepts.length ∧ b < s.concepts.length := reducesTo_lt h hr

theorem chain_old (h : RefsInv s) {a b : Nat} (ha : a < s.concepts.length)
    (hr : ReflTransGen (ReducesTo s) a b) : b < s.concepts.length := by
  induction hr with
  | refl => exact ha
  | tail _ h1 _ => exact (reducesTo_lt h h1).2

theorem composedOf_lt (h : RefsInv s) {k l r : Nat} (hc : ComposedOf s k l r) :
    l < s.concepts.length ∧ r < s.concepts.length := by
  obtain ⟨c, hc, hp⟩ := hc
  rw [composition_eq] at hp
  exact ⟨(part_lt h ⟨c, l, r, hc, hp, .inl rfl⟩).1, (part_lt h ⟨c, l, r, hc, hp, .inr rfl⟩).1⟩

theorem label_lt (h : Nameable s) : builtin .label < s.concepts.length := by
  obtain ⟨k, hk, _⟩ := (h.concrete _).2 rfl
  exact lt_of_get hk

namespace Told
variable (T : Told s s' N i j) (U : Untold s N i j)
include T

/-- The concepts there are. -/
theorem cases {k : Nat} {sp : Specific Nat} (h : specs s' k = some sp) :
    k < s.concepts.length ∨ ∃ m t, N[m]? = some t ∧
      (k = s.concepts.length + 3 * m ∨ k = s.concepts.length + 3 * m + 1 ∨ k = s.concepts.length + 3 * m + 2) := by
  have hk : k < s'.concepts.length := by
    simp only [specs, look, Option.map_eq_some_iff] at h
    obtain ⟨c, hc, _⟩ := h
    exact lt_of_get hc
  rcases Nat.lt_or_ge k s.concepts.length with h0 | h0
  · exact .inl h0
  · right
    have hl := T.len
    have hm : (k - s.concepts.length) / 3 < N.length := by omega
    refine ⟨(k - s.concepts.length) / 3, _, List.getElem?_eq_getElem hm, ?_⟩
    omega

/-- The reductions there are. -/
theorem reduces {a b : Nat} : ReducesTo s' a b ↔ a = i ∧ b = j ∨ a ≠ i ∧ ReducesTo s a b ∨
    ∃ m t, N[m]? = some t ∧ a = s.concepts.length + 3 * m + 1 ∧ b = s.concepts.length + 3 * m := by
  obtain ⟨l, h1, h2, h3⟩ := T.self
  constructor
  · intro h
    rw [reducesTo_specs] at h
    obtain ⟨sp, h4, h5⟩ := h
    by_cases ha : a = i
    · subst ha
      rw [h1] at h4
      cases h4
      cases h5
      exact .inl ⟨rfl, rfl⟩
    · rcases T.cases h4 with hk | ⟨m, t, hm, hk⟩
      · rw [T.old a hk ha] at h4
        exact .inr (.inl ⟨ha, reducesTo_specs.2 ⟨sp, h4, h5⟩⟩)
      · obtain ⟨n1, ⟨f, b', n2⟩, n3⟩ := T.new m t hm
        rcases hk with rfl | rfl | rfl
        · rw [n1] at h4; cases h4; cases h5
        · rw [n2] at h4; cases h4; cases h5
          exact .inr (.inr ⟨m, t, hm, rfl, rfl⟩)
        · rw [n3 ha] at h4; cases h4; cases h5
  · rintro (⟨rfl, rfl⟩ | ⟨ha, h⟩ | ⟨m, t, hm, rfl, rfl⟩)
    · exact reducesTo_specs.2 ⟨_, h1, rfl⟩
    · rw [reducesTo_specs] at h ⊢
      obtain ⟨sp, h4, h5⟩ := h
      refine ⟨sp, ?_, h5⟩
      rw [T.old a ?_ ha, h4]
      simp only [specs, look, Option.map_eq_some_iff] at h4
      obtain ⟨c, hc, _⟩ := h4
      exact lt_of_get hc
    · obtain ⟨_, ⟨f, b', n2⟩, _⟩ := T.new m t hm
      exact reducesTo_specs.2 ⟨_, n2, rfl⟩

/-- The compositions there are. -/
theorem composed {k l r : Nat} : ComposedOf s' k l r ↔ ComposedOf s k l r ∨
    ∃ m t, N[m]? = some t ∧ k = s.concepts.length + 3 * m + 1 ∧ l = builtin .label ∧
      r = s.concepts.length + 3 * m + 2 := by
  obtain ⟨l', h1, h2, h3⟩ := T.self
  constructor
  · intro h
    rw [composedOf_specs] at h
    obtain ⟨sp, h4, h5⟩ := h
    by_cases ha : k = i
    · subst ha
      rw [h1] at h4
      cases h4
      cases h5
    · rcases T.cases h4 with hk | ⟨m, t, hm, hk⟩
      · rw [T.old k hk ha] at h4
        exact .inl (composedOf_specs.2 ⟨sp, h4, h5⟩)
      · obtain ⟨n1, ⟨f, b', n2⟩, n3⟩ := T.new m t hm
        rcases hk with rfl | rfl | rfl
        · rw [n1] at h4; cases h4; cases h5
        · rw [n2] at h4; cases h4; cases h5
          exact .inr ⟨m, t, hm, rfl, rfl, rfl⟩
        · rw [n3 ha] at h4; cases h4; cases h5
  · rintro (h | ⟨m, t, hm, rfl, rfl, rfl⟩)
    · rw [composedOf_specs] at h ⊢
      obtain ⟨sp, h4, h5⟩ := h
      have hk : k < s.concepts.length := by
        simp only [specs, look, Option.map_eq_some_iff] at h4
        obtain ⟨c, hc, _⟩ := h4
        exact lt_of_get hc
      refine ⟨sp, ?_, h5⟩
      rw [T.old k hk ?_, h4]
      rintro rfl
      rw [h2 hk] at h4
      cases h4
      cases h5
    · obtain ⟨_, ⟨f, b', n2⟩, _⟩ := T.new m t hm
      exact composedOf_specs.2 ⟨_, n2, rfl⟩

/-- The strings there are. -/
theorem strings {k : Nat} {t : Str} : IsString s' k t ↔ IsString s k t ∨
    ∃ m, N[m]? = some t ∧ k = s.concepts.length + 3 * m := by
  obtain ⟨l', h1, h2, h3⟩ := T.self
  simp only [isString_specs]
  constructor
  · intro h4
    by_cases ha : k = i
    · subst ha
      rw [h1] at h4
      cases h4
    · rcases T.cases h4 with hk | ⟨m, t, hm, hk⟩
      · rw [T.old k hk ha] at h4
        exact .inl h4
      · obtain ⟨n1, ⟨f, b', n2⟩, n3⟩ := T.new m t hm
        rcases hk with rfl | rfl | rfl
        · rw [n1] at h4; cases h4
          exact .inr ⟨m, hm, rfl⟩
        · rw [n2] at h4; cases h4
        · rw [n3 ha] at h4; cases h4
  · rintro (h4 | ⟨m, hm, rfl⟩)
    · have hk : k < s.concepts.length := by
        simp only [specs, look, Option.map_eq_some_iff] at h4
        obtain ⟨c, hc, _⟩ := h4
        exact lt_of_get hc
      rw [T.old k hk ?_, h4]
      rintro rfl
      rw [h2 hk] at h4
      cases h4
    · exact (T.new m t hm).1

include U

/-- What follows the second word. -/
theorem after {q : Nat} (h : ReflTransGen (ReducesTo s') j q) :
    q = i ∨ q = j ∨ j < s.concepts.length ∧ ReflTransGen (ReducesTo s) j q := by
  induction h with
  | refl => exact .inr (.inl rfl)
  | tail _ h ih =>
    rcases T.reduces.1 h with ⟨_, rfl⟩ | ⟨ha, hr⟩ | ⟨m, t, hm, rfl, rfl⟩
    · exact .inr (.inl rfl)
    · rcases ih with rfl | rfl | ⟨h1, h2⟩
      · exact absurd rfl ha
      · exact .inr (.inr ⟨(reducesTo_lt U.names.refs hr).1, .single hr⟩)
      · exact .inr (.inr ⟨h1, h2.tail hr⟩)
    · rcases ih with e | e | ⟨h1, h2⟩
      · rcases T.first with h | ⟨m', _, _, h⟩ <;> omega
      · rcases T.second with h | ⟨m', _, _, h⟩ <;> omega
      · have := chain_old U.names.refs h1 h2
        omega

/-- What follows a concept that was stored. -/
theorem onward {k q : Nat} (hk : k < s.concepts.length) (h : ReflTransGen (ReducesTo s') k q) :
    ReflTransGen (ReducesTo s) k q ∨ ReflTransGen (ReducesTo s') j q := by
  induction h using ReflTransGen.head_induction_on with
  | refl => exact .inl .refl
  | head h hq ih =>
    rcases T.reduces.1 h with ⟨_, rfl⟩ | ⟨ha, hr⟩ | ⟨m, t, hm, rfl, rfl⟩
    · exact .inr hq
    · exact (ih (reducesTo_lt U.names.refs hr).2).imp_left (.head hr)
    · omega

/-- The words are no strings. -/
theorem wordless {q : Nat} {t : Str} (h : q = i ∨ q = j ∨ j < s.concepts.length ∧ ReflTransGen (ReducesTo s) j q) :
    ¬IsString s' q t := by
  intro hs
  have word : ∀ q, (∃ t, PlainWord s q t) → ¬IsString s' q t ∨ s.concepts.length ≤ q := by
    rintro q ⟨u, hu⟩
    by_cases hq : s.concepts.length ≤ q
    · exact .inr hq
    · left
      intro hs
      rcases T.strings.1 hs with h | ⟨m, _, rfl⟩
      · exact hu.nostring _ h
      · omega
  have fresh : ∀ q m, q = s.concepts.length + 3 * m + 2 → ¬IsString s' q t := by
    intro q m e hs
    rcases T.strings.1 hs with h | ⟨m, _, e'⟩
    · rw [isString_specs] at h
      simp only [specs, look, Option.map_eq_some_iff] at h
      obtain ⟨c, hc, _⟩ := h
      have := lt_of_get hc
      omega
    · omega
  rcases h with rfl | rfl | ⟨h1, h2⟩
  · rcases T.first with h | ⟨m, _, _, h⟩
    · rcases word q (U.first h).1 with h' | h'
      · exact h' hs
      · omega
    · exact fresh _ m h hs
  · rcases T.second with h | ⟨m, _, _, h⟩
    · rcases word q (U.second h q .refl).1 with h' | h'
      · exact h' hs
      · omega
    · exact fresh _ m h hs
  · have := chain_old U.names.refs h1 h2
    rcases word q (U.second h1 q h2).1 with h' | h'
    · exact h' hs
    · omega

/-- The names there are. -/
theorem named {z : Nat} {t : Str} (h : HasName s' z t) :
    HasName s z t ∨ ∃ m, N[m]? = some t ∧ z = s.concepts.length + 3 * m + 2 := by
  obtain ⟨k, r, hk, hr, hs⟩ := h
  rcases T.composed.1 hk with hk | ⟨m, u, hm, rfl, _, rfl⟩
  · left
    have hlt : k < s.concepts.length := by
      obtain ⟨c, hc, _⟩ := hk
      exact lt_of_get hc
    obtain ⟨k', h1, h2⟩ := TransGen.head'_iff.1 hr
    rcases T.reduces.1 h1 with ⟨rfl, rfl⟩ | ⟨ha, hr'⟩ | ⟨m, t, hm, e, rfl⟩
    · exact absurd hs (T.wordless U (T.after U h2))
    · rcases T.onward U (reducesTo_lt U.names.refs hr').2 h2 with h3 | h3
      · refine ⟨k, r, hk, .head' hr' h3, ?_⟩
        rcases T.strings.1 hs with h | ⟨m, _, rfl⟩
        · exact h
        · have := chain_old U.names.refs (reducesTo_lt U.names.refs hr').2 h3
          omega
      · exact absurd hs (T.wordless U (T.after U h3))
    · omega
  · right
    obtain ⟨k', h1, h2⟩ := TransGen.head'_iff.1 hr
    have : k' = s.concepts.length + 3 * m := by
      rcases T.reduces.1 h1 with ⟨e, rfl⟩ | ⟨ha, hr'⟩ | ⟨m, t, hm, e, rfl⟩
      · rcases T.first with h | ⟨m', _, _, h⟩ <;> omega
      · have := (reducesTo_lt U.names.refs hr').1
        omega
      · omega
    subst this
    have hst := (T.strings (t := u)).2 (.inr ⟨m, hm, rfl⟩)
    rcases ReflTransGen.cases_head h2 with rfl | ⟨q, hq, _⟩
    · rw [isString_specs] at hst hs
      rw [hst] at hs
      cases hs
      exact ⟨m, hm, rfl⟩
    · exact absurd hq (isString_iff.1 hst).unreduced

/-- The names that were stored are. -/
theorem keepsName {z : Nat} {t : Str} (h : HasName s z t) : HasName s' z t := by
  obtain ⟨k, r, hk, hr, hs⟩ := h
  refine ⟨k, r, T.composed.2 (.inl hk), ?_, T.strings.2 (.inl hs)⟩
  refine TransGen.mono (fun a b hab => T.reduces.2 (.inr (.inl ⟨?_, hab⟩))) _ _ hr
  rintro rfl
  exact (U.first (reducesTo_lt U.names.refs hab).1).2.2 b hab

omit U in
theorem newName {m : Nat} {t : Str} (h : N[m]? = some t) : HasName s' (s.concepts.length + 3 * m + 2) t :=
  ⟨_, _, T.composed.2 (.inr ⟨m, t, h, rfl, rfl, rfl⟩), .single (T.reduces.2 (.inr (.inr ⟨m, t, h, rfl, rfl⟩))),
    T.strings.2 (.inr ⟨m, h, rfl⟩)⟩

/-- A name of the form of a variable was stored. -/
theorem variableName {z : Nat} {t : Str} (h : HasName s' z t) (hv : Syn.isVariableName t = true) :
    HasName s z t := by
  rcases T.named U h with h | ⟨m, hm, _⟩
  · exact h
  · rw [U.constant t (List.mem_of_getElem? hm)] at hv
    cases hv

omit T in
theorem hasName_lt {z : Nat} {t : Str} (h : HasName s z t) : z < s.concepts.length := by
  obtain ⟨k, r, hk, _⟩ := h
  exact (composedOf_lt U.names.refs hk).2

/-- The words are not displayed as variables. -/
theorem wordly {q : Nat} {t : Str} (h : q = i ∨ q = j ∨ j < s.concepts.length ∧ ReflTransGen (ReducesTo s) j q)
    (hn : HasName s' q t) : Syn.isVariableName t = false := by
  cases hv : Syn.isVariableName t with
  | false => rfl
  | true =>
    have hs := T.variableName U hn hv
    have hlt := hasName_lt U hs
    have sh : ShownAsVariable s q := ⟨q, t, .refl, hs, hv⟩
    rcases h with rfl | rfl | ⟨h1, h2⟩
    · exact absurd (.inr sh) (U.first hlt).2.1.constant
    · exact absurd (.inr sh) (U.second hlt q .refl).2.constant
    · exact absurd (.inr sh) (U.second h1 q h2).2.constant

/-- What is displayed as a variable was. -/
theorem shown {k : Nat} (h : ShownAsVariable s' k) : ShownAsVariable s k := by
  obtain ⟨z, t, hz, hn, hv⟩ := h
  have no : ∀ {q}, ReflTransGen (ReducesTo s') j q → q ≠ z := by
    rintro q hq rfl
    rw [T.wordly U (T.after U hq) hn] at hv
    cases hv
  have hs := T.variableName U hn hv
  have hlt := hasName_lt U hs
  rcases Nat.lt_or_ge k s.concepts.length with hk | hk
  · rcases T.onward U hk hz with h | h
    · exact ⟨z, t, h, hs, hv⟩
    · exact absurd rfl (no h)
  · exfalso
    rcases ReflTransGen.cases_head hz with rfl | ⟨q, h1, h2⟩
    · omega
    · rcases T.reduces.1 h1 with ⟨_, rfl⟩ | ⟨ha, hr⟩ | ⟨m, u, hm, rfl, rfl⟩
      · exact no h2 rfl
      · have := (reducesTo_lt U.names.refs hr).1
        omega
      · have hst := (T.strings (t := u)).2 (.inr ⟨m, hm, rfl⟩)
        rcases ReflTransGen.cases_head h2 with rfl | ⟨q, hq, _⟩
        · omega
        · exact absurd hq (isString_iff.1 hst).unreduced

omit U in
/-- What is a variable was, or is new. -/
theorem ofVariables {k : Nat} (h : OfVariables s' k) : OfVariables s k ∨
    ∃ m t, N[m]? = some t ∧ k = s.concepts.length + 3 * m + 1 := by
  obtain ⟨l', h1, h2, h3⟩ := T.self
  have an : ∀ {s : Snap} {k}, OfVariables s k ↔ ∃ sp, specs s k = some sp ∧
      ∀ c : Con, c.spec = sp → c.isAnonymous = true := by
    intro s k
    constructor
    · rintro ⟨c, hc, ha⟩
      refine ⟨c.spec, specs_get hc, fun c' e => ?_⟩
      unfold Concept.isAnonymous at ha ⊢
      rw [e]; exact ha
    · rintro ⟨sp, hs, hc⟩
      simp only [specs, look, Option.map_eq_some_iff] at hs
      obtain ⟨c, h1, h2⟩ := hs
      exact ⟨c, h1, hc c h2⟩
  obtain ⟨sp, h4, h5⟩ := an.1 h
  by_cases ha : k = i
  · subst ha
    rw [h1] at h4
    cases h4
    rcases Nat.lt_or_ge k s.concepts.length with hk | hk
    · left
      refine an.2 ⟨_, h2 hk, fun c e => ?_⟩
      have := h5 ⟨0, [], [], [], .abst (.leaf l') (some j)⟩ rfl
      unfold Concept.isAnonymous at this ⊢
      rw [e]
      cases l' <;> first | rfl | cases this
    · rw [h3 hk] at h5
      have := h5 ⟨0, [], [], [], .abst (.leaf .constant) (some j)⟩ rfl
      cases this
  · rcases T.cases h4 with hk | ⟨m, t, hm, hk⟩
    · rw [T.old k hk ha] at h4
      exact .inl (an.2 ⟨sp, h4, h5⟩)
    · obtain ⟨n1, ⟨f, b', n2⟩, n3⟩ := T.new m t hm
      rcases hk with rfl | rfl | rfl
      · rw [n1] at h4; cases h4
        have := h5 ⟨0, [], [], [], .str t⟩ rfl
        cases this
      · exact .inr ⟨m, t, hm, rfl⟩
      · rw [n3 ha] at h4; cases h4
        have := h5 ⟨0, [], [], [], .abst (.leaf .constant) none⟩ rfl
        cases this

theorem varies {k : Nat} (h : MayVary s' k) : MayVary s k ∨
    ∃ m t, N[m]? = some t ∧ k = s.concepts.length + 3 * m + 1 := by
  rcases h with h | h
  · exact (T.ofVariables h).imp_left .inl
  · exact .inl (.inr (T.shown U h))

theorem constant_of {q : Nat} (h1 : ¬MayVary s q) (h2 : ∀ m, q ≠ s.concepts.length + 3 * m + 1) : ¬MayVary s' q := by
  intro hv
  rcases T.varies U hv with h | ⟨m, _, _, e⟩
  · exact h1 h
  · exact h2 m e

/-- A concept with a name and without definition stays such. -/
theorem keepsPlain {q : Nat} {t : Str} (ht : PlainWord s q t) : PlainWord s' q t := by
  have hq : q < s.concepts.length := hasName_lt U ht.name
  refine ⟨T.keepsName U ht.name, ?_, ?_, ht.constant⟩
  · intro l r hc
    rcases T.composed.1 hc with h | ⟨m, _, _, e, _⟩
    · exact ht.simple l r h
    · omega
  · intro u hs
    rcases T.strings.1 hs with h | ⟨m, _, e⟩
    · exact ht.nostring u h
    · omega

/-- A known word is still one. -/
theorem keepsWord {q : Nat} {t : Str} (ht : PlainWord s q t) (hu : Unconnected s q) :
    PlainWord s' q t ∧ Unconnected s' q := by
  have hq : q < s.concepts.length := hasName_lt U ht.name
  refine ⟨⟨T.keepsName U ht.name, ?_, ?_, ht.constant⟩, ?_, ?_, ?_⟩
  · intro l r hc
    rcases T.composed.1 hc with h | ⟨m, _, _, e, _⟩
    · exact ht.simple l r h
    · omega
  · intro u hs
    rcases T.strings.1 hs with h | ⟨m, _, e⟩
    · exact ht.nostring u h
    · omega
  · intro k r hc
    rcases T.composed.1 hc with h | ⟨m, _, _, _, e, _⟩
    · exact hu.left k r h
    · obtain ⟨k', _, hk', _⟩ := ht.name
      rw [← e] at hk'
      exact hu.left _ _ hk'
  · intro k l hc
    rcases T.composed.1 hc with h | ⟨m, _, _, _, e, _⟩
    · exact hu.right k l h
    · exact e
  · exact T.constant_of U hu.constant (fun m => by omega)

/-- A new word is a word. -/
theorem newWord {m : Nat} {t : Str} (hm : N[m]? = some t) :
    PlainWord s' (s.concepts.length + 3 * m + 2) t ∧ Unconnected s' (s.concepts.length + 3 * m + 2) := by
  refine ⟨⟨T.newName hm, ?_, ?_, U.constant t (List.mem_of_getElem? hm)⟩, ?_, ?_, ?_⟩
  · intro l r hc
    rcases T.composed.1 hc with ⟨c, hc, _⟩ | ⟨m, _, _, e', _⟩
    · have := lt_of_get hc
      omega
    · omega
  · intro u hs
    rcases T.strings.1 hs with ⟨c, hc, _⟩ | ⟨m, _, e⟩
    · have := lt_of_get hc
      omega
    · omega
  · intro k r hc
    rcases T.composed.1 hc with h | ⟨m', u, hm', e1, e2, _⟩
    · have := (composedOf_lt U.names.refs h).1
      omega
    · have := label_lt U.names
      omega
  · intro k l hc
    rcases T.composed.1 hc with h | ⟨m, _, _, _, e, _⟩
    · have := (composedOf_lt U.names.refs h).2
      omega
    · exact e
  · refine T.constant_of U ?_ (fun m => by omega)
    rintro (⟨c, hc, _⟩ | hv)
    · have := lt_of_get hc
      omega
    · obtain ⟨z, t, hz, hn, hv⟩ := hv
      have h1 := hasName_lt U hn
      rcases ReflTransGen.cases_head hz with rfl | ⟨q, h1, h2⟩
      · omega
      · have := (reducesTo_lt U.names.refs h1).1
        omega

/-- The words are words. -/
theorem words {q : Nat} (h : q = i ∨ q = j ∨ j < s.concepts.length ∧ ReflTransGen (ReducesTo s) j q) :
    (∃ t, PlainWord s' q t) ∧ Unconnected s' q := by
  have old : ∀ q, (∃ t, PlainWord s q t) → Unconnected s q → (∃ t, PlainWord s' q t) ∧ Unconnected s' q :=
    fun q ⟨t, ht⟩ hu => ⟨⟨t, (T.keepsWord U ht hu).1⟩, (T.keepsWord U ht hu).2⟩
  have new : ∀ m t, N[m]? = some t → s.concepts.length + 3 * m + 2 = q →
      (∃ t, PlainWord s' q t) ∧ Unconnected s' q :=
    fun m t hm e => e ▸ ⟨⟨t, (T.newWord U hm).1⟩, (T.newWord U hm).2⟩
  rcases h with rfl | rfl | ⟨h1, h2⟩
  · rcases T.first with h | ⟨m, t, hm, e⟩
    · exact old q (U.first h).1 (U.first h).2.1
    · exact new m t hm e.symm
  · rcases T.second with h | ⟨m, t, hm, e⟩
    · exact old q (U.second h q .refl).1 (U.second h q .refl).2
    · exact new m t hm e.symm
  · exact old q (U.second h1 q h2).1 (U.second h1 q h2).2

/-- There still is no rule about everything. -/
theorem noBlanketRule (hr : NoBlanketRule s) (hf : RedFwd s.concepts) (hv : RedRev (look s'.concepts)) :
    NoBlanketRule s' := by
  have ne : builtin .implication ≠ builtin .label := by decide
  have lab : ¬MayVary s' (builtin .label) := by
    intro h
    have hl := label_lt U.names
    rcases T.varies U h with (⟨c, hc, ha⟩ | h) | ⟨m, _, _, e⟩
    · obtain ⟨k, hk, e⟩ := (U.names.concrete _).2 rfl
      rw [hk] at hc
      cases hc
      simp [Concept.isAnonymous, e] at ha
    · exact hr.operators .label (by simp) h
    · omega
  have comp : ∀ {k l r}, k < s.concepts.length → ComposedOf s' k l r → ComposedOf s k l r := by
    intro k l r hk h
    rcases T.composed.1 h with h | ⟨m, _, _, e, _⟩
    · exact h
    · omega
  have vary : ∀ {k}, k < s.concepts.length → MayVary s' k → MayVary s k := by
    intro k hk h
    rcases T.varies U h with h | ⟨m, _, _, e⟩
    · exact h
    · omega
  refine ⟨?_, ?_, ?_, ?_⟩
  · intro k l r hc hs
    have hs := T.shown U hs
    rcases T.composed.1 hc with h | ⟨m, _, _, e, _⟩
    · exact hr.names k l r h hs
    · obtain ⟨z, t, hz, hn, _⟩ := hs
      have := hasName_lt U hn
      rcases ReflTransGen.cases_head hz with rfl | ⟨q, h1, h2⟩
      · omega
      · have := (reducesTo_lt U.names.refs h1).1
        omega
  · intro t ht hs
    exact hr.operators t ht (T.shown U hs)
  · intro e r hc h
    rcases T.composed.1 hc with h' | ⟨m, _, _, _, e, _⟩
    · obtain ⟨l', r', hq⟩ := hr.conclusions e r h' (vary (composedOf_lt U.names.refs h').2 h)
      exact ⟨l', r', T.composed.2 (.inl hq)⟩
    · exact absurd e ne
  · intro e l r q p d hc hl hq hpd hp
    rcases T.composed.1 hc with h | ⟨m, _, _, _, e, _⟩
    · obtain ⟨ll, lr⟩ := composedOf_lt U.names.refs h
      have hq' : (q = r ∨ ListsReduced s r q) ∧ q < s.concepts.length := by
        rcases hq with rfl | ⟨c, hc, hm⟩
        · exact ⟨.inl rfl, lr⟩
        · have hqr := reducesTo_iff.2 (hv r c q hc hm)
          rcases T.reduces.1 hqr with ⟨rfl, rfl⟩ | ⟨ha, hqr⟩ | ⟨m, _, _, _, e⟩
          · rcases T.words U (.inl rfl) with ⟨⟨t, ht⟩, _⟩
            exact absurd hpd (ht.simple p d)
          · refine ⟨.inr ?_, (reducesTo_lt U.names.refs hqr).1⟩
            obtain ⟨cq, h1, h2⟩ := reducesTo_iff.1 hqr
            obtain ⟨k, h3, h4⟩ := hf q cq r h1 h2
            exact ⟨k, h3, h4⟩
          · omega
      have hpd' := comp hq'.2 hpd
      obtain ⟨lp, ld⟩ := composedOf_lt U.names.refs hpd'
      obtain ⟨h1, h2⟩ := hr.rules e l r q p d h (hl.imp_right (vary ll)) hq'.1 hpd' (vary lp hp)
      refine ⟨fun hd => ?_, fun l' r' hd => ?_⟩
      · obtain ⟨l', r', h3⟩ := h1 (vary ld hd)
        exact ⟨l', r', T.composed.2 (.inl h3)⟩
      · have hd' := comp ld hd
        obtain ⟨h3, h4⟩ := h2 l' r' hd'
        exact ⟨h3, fun hv => h4 (vary (composedOf_lt U.names.refs hd').1 hv)⟩
    · rcases hl with rfl | hl
      · exact absurd e ne
      · rw [e] at hl
        exact absurd hl lab

/-- What the first word is answered with is what the second one was. -/
theorem answer {t : Str} (h : Answer s' i t) : (j < s.concepts.length → Answer s j t) ∧
    ∀ m u, N[m]? = some u → j = s.concepts.length + 3 * m + 2 → t = u := by
  obtain ⟨z, hz, hirr, hn⟩ := h
  have hzi : z ≠ i := by
    rintro rfl
    exact hirr j (T.reduces.2 (.inl ⟨rfl, rfl⟩))
  have hjz : ReflTransGen (ReducesTo s') j z := by
    rcases ReflTransGen.cases_head hz with e | ⟨q, h1, h2⟩
    · exact absurd e.symm hzi
    · rcases T.reduces.1 h1 with ⟨_, rfl⟩ | ⟨ha, _⟩ | ⟨m, _, _, e, _⟩
      · exact h2
      · exact absurd rfl ha
      · rcases T.first with h | ⟨m', _, _, h⟩ <;> omega
  have haf := T.after U hjz
  constructor
  · intro hj
    have hjz : ReflTransGen (ReducesTo s) j z := by
      rcases haf with e | rfl | h
      · exact absurd e hzi
      · exact .refl
      · exact h.2
    refine ⟨z, hjz, fun k hk => hirr k (T.reduces.2 (.inr (.inl ⟨hzi, hk⟩))), ?_⟩
    rcases T.named U hn with h | ⟨m, _, e⟩
    · exact h
    · have := chain_old U.names.refs hj hjz
      omega
  · intro m u hm e
    have : z = j := by
      rcases haf with e | h | h
      · exact absurd e hzi
      · exact h
      · omega
    subst this
    rcases T.named U hn with h | ⟨m', hm', e'⟩
    · have := hasName_lt U h
      omega
    · have : m' = m := by omega
      subst this
      rw [hm'] at hm
      cases hm
      rfl

end Told

/-- A new word is found. -/
theorem Told.lookup [HashOrder] (T : Told s s' N i j) (hs' : Nameable s') (hf : RedFwd s'.concepts)
    (hv : RedRev (look s'.concepts)) {m n : Nat} {t : Str} {z : Nat} (hd : N.Nodup) (hm : N[m]? = some t)
    (hw : NewWord s t) (hz : s'.stringMap.get? t = some z) (hlab : IsBuiltIn s' (builtin .label) .label)
    (hs : RefsInv s) :
    (View.mk s' Nested.default).conceptFromLabel (n + 1) t =
      .ok (some (.com (s.concepts.length + 3 * m + 2))) := by
  have hzt : IsString s' z t := isString_iff.2 (hs'.strings t z (AMap.mem_of_get? _ _ _ hz))
  have ez : z = s.concepts.length + 3 * m := by
    rcases T.strings.1 hzt with h | ⟨m', hm', e⟩
    · exact absurd h (hw z)
    · have hlt : m' < N.length := by
        rcases Nat.lt_or_ge m' N.length with h | h
        · exact h
        · rw [List.getElem?_eq_none h] at hm'; cases hm'
      have := (List.getElem?_inj hlt hd).1 (hm'.trans hm.symm)
      omega
  obtain ⟨cz, hcz, _⟩ := hzt
  have st : (View.mk s' Nested.default).stringConcept t = .ok (some (.com z)) := by
    show Except.ok ((s'.stringMap.get? t).map CId.com) = _
    rw [hz]; rfl
  unfold View.conceptFromLabel
  rw [st]
  show (View.mk s' Nested.default).labellee (n + 1) (.com z) = _
  unfold View.labellee
  rw [rest_read hcz]
  show View.labelleeLoop _ (n + 1) (Mixed.ofCon cz).reducesFrom = _
  have only : ∀ a ∈ (Mixed.ofCon cz).reducesFrom, a = .com (s.concepts.length + 3 * m + 1) := by
    intro a ha
    obtain ⟨k, rfl, hk⟩ := ofCon_reducesFrom.1 ha
    rcases T.reduces.1 (reducesTo_iff.2 (hv z cz k hcz hk)) with ⟨_, e⟩ | ⟨_, h⟩ | ⟨m', _, _, e1, e2⟩
    · rcases T.second with h | ⟨m', _, _, h⟩ <;> omega
    · have := (reducesTo_lt hs h).2
      omega
    · have : m' = m := by omega
      rw [e1, this]
  have hcomp : ComposedOf s' (s.concepts.length + 3 * m + 1) (builtin .label) (s.concepts.length + 3 * m + 2) :=
    T.composed.2 (.inr ⟨m, t, hm, rfl, rfl, rfl⟩)
  obtain ⟨ck, hck, hp⟩ := hcomp
  have hred : ReducesTo s' (s.concepts.length + 3 * m + 1) z := T.reduces.2 (.inr (.inr ⟨m, t, hm, rfl, ez⟩))
  have hin : CId.com (s.concepts.length + 3 * m + 1) ∈ (Mixed.ofCon cz).reducesFrom := by
    obtain ⟨c1, h1, h2⟩ := reducesTo_iff.1 hred
    obtain ⟨k, h3, h4⟩ := hf _ c1 z h1 h2
    rw [hcz] at h3
    cases h3
    exact ofCon_reducesFrom.2 ⟨_, rfl, h4⟩
  cases hL : (Mixed.ofCon cz).reducesFrom with
  | nil => rw [hL] at hin; cases hin
  | cons a L =>
    rw [only a (by rw [hL]; simp), View.labelleeLoop, rest_read hck]
    have hc : (Mixed.ofCon ck).composition = some (.com (builtin .label), .com (s.concepts.length + 3 * m + 2)) := by
      show ck.composition.map _ = _
      rw [hp]; rfl
    have hcct : (View.mk s' Nested.default).cct (.com (builtin .label)) = .ok (some .label) := by
      obtain ⟨cl, h1, h2⟩ := hlab
      show (do return (← (View.mk s' Nested.default).read (.com (builtin .label))).cct) = _
      rw [rest_read h1]
      exact congrArg Except.ok h2
    simp only [bind, Except.bind, hc, hcct, if_true]
    rfl

/-- What is read of a concept that does not reduce to `i`'s new reduction is what was read before. -/
theorem Told.sameRead (T : Told s s' N i j)
    (hfr : ∀ k, k < s.concepts.length → k ≠ j → froms s' k = froms s k) {k : Nat} {c : Con}
    (hk : s.concepts[k]? = some c) (hkj : k ≠ j) : ∃ c', s'.concepts[k]? = some c' ∧
      c'.composition = c.composition ∧ c'.redFrom = c.redFrom ∧ c'.cct = c.cct := by
  have hlt := lt_of_get hk
  have h1 := hfr k hlt hkj
  have hlen : k < s'.concepts.length := by rw [T.len]; omega
  have hk' : s'.concepts[k]? = some s'.concepts[k] := List.getElem?_eq_getElem hlen
  refine ⟨_, hk', ?_⟩
  unfold froms at h1
  rw [hk, hk'] at h1
  simp only [Option.map_some, Option.some.injEq] at h1
  by_cases e : k = i
  · subst e
    obtain ⟨l, h2, h3, _⟩ := T.self
    have h3 := h3 hlt
    rw [specs_get hk'] at h2
    rw [specs_get hk] at h3
    simp only [Option.some.injEq] at h2 h3
    exact ⟨by rw [composition_eq, composition_eq, h2, h3]; rfl, h1, by simp [Concept.cct, h2, h3]⟩
  · have h2 := T.old k hlt e
    rw [specs_get hk', specs_get hk] at h2
    simp only [Option.some.injEq] at h2
    exact ⟨by rw [composition_eq, composition_eq, h2], h1, by simp [Concept.cct, h2]⟩

theorem Told.sameCct (T : Told s s' N i j) {k : Nat} {c : Con}
    (hk : s.concepts[k]? = some c) : (View.mk s' Nested.default).cct (.com k) =
      (View.mk s Nested.default).cct (.com k) := by
  have hlt := lt_of_get hk
  have hlen : k < s'.concepts.length := by rw [T.len]; omega
  have hk' : s'.concepts[k]? = some s'.concepts[k] := List.getElem?_eq_getElem hlen
  have : s'.concepts[k].cct = c.cct := by
    by_cases e : k = i
    · subst e
      obtain ⟨l, h2, h3, _⟩ := T.self
      have h3 := h3 hlt
      rw [specs_get hk'] at h2
      rw [specs_get hk] at h3
      simp only [Option.some.injEq] at h2 h3
      simp [Concept.cct, h2, h3]
    · have h2 := T.old k hlt e
      rw [specs_get hk', specs_get hk] at h2
      simp only [Option.some.injEq] at h2
      simp [Concept.cct, h2]
  unfold View.cct
  rw [rest_read hk, rest_read hk']
  exact congrArg Except.ok this

theorem Told.sameLoop [HashOrder] (T : Told s s' N i j) (hs : RefsInv s) (hv : RedRev (look s.concepts))
    (hfr : ∀ k, k < s.concepts.length → k ≠ j → froms s' k = froms s k) {z : Nat}
    (hj : ¬TransGen (ReducesTo s) j z) : ∀ (n : Nat) (L : List CId),
    (∀ a ∈ L, ∃ k, a = .com k ∧ TransGen (ReducesTo s) k z) →
    (View.mk s' Nested.default).labelleeLoop n L = (View.mk s Nested.default).labelleeLoop n L := by
  intro n
  induction n with
  | zero => intros; rfl
  | succ n ih =>
    intro L hL
    cases L with
    | nil => rfl
    | cons a L =>
      obtain ⟨k, rfl, hk⟩ := hL a List.mem_cons_self
      have hlt : k < s.concepts.length := by
        cases hk using TransGen.head_induction_on with
        | single h => exact (reducesTo_lt hs h).1
        | head h _ _ => exact (reducesTo_lt hs h).1
      have hc : s.concepts[k]? = some s.concepts[k] := List.getElem?_eq_getElem hlt
      have hkj : k ≠ j := by rintro rfl; exact hj hk
      obtain ⟨c', h1, h2, h3, _⟩ := T.sameRead hfr hc hkj
      have e1 : (Mixed.ofCon c').reducesFrom = (Mixed.ofCon s.concepts[k]).reducesFrom := by
        show (((HashOrder.order c'.redFrom).map CId.com).filter _) ++ _ = _
        rw [h3]; rfl
      have e2 : (Mixed.ofCon c').composition = (Mixed.ofCon s.concepts[k]).composition := by
        show c'.composition.map _ = s.concepts[k].composition.map _
        rw [h2]
      have next : ∀ a ∈ L ++ (Mixed.ofCon s.concepts[k]).reducesFrom,
          ∃ k, a = .com k ∧ TransGen (ReducesTo s) k z := by
        intro a ha
        rcases List.mem_append.1 ha with ha | ha
        · exact hL a (List.mem_cons_of_mem _ ha)
        · obtain ⟨j, rfl, hj⟩ := ofCon_reducesFrom.1 ha
          exact ⟨j, rfl, .head (reducesTo_iff.2 (hv k _ j hc hj)) hk⟩
      have ih := ih _ next
      have hr : ∀ r x, (Mixed.ofCon s.concepts[k]).composition = some (r, x) →
          (View.mk s' Nested.default).cct r = (View.mk s Nested.default).cct r := by
        intro r x h
        have h : s.concepts[k].composition.map (fun p => (CId.com p.1, CId.com p.2)) = some (r, x) := h
        cases hp : s.concepts[k].composition with
        | none => rw [hp] at h; cases h
        | some p =>
          rw [hp] at h
          cases h
          have := (composedOf_lt hs (k := k) (l := p.1) (r := p.2) ⟨_, hc, hp⟩).1
          exact T.sameCct (List.getElem?_eq_getElem this)
      simp only [View.labelleeLoop]
      rw [rest_read hc, rest_read h1]
      simp only [bind, Except.bind, e1, e2, ih]
      cases hm : (Mixed.ofCon s.concepts[k]).composition with
      | none => rfl
      | some p =>
        obtain ⟨r, x⟩ := p
        simp only [hr r x hm]

/-- A known word stands for what it stood for before. -/
theorem Told.sameLookup [HashOrder] (T : Told s s' N i j) (U : Untold s N i j) (hv : RedRev (look s.concepts))
    (hfr : ∀ k, k < s.concepts.length → k ≠ j → froms s' k = froms s k) {t : Str}
    (ht : s'.stringMap.get? t = s.stringMap.get? t) (n : Nat) :
    (View.mk s' Nested.default).conceptFromLabel n t = (View.mk s Nested.default).conceptFromLabel n t := by
  have hs := U.names
  have e : (View.mk s' Nested.default).stringConcept t = (View.mk s Nested.default).stringConcept t := by
    show Except.ok ((s'.stringMap.get? t).map CId.com) = Except.ok ((s.stringMap.get? t).map CId.com)
    rw [ht]
  unfold View.conceptFromLabel
  rw [e]
  cases hz : s.stringMap.get? t with
  | none =>
    have : (View.mk s Nested.default).stringConcept t = .ok none := by
      show Except.ok ((s.stringMap.get? t).map CId.com) = _
      rw [hz]; rfl
    rw [this]; rfl
  | some z =>
    have : (View.mk s Nested.default).stringConcept t = .ok (some (.com z)) := by
      show Except.ok ((s.stringMap.get? t).map CId.com) = _
      rw [hz]; rfl
    rw [this]
    show (View.mk s' Nested.default).labellee n (.com z) = (View.mk s Nested.default).labellee n (.com z)
    have hzt : IsString s z t := isString_iff.2 (hs.strings t z (AMap.mem_of_get? _ _ _ hz))
    obtain ⟨cz, hcz, _⟩ := id hzt
    have off : ∀ q, ReflTransGen (ReducesTo s) j q → q ≠ z := by
      rintro q hq rfl
      by_cases hj : j < s.concepts.length
      · obtain ⟨⟨_, hw⟩, _⟩ := U.second hj q hq
        exact hw.nostring t hzt
      · rcases ReflTransGen.cases_head hq with rfl | ⟨k, hk, _⟩
        · exact hj (lt_of_get hcz)
        · exact hj (reducesTo_lt hs.refs hk).1
    obtain ⟨c', h1, _, h3, _⟩ := T.sameRead hfr hcz (fun e => off j .refl e.symm)
    unfold View.labellee
    rw [rest_read hcz, rest_read h1]
    have e1 : (Mixed.ofCon c').reducesFrom = (Mixed.ofCon cz).reducesFrom := by
      show (((HashOrder.order c'.redFrom).map CId.com).filter _) ++ _ = _
      rw [h3]; rfl
    simp only [bind, Except.bind, e1]
    exact T.sameLoop hs.refs hv hfr (fun h => off z h.to_reflTransGen rfl) n _ fun a ha => by
      obtain ⟨k, rfl, hk⟩ := ofCon_reducesFrom.1 ha
      exact ⟨k, rfl, .single (reducesTo_iff.2 (hv z cz k hcz hk))⟩

theorem applyStrings_other {g g' : Snap} {t : Str} : ∀ {L : List (Str × VChange CId)}, (∀ p ∈ L, p.1 ≠ t) →
    g.applyStrings L = .ok g' → g'.stringMap.get? t = g.stringMap.get? t := by
  intro L
  induction L generalizing g with
  | nil => intro _ h; cases h; rfl
  | cons p L ih =>
    intro hL h
    simp only [Snap.applyStrings, Except.bind_eq_ok] at h
    obtain ⟨g1, h1, h2⟩ := h
    rw [ih (fun q hq => hL q (List.mem_cons_of_mem _ hq)) h2]
    have hp := hL p List.mem_cons_self
    unfold Snap.applyString at h1
    split at h1
    · simp only [Except.bind_eq_ok] at h1
      obtain ⟨a, _, b, _, h1⟩ := h1
      split at h1
      · cases h1
        simp [AMap.get?_insert, hp]
      · cases h1
    · simp only [Except.bind_eq_ok] at h1
      obtain ⟨a, _, h1⟩ := h1
      cases h1
      simp [AMap.get?_insert, hp]
    · simp only [Except.bind_eq_ok] at h1
      obtain ⟨b, _, h1⟩ := h1
      split at h1
      · cases h1
        simp [AMap.get?_erase, hp]
      · cases h1

/-- A reduction that is added is listed with what the concept reduces to, and no other list changes. -/
theorem reduce_froms {g g' : Snap} (hg : RefsInv g) {a y : CId} {i j : Nat} {ch : VChange CId}
    (hch : ch = .create y ∨ ∃ b, ch = .update b y) (hi : g.convert a = .ok i) (hj : g.convert y = .ok j)
    (st : Step g (a, .reduce a ch) g') {k : Nat} (hk : k ≠ j)
    (hno : ∀ l, froms g k = some l → i ∉ l) : froms g' k = froms g k := by
  cases st with
  | reduceCreate _ r k' ri ck cr mc red hk' hr hne hck hcr hs =>
    obtain rfl : y = r := by rcases hch with h | ⟨b, h⟩ <;> cases h; rfl
    rw [hi] at hk'; cases hk'
    rw [hj] at hr; cases hr
    unfold froms
    simp only [Snap.withConcepts, List.getElem?_set, List.length_set]
    rw [if_neg (fun e => hk e.symm)]
    by_cases e : i = k
    · subst e
      rw [if_pos rfl, if_pos (lt_of_get hck), hck]; rfl
    · rw [if_neg e]
  | reduceUpdate _ b r k' bi ri ck cb cr mc red hk' hb hr hkb hne hba hck hcb hcr hs =>
    obtain rfl : y = r := by rcases hch with h | ⟨b, h⟩ <;> cases h; rfl
    rw [hi] at hk'; cases hk'
    rw [hj] at hr; cases hr
    have hid := hg.valid.ids i ck hck
    unfold froms
    simp only [Snap.withConcepts, List.getElem?_set, List.length_set]
    rw [if_neg (fun e => hk e.symm)]
    by_cases e : bi = k
    · subst e
      rw [if_pos rfl, if_pos (lt_of_get hcb), hcb]
      have : i ∉ cb.redFrom := hno _ (by simp [froms, hcb])
      show some (cb.redFrom.filter (· ≠ ck.id)) = some cb.redFrom
      rw [List.filter_eq_self.2]
      intro q hq
      simp only [ne_eq, decide_eq_true_eq, hid]
      rintro rfl
      exact this hq
    · rw [if_neg e]
      by_cases e : i = k
      · subst e
        rw [if_pos rfl, if_pos (lt_of_get hck), hck]; rfl
      · rw [if_neg e]
  | reduceRemove _ _ _ _ _ _ _ _ _ => rcases hch with h | ⟨b, h⟩ <;> cases h

theorem Shape.strings {d : Delta} {x y : Str} {ix iy : CId} (h : Shape d x y ix iy) : ∀ p ∈ d.string,
    (p.1 = x ∧ ∃ u, ix = .unc u) ∨ (p.1 = y ∧ ∃ u, iy = .unc u) := by
  cases h with
  | none i j => intro p hp; cases hp
  | first j =>
    intro p hp
    cases List.mem_singleton.1 hp
    exact .inl ⟨rfl, _, rfl⟩
  | second i =>
    intro p hp
    cases List.mem_singleton.1 hp
    exact .inr ⟨rfl, _, rfl⟩
  | two =>
    intro p hp
    have hp : p ∈ [(x, VChange.create (CId.unc 0)), (y, .create (.unc 3))] := hp
    simp only [List.mem_cons, List.not_mem_nil, or_false] at hp
    rcases hp with rfl | rfl
    · exact .inl ⟨rfl, _, rfl⟩
    · exact .inr ⟨rfl, _, rfl⟩

theorem Shape.added {d : Delta} {x y : Str} {ix iy : CId} (h : Shape d x y ix iy) {g : Snap} (hs : RefsInv s)
    (hxy : x ≠ y) (hg : s.applyAll d.order = .ok g) : ∃ N, Added s g N ∧ N.Nodup ∧ (∀ t ∈ N, t = x ∧ (∃ u, ix = .unc u) ∨ t = y ∧ ∃ u, iy = .unc u) ∧
      (∀ u, ix = .unc u → ∃ m, N[m]? = some x ∧ g.convert ix = .ok (s.concepts.length + 3 * m + 2)) ∧
      (∀ u, iy = .unc u → ∃ m, N[m]? = some y ∧ g.convert iy = .ok (s.concepts.length + 3 * m + 2)) := by
  cases h with
  | none i j =>
    have hg : Except.ok s = Except.ok g := hg
    cases hg
    exact ⟨[], .refl s, by simp, by simp, by rintro u ⟨⟩, by rintro u ⟨⟩⟩
  | first j =>
    obtain ⟨h1, h2⟩ := added_one hs hg
    exact ⟨[x], h1, by simp, by simp, fun u _ => ⟨0, rfl, h2⟩, by rintro u ⟨⟩⟩
  | second i =>
    obtain ⟨h1, h2⟩ := added_one hs hg
    exact ⟨[y], h1, by simp, by simp, by rintro u ⟨⟩, fun u _ => ⟨0, rfl, h2⟩⟩
  | two =>
    obtain ⟨h1, h2, h3⟩ := added_two hs hg
    exact ⟨[x, y], h1, by simp [hxy], by simp, fun u _ => ⟨0, rfl, h2⟩, fun u _ => ⟨1, rfl, h3⟩⟩

/-- What the command makes of the store, concept by concept. -/
theorem told_of {s s' : Snap} {c c' : Ctx} {d : Delta} {ix iy : CId} {x y a : Str} (hs : RefsInv s)
    (hv : RedRev (look s.concepts))
    (hd : c.delta = .base d) (sh : Shape d x y ix iy) (hxy : x ≠ y)
    (fx : ∀ i, ix = .com i → i < s.concepts.length ∧ (∀ l r, ¬ComposedOf s i l r) ∧ ∀ k, ¬ReducesTo s i k)
    (fy : ∀ j, iy = .com j → j < s.concepts.length)
    (hin : ∀ p ∈ d.order, Introduces p)
    (h : Taught c ix iy (.ok a) c') (ha : s.apply c'.delta = .ok s') :
    ∃ i j N, Told s s' N i j ∧ N.Nodup ∧ (∀ t ∈ N, t = x ∧ (∃ u, ix = .unc u) ∨ t = y ∧ ∃ u, iy = .unc u) ∧
      (ix = .com i ∨ (∃ u, ix = .unc u) ∧ ∃ m, N[m]? = some x ∧ i = s.concepts.length + 3 * m + 2) ∧
      (iy = .com j ∨ (∃ u, iy = .unc u) ∧ ∃ m, N[m]? = some y ∧ j = s.concepts.length + 3 * m + 2) ∧
      (∀ k, k < s.concepts.length → k ≠ j → froms s' k = froms s k) ∧
      (∀ t, t ∉ N → s'.stringMap.get? t = s.stringMap.get? t) ∧
      ∀ g p rest before, c'.delta.order = before ++ p :: rest → s.applyAll before = .ok g →
        ReducesFresh g p ∧ KeepsDefinitions g p := by
  obtain ⟨_, _, ch, hch, id, hu⟩ := h
  have hch : ch = .create iy ∨ ∃ b, ch = .update b iy :=
    hch.imp_right fun ⟨b, _, h, _⟩ => ⟨b, h⟩
  rw [hd] at hu
  obtain ⟨o, e, hid, hup⟩ := Nested.update_base hu
  have ho := Nested.update_order hu
  have ho' := ho
  rw [e] at ha ho
  obtain ⟨g, g', h1, h2, rfl⟩ := apply_base ha
  have ho : o.order = d.order ++ [(id, .reduce ix ch)] := ho
  have hid : id = ix := hid
  subst hid
  rw [ho, applyAll_snoc] at h1
  obtain ⟨g0, h0, h1⟩ := h1
  obtain ⟨N, had, hnd, hN, hX, hY⟩ := sh.added hs hxy h0
  obtain ⟨i, j, mc, red, hi, hj, hsp, hsp', hlen⟩ := reduce_specs (applyAll_refsInv hs h0) hch (applyOne_step h1)
  have hstr := h2
  have h2 := applyStrings_only h2
  have hcon : ({ g' with prev := [] } : Snap).concepts = g.concepts := by rw [h2]
  have hsame : specs { g' with prev := [] } = updS (specs g0) i (.abst mc (some j)) := by
    rw [← hsp']
    funext m
    unfold specs look
    rw [hcon]
  have hi' : id = .com i ∨ (∃ u, id = .unc u) ∧ ∃ m, N[m]? = some x ∧ i = s.concepts.length + 3 * m + 2 := by
    cases id with
    | com i' => cases hi; exact .inl rfl
    | unc u =>
      obtain ⟨m, h3, h4⟩ := hX u rfl
      rw [hi] at h4
      cases h4
      exact .inr ⟨⟨u, rfl⟩, m, h3, rfl⟩
  have hj' : iy = .com j ∨ (∃ u, iy = .unc u) ∧ ∃ m, N[m]? = some y ∧ j = s.concepts.length + 3 * m + 2 := by
    cases iy with
    | com i' => cases hj; exact .inl rfl
    | unc u =>
      obtain ⟨m, h3, h4⟩ := hY u rfl
      rw [hj] at h4
      cases h4
      exact .inr ⟨⟨u, rfl⟩, m, h3, rfl⟩
  have lt_iff : ∀ {q m : Nat}, q = s.concepts.length + 3 * m + 2 → ¬q < s.concepts.length := by
    intro q m e; omega
  have leaf : ∃ l, mc = .leaf l ∧ red = none ∧ (i < s.concepts.length → specs s i = some (.abst (.leaf l) none)) ∧
      (s.concepts.length ≤ i → l = .constant) := by
    rcases hi' with e | ⟨_, m, hm, e⟩
    · obtain ⟨q1, q2, q3⟩ := fx i e
      have hs0 := had.old i q1
      rw [hsp] at hs0
      cases mc with
      | comp l r f b => exact absurd (composedOf_specs.2 ⟨_, hs0.symm, rfl⟩) (q2 l r)
      | leaf l =>
        cases red with
        | some k => exact absurd (reducesTo_specs.2 ⟨_, hs0.symm, rfl⟩) (q3 k)
        | none => exact ⟨l, rfl, rfl, fun _ => hs0.symm, fun h => by omega⟩
    · have := (had.new m x hm).2.2
      rw [← e, hsp] at this
      cases this
      exact ⟨_, rfl, rfl, fun h => absurd h (lt_iff e), fun _ => rfl⟩
  obtain ⟨l, rfl, rfl, hl1, hl2⟩ := leaf
  have other : ∀ k, k ≠ i → specs { g' with prev := [] } k = specs g0 k := by
    intro k hk
    rw [hsame]; simp [updS, hk]
  have at_i : specs { g' with prev := [] } i = some (.abst (.leaf l) (some j)) := by
    rw [hsame]; simp [updS]
  refine ⟨i, j, N, ⟨?_, ?_, ?_, ⟨l, at_i, hl1, hl2⟩, ?_, ?_, ?_⟩, hnd, hN, hi', hj', ?_, ?_, ?_⟩
  · rw [hcon, hlen, had.len]
  · intro k hk hne
    rw [other k hne, had.old k hk]
  · intro m t hm
    obtain ⟨n1, ⟨f, b, n2⟩, n3⟩ := had.new m t hm
    refine ⟨?_, ⟨f, b, ?_⟩, fun hne => ?_⟩
    · rw [other _ ?_, n1]
      rintro rfl
      rw [hsp] at n1
      cases n1
    · rw [other _ ?_, n2]
      rintro rfl
      rw [hsp] at n2
      cases n2
    · rw [other _ hne, n3]
  · rcases hi' with e | ⟨_, m, hm, e⟩
    · exact .inl (fx i e).1
    · exact .inr ⟨m, x, hm, e⟩
  · rcases hj' with e | ⟨_, m, hm, e⟩
    · exact .inl (fy j e)
    · exact .inr ⟨m, y, hm, e⟩
  · rintro rfl
    have st := applyOne_step h1
    cases st with
    | reduceCreate _ r k ri ck cr mc red hk hr hne hck hcr hs =>
      obtain rfl : iy = r := by rcases hch with h | ⟨b, h⟩ <;> cases h; rfl
      rw [hi] at hk; rw [hj] at hr
      cases hk; cases hr
      exact hne rfl
    | reduceUpdate _ b r k bi ri ck cb cr mc red hk hb hr hkb hne hba hck hcb hcr hs =>
      obtain rfl : iy = r := by rcases hch with h | ⟨b, h⟩ <;> cases h; rfl
      rw [hi] at hk; rw [hj] at hr
      cases hk; cases hr
      exact hne rfl
    | reduceRemove _ _ _ _ _ _ _ _ _ => rcases hch with h | ⟨b, h⟩ <;> cases h
  · intro k hk hne
    have : froms { g' with prev := [] } k = froms g k := by unfold froms; rw [hcon]
    rw [this, ← had.from_ k hk]
    refine reduce_froms (applyAll_refsInv hs h0) hch hi hj (applyOne_step h1) hne fun L hL hmem => ?_
    rw [had.from_ k hk] at hL
    simp only [froms, Option.map_eq_some_iff] at hL
    obtain ⟨ck, hck, rfl⟩ := hL
    have hred : ReducesTo s i k := reducesTo_iff.2 (hv k ck i hck hmem)
    rcases hi' with e | ⟨_, m, hm, e⟩
    · exact (fx i e).2.2 k hred
    · have := (reducesTo_lt hs hred).1
      omega
  · intro t ht
    show g'.stringMap.get? t = _
    rw [applyStrings_other ?_ hstr, ← had.table t ht]
    · have st := applyOne_step h1
      have : g.stringMap = g0.stringMap := by
        cases st with
        | reduceCreate _ _ _ _ _ _ _ _ _ _ => rfl
        | reduceUpdate _ _ _ _ _ _ _ _ _ _ _ => rfl
        | reduceRemove _ _ _ _ _ _ _ _ => rfl
      rw [this]
    · intro p hp e
      rw [hup.string.2 (by intro t h; cases h)] at hp
      subst e
      rcases sh.strings p hp with ⟨e, u, hu⟩ | ⟨e, u, hu⟩
      · obtain ⟨m, hm, _⟩ := hX u hu
        exact ht (e ▸ List.mem_of_getElem? hm)
      · obtain ⟨m, hm, _⟩ := hY u hu
        exact ht (e ▸ List.mem_of_getElem? hm)
  · intro g1 p rest before hb hg
    rw [ho'] at hb
    have hb : d.order ++ [(id, Direct.reduce id ch)] = before ++ p :: rest := hb
    rcases List.eq_nil_or_concat rest with rfl | ⟨rest', z, rfl⟩
    · obtain ⟨e1, e2⟩ := List.append_inj' hb rfl
      cases e2
      subst e1
      rw [h0] at hg
      cases hg
      have : NoReduction g0 id := by
        intro i' c hc hk
        rw [hi] at hc
        cases hc
        rw [specs_get hk] at hsp
        injection hsp with hsp
        simp [Concept.reduction, hsp]
      rcases hch with rfl | ⟨b, rfl⟩
      · exact ⟨this, trivial⟩
      · exact ⟨this, trivial⟩
    · have hb : d.order ++ [(id, Direct.reduce id ch)] = (before ++ p :: rest') ++ [z] := by
        rw [hb]; simp
      obtain ⟨e1, _⟩ := List.append_inj' hb rfl
      have := hin p (by rw [e1]; simp)
      obtain ⟨q, dd⟩ := p
      unfold Introduces at this
      dsimp only at this
      split at this <;> first | exact this.elim | exact ⟨trivial, trivial⟩

/-- What is new after the command serves to name the words. -/
theorem onlyNamed_of [HashOrder] {s s' : Snap} {c c' : Ctx} {d : Delta} {ix iy : CId} {x y a : Str} (hs : RefsInv s)
    (hd : c.delta = .base d) (sh : Shape d x y ix iy) (hxy : x ≠ y)
    (fx : ∀ i, ix = .com i → i < s.concepts.length)
    (h : Taught c ix iy (.ok a) c') (ha : s.apply c'.delta = .ok s') : OnlyNamed s s' x y := by
  obtain ⟨_, _, ch, hch, id, hu⟩ := h
  have hch : ch = .create iy ∨ ∃ b, ch = .update b iy :=
    hch.imp_right fun ⟨b, _, h, _⟩ => ⟨b, h⟩
  rw [hd] at hu
  obtain ⟨o, e, hid, hup⟩ := Nested.update_base hu
  have ho := Nested.update_order hu
  rw [e] at ha ho
  obtain ⟨g, g', h1, h2, rfl⟩ := apply_base ha
  have ho : o.order = d.order ++ [(id, .reduce ix ch)] := ho
  have hid : id = ix := hid
  subst hid
  rw [ho, applyAll_snoc] at h1
  obtain ⟨g0, h0, h1⟩ := h1
  obtain ⟨N, had, hnd, hN, hX, hY⟩ := sh.added hs hxy h0
  obtain ⟨i, j, mc, red, hi, hj, hsp, hsp', hlen⟩ := reduce_specs (applyAll_refsInv hs h0) hch (applyOne_step h1)
  have h2 := applyStrings_only h2
  have hcon : ({ g' with prev := [] } : Snap).concepts = g.concepts := by rw [h2]
  have hsame : specs { g' with prev := [] } = updS (specs g0) i (.abst mc (some j)) := by
    rw [← hsp']
    funext m
    unfold specs look
    rw [hcon]
  have hi' : i < s.concepts.length ∨ ∃ m, N[m]? = some x ∧ i = s.concepts.length + 3 * m + 2 := by
    cases id with
    | com i' => cases hi; exact .inl (fx _ rfl)
    | unc u =>
      obtain ⟨m, h3, h4⟩ := hX u rfl
      rw [hi] at h4
      cases h4
      exact .inr ⟨m, h3, rfl⟩
  have other : ∀ k, k ≠ i → specs { g' with prev := [] } k = specs g0 k := by
    intro k hk
    rw [hsame]; simp [updS, hk]
  have lt : ∀ {m : Nat} {t}, N[m]? = some t → m < N.length := by
    intro m t hm
    rcases Nat.lt_or_ge m N.length with h | h
    · exact h
    · rw [List.getElem?_eq_none h] at hm; cases hm
  have hfew : N.length ≤ 2 := by
    have hsub : N ⊆ [x, y] := by
      intro t ht
      rcases hN t ht with ⟨rfl, _⟩ | ⟨rfl, _⟩ <;> simp
    simpa using (hnd.subperm hsub).length_le
  have hl' : ({ g' with prev := [] } : Snap).concepts.length = s.concepts.length + 3 * N.length := by
    rw [hcon, hlen, had.len]
  have new : ∀ k, s.concepts.length ≤ k → ∀ sp, specs { g' with prev := [] } k = some sp →
      ∃ m t, N[m]? = some t ∧ (k = s.concepts.length + 3 * m ∧ sp = .str t ∨
        k = s.concepts.length + 3 * m + 1 ∧ (∃ f b, sp = .abst (.comp (builtin .label)
          (s.concepts.length + 3 * m + 2) f b) (some (s.concepts.length + 3 * m))) ∨
        k = s.concepts.length + 3 * m + 2 ∧ (sp = .abst (.leaf .constant) none ∨
          t = x ∧ sp = .abst (.leaf .constant) (some j))) := by
    intro k hk sp hksp
    have hkl : k < s.concepts.length + 3 * N.length := by
      rw [← hl']
      simp only [specs, look, Option.map_eq_some_iff] at hksp
      obtain ⟨c, hc, _⟩ := hksp
      exact lt_of_get hc
    have hm : (k - s.concepts.length) / 3 < N.length := by omega
    have hN' : N[(k - s.concepts.length) / 3]? = some N[(k - s.concepts.length) / 3] := List.getElem?_eq_getElem hm
    generalize hmm : (k - s.concepts.length) / 3 = m at hm hN'
    generalize N[m] = t at hN'
    refine ⟨m, t, hN', ?_⟩
    obtain ⟨n1, ⟨f, b, n2⟩, n3⟩ := had.new m t hN'
    by_cases hki : k = i
    · subst hki
      rcases hi' with h | ⟨m', hm', e'⟩
      · omega
      · have : m' = m := by omega
        subst this
        rw [hm'] at hN'
        cases hN'
        rw [← e', hsp] at n3
        cases n3
        rw [hsame] at hksp
        simp only [updS, if_pos, Option.some.injEq] at hksp
        exact .inr (.inr ⟨e', .inr ⟨rfl, hksp.symm⟩⟩)
    · rw [other k hki] at hksp
      have : k = s.concepts.length + 3 * m ∨ k = s.concepts.length + 3 * m + 1 ∨ k = s.concepts.length + 3 * m + 2 := by
        omega
      rcases this with rfl | rfl | rfl
      · rw [n1] at hksp; cases hksp; exact .inl ⟨rfl, rfl⟩
      · rw [n2] at hksp; cases hksp; exact .inr (.inl ⟨rfl, f, b, rfl⟩)
      · rw [n3] at hksp; cases hksp; exact .inr (.inr ⟨rfl, .inl rfl⟩)
  have hname : ∀ {m : Nat} {t}, N[m]? = some t → HasName { g' with prev := [] } (s.concepts.length + 3 * m + 2) t := by
    intro m t hm
    obtain ⟨n1, ⟨f, b, n2⟩, _⟩ := had.new m t hm
    have ne : ∀ q, q < 2 → s.concepts.length + 3 * m + q ≠ i := by
      intro q hq
      rcases hi' with h | ⟨m', hm', e'⟩ <;> omega
    refine ⟨s.concepts.length + 3 * m + 1, s.concepts.length + 3 * m, ?_, .single ?_, ?_⟩
    · refine composedOf_specs.2 ⟨_, (other _ (ne 1 (by omega))).trans n2, rfl⟩
    · refine reducesTo_specs.2 ⟨_, (other _ (ne 1 (by omega))).trans n2, rfl⟩
    · refine isString_specs.2 ((other _ (ne 0 (by omega))).trans n1)
  have of : ∀ {m : Nat} {t}, N[m]? = some t → t = x ∨ t = y := by
    intro m t hm
    rcases hN t (List.mem_of_getElem? hm) with ⟨h, _⟩ | ⟨h, _⟩
    exacts [.inl h, .inr h]
  refine ⟨by rw [hl']; omega, ?_, ?_, ?_, ?_⟩
  · intro k t hk hst
    obtain ⟨m, t', hm, ⟨_, e⟩ | ⟨_, _, _, e⟩ | ⟨_, e | ⟨_, e⟩⟩⟩ := new k hk _ (isString_specs.1 hst)
    · cases e; exact of hm
    · cases e
    · cases e
    · cases e
  · intro k l r hk hc
    obtain ⟨sp, h3, h4⟩ := composedOf_specs.1 hc
    obtain ⟨m, t', hm, ⟨_, e⟩ | ⟨_, _, _, e⟩ | ⟨_, e | ⟨_, e⟩⟩⟩ := new k hk _ h3
    · subst e; cases h4
    · subst e
      cases h4
      refine ⟨rfl, by omega, ?_⟩
      rcases of hm with rfl | rfl
      · exact .inl (hname hm)
      · exact .inr (hname hm)
    · subst e; cases h4
    · subst e; cases h4
  · intro k m' hk hc
    obtain ⟨sp, h3, h4⟩ := reducesTo_specs.1 hc
    obtain ⟨m, t', hm, ⟨_, e⟩ | ⟨ek, f, b, e⟩ | ⟨ek, e | ⟨et, e⟩⟩⟩ := new k hk _ h3
    · subst e; cases h4
    · subst e
      cases h4
      refine .inr ⟨⟨_, composedOf_specs.2 ⟨_, h3, rfl⟩⟩, t', isString_specs.2 ?_⟩
      rw [other _ ?_, (had.new m t' hm).1]
      rcases hi' with h | ⟨m', hm', e'⟩ <;> omega
    · subst e; cases h4
    · subst et
      rw [ek]
      exact .inl (hname hm)
  · intro k t hk hc
    have h3 := isBuiltIn_specs.1 hc
    obtain ⟨m, t', hm, ⟨_, e⟩ | ⟨_, _, _, e⟩ | ⟨_, e | ⟨_, e⟩⟩⟩ := new k hk _ h3 <;> cases e

end Zia

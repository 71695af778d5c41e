import Verif.Lemmas.Query

/-!
# What the store says about `->`, `assoc`, `true` and `false`
-/

namespace Zia

open CM Spec Relation

set_option linter.unusedSectionVars false

/-- The built-in concepts that play a part in questions about reductions, and their names. -/
def spoken : List (CCT × Str) :=
  [(.reduction, str% "->"), (.associativity, str% "assoc"), (.tru, str% "true"), (.fls, str% "false")]

/-- What is needed of the store for questions about reductions. -/
structure Wide (s : Snap) : Prop where
  names : ∀ p ∈ spoken, PlainWord s (builtin p.1) p.2
  constant : ∀ t ∈ [CCT.tru, .fls], ¬MayVary s (builtin t)
  arrows : ∀ g z, ComposedOf s g (builtin .reduction) z → ¬MayVary s g
  above : ∀ g l r z, ComposedOf s g l r → ¬ComposedOf s r (builtin .reduction) z ∧ ¬ComposedOf s r (builtin .label) z
  flat : ∀ c r p d p1 p2, ComposedOf s c (builtin .implication) r → ComposedOf s r p d → ¬ComposedOf s p p1 p2
  truths : ∀ t ∈ [CCT.tru, .fls], ∀ k d, ComposedOf s k (builtin t) d →
    (∃ l r, ComposedOf s d l r ∧ l ≠ builtin .reduction ∧ ¬MayVary s l) ∧ ∀ q, ¬ReducesTo s q d
  ranked : ∃ k q r, ComposedOf s k (builtin .reduction) q ∧ ComposedOf s q (builtin .precedes) r

/-- The conditions are kept if only names are added, and reductions that are not to compositions. -/
theorem Wide.keep {s s' : Snap} (h : Wide s) {len : Nat}
    (comp : ∀ k l r, ComposedOf s' k l r → ComposedOf s k l r ∨
      len ≤ k ∧ l = builtin .label ∧ ∀ l' r', ¬ComposedOf s' r l' r')
    (old : ∀ k l r, ComposedOf s k l r → ComposedOf s' k l r)
    (lt : ∀ k l r, ComposedOf s k l r → k < len ∧ l < len ∧ r < len)
    (plain : ∀ i t, PlainWord s i t → PlainWord s' i t)
    (vary : ∀ k, k < len → MayVary s' k → MayVary s k)
    (built : ∀ t, builtin t < len)
    (reds : ∀ q d l r, ComposedOf s d l r → ReducesTo s' q d → ReducesTo s q d) : Wide s' := by
  have comp' : ∀ {k l r}, k < len → ComposedOf s' k l r → ComposedOf s k l r := by
    intro k l r hk hc
    rcases comp k l r hc with h | h
    · exact h
    · omega
  have compR : ∀ {k l r}, l ≠ builtin .label → ComposedOf s' k l r → ComposedOf s k l r := by
    intro k l r hk hc
    rcases comp k l r hc with h | ⟨_, e, _⟩
    · exact h
    · exact absurd e hk
  refine ⟨fun p hp => plain _ _ (h.names p hp), fun t ht hv => h.constant t ht (vary _ (built t) hv), ?_, ?_, ?_, ?_, ?_⟩
  · intro g z hg hv
    have hg := compR (by decide) hg
    exact h.arrows g z hg (vary g (lt _ _ _ hg).1 hv)
  · intro g l r z hg
    rcases comp g l r hg with hg | ⟨_, _, hr⟩
    · have := (lt _ _ _ hg).2.2
      exact ⟨fun hz => (h.above g l r z hg).1 (comp' this hz), fun hz => (h.above g l r z hg).2 (comp' this hz)⟩
    · exact ⟨hr _ _, hr _ _⟩
  · intro c r p d p1 p2 h1 h2 h3
    have h1 := compR (by decide) h1
    have h2 := comp' (lt _ _ _ h1).2.2 h2
    exact h.flat c r p d p1 p2 h1 h2 (comp' (lt _ _ _ h2).2.1 h3)
  · intro t ht k d hk
    have hk := compR (by
      simp only [List.mem_cons, List.not_mem_nil, or_false] at ht
      rcases ht with rfl | rfl <;> decide) hk
    obtain ⟨⟨l, r, h1, h2, h3⟩, h4⟩ := h.truths t ht k d hk
    exact ⟨⟨l, r, old _ _ _ h1, h2, fun hv => h3 (vary l (lt _ _ _ h1).2.1 hv)⟩, fun q hq => h4 q (reds q d l r h1 hq)⟩
  · obtain ⟨k, q, r, h1, h2⟩ := h.ranked
    exact ⟨k, q, r, old _ _ _ h1, old _ _ _ h2⟩

theorem split_space {a b r r' : Str} (ha : ' ' ∉ a) (hb : ' ' ∉ b) (h : a ++ ' ' :: r = b ++ ' ' :: r') :
    a = b ∧ r = r' := by
  induction a generalizing b with
  | nil =>
    cases b with
    | nil => cases h; exact ⟨rfl, rfl⟩
    | cons x b =>
      cases h
      exact absurd (by simp) hb
  | cons y a ih =>
    cases b with
    | nil =>
      cases h
      exact absurd (by simp) ha
    | cons x b =>
      simp only [List.cons_append, List.cons.injEq] at h
      obtain ⟨e1, e2⟩ := ih (by simp_all) (by simp_all) h.2
      exact ⟨by rw [h.1, e1], e2⟩

theorem nospace_of {x : Str} (h : IsSymbol x) : ' ' ∉ x := by
  intro hm
  have := (h.2 _ hm).2.2
  cases this

theorem noWs_of {x : Str} (h : IsSymbol x) : x.any isWs = false := by
  rw [List.any_eq_false]
  intro c hc
  simp [(h.2 c hc).2.2]

theorem arrowText_inj {y y' : Str} (h : arrowText y = arrowText y') : y = y' := by
  unfold arrowText at h
  simpa using h

theorem assoc_ne_arrow {v y : Str} : assocText v ≠ arrowText y := by
  intro h
  unfold assocText arrowText at h
  simp at h

variable {s : Snap} {D : Nat → Prop}

/-- Conditions on the names of words. -/
structure Tidy (s : Snap) (D : Nat → Prop) : Prop where
  symbols : ∀ i x, D i → PlainWord s i x → IsSymbol x ∧ x ≠ str% "assoc"
  arrowless : ∀ i x, D i → PlainWord s i x → x ≠ str% "->"
  distinct : ∀ i j x, D i → D j → PlainWord s i x → PlainWord s j x → i = j
  named : ∀ i x y, D i → PlainWord s i x → PlainWord s i y → x = y

section

variable [HashOrder] {W : Stand s}

theorem Noted.ofAssoc (T : Tidy s D) {v : Str} {r : RR} (h : Noted s D (assocText v) r) :
    ∀ p, r = some p → p.1.concept = none := by
  generalize hu : assocText v = u at h
  cases h with
  | assoc h => exact h
  | arrow => exact absurd hu assoc_ne_arrow
  | claim hi hj hx hy =>
    obtain ⟨h1, h2⟩ := T.symbols _ _ hi hx
    exact absurd (split_space (by decide) (nospace_of h1) hu).1.symm h2
  | couple hi hj hx hy =>
    obtain ⟨h1, h2⟩ := T.symbols _ _ hi hx
    exact absurd (split_space (by decide) (nospace_of h1) hu).1.symm h2
  | asked hi hx =>
    obtain ⟨h1, h2⟩ := T.symbols _ _ hi hx
    exact absurd (split_space (by decide) (nospace_of h1) hu).1.symm h2

theorem Noted.ofArrow (T : Tidy s D) {j : Nat} {y : Str} (hj : D j) (hy : PlainWord s j y) {r : RR}
    (h : Noted s D (arrowText y) r) : RightArrow s j r := by
  generalize hu : arrowText y = u at h
  cases h with
  | assoc h => exact absurd hu.symm assoc_ne_arrow
  | arrow hj' hy' h =>
    cases arrowText_inj hu
    cases T.distinct _ _ _ hj hj' hy hy'
    exact h
  | claim hi hj' hx hy' =>
    have := (split_space (by decide) (nospace_of (T.symbols _ _ hi hx).1) hu).2
    refine absurd ?_ (nospace_of (T.symbols _ _ hj hy).1)
    rw [this]
    simp [arrowText]
  | couple hi hj' hx hy' =>
    exact absurd (split_space (by decide) (nospace_of (T.symbols _ _ hi hx).1) hu).1.symm (T.arrowless _ _ hi hx)
  | asked hi hx =>
    exact absurd (split_space (by decide) (nospace_of (T.symbols _ _ hi hx).1) hu).1.symm (T.arrowless _ _ hi hx)

theorem Noted.ofClaim (T : Tidy s D) {i j : Nat} {x y : Str} (hi : D i) (hj : D j) (hx : PlainWord s i x)
    (hy : PlainWord s j y) {r : RR} (h : Noted s D (claimText x y) r) : RightClaim s i j r := by
  generalize hu : claimText x y = u at h
  cases h with
  | assoc h =>
    obtain ⟨h1, h2⟩ := T.symbols _ _ hi hx
    exact absurd (split_space (nospace_of h1) (by decide) hu).1 h2
  | arrow hj' hy' h =>
    have := (split_space (nospace_of (T.symbols _ _ hi hx).1) (by decide) hu).2
    refine absurd ?_ (nospace_of (T.symbols _ _ hj' hy').1)
    rw [← this]
    simp [arrowText]
  | claim hi' hj' hx' hy' h =>
    obtain ⟨rfl, e⟩ := split_space (nospace_of (T.symbols _ _ hi hx).1) (nospace_of (T.symbols _ _ hi' hx').1) hu
    cases arrowText_inj e
    cases T.distinct _ _ _ hi hi' hx hx'
    cases T.distinct _ _ _ hj hj' hy hy'
    exact h
  | couple hi' hj' hx' hy' h =>
    have := (split_space (nospace_of (T.symbols _ _ hi hx).1) (nospace_of (T.symbols _ _ hi' hx').1) hu).2
    refine absurd ?_ (nospace_of (T.symbols _ _ hj' hy').1)
    rw [← this]
    simp [arrowText]
  | asked hi' hx' h =>
    have := (split_space (nospace_of (T.symbols _ _ hi hx).1) (nospace_of (T.symbols _ _ hi' hx').1) hu).2
    simp [arrowText] at this

theorem Noted.ofCouple (T : Tidy s D) {i j : Nat} {x y : Str} (hi : D i) (hj : D j) (hx : PlainWord s i x)
    (hy : PlainWord s j y) {r : RR} (h : Noted s D (coupleText x y) r) : RightCouple s i j r := by
  generalize hu : coupleText x y = u at h
  cases h with
  | assoc h =>
    obtain ⟨h1, h2⟩ := T.symbols _ _ hi hx
    exact absurd (split_space (nospace_of h1) (by decide) hu).1 h2
  | arrow hj' hy' h =>
    exact absurd (split_space (nospace_of (T.symbols _ _ hi hx).1) (by decide) hu).1 (T.arrowless _ _ hi hx)
  | claim hi' hj' hx' hy' h =>
    have := (split_space (nospace_of (T.symbols _ _ hi hx).1) (nospace_of (T.symbols _ _ hi' hx').1) hu).2
    refine absurd ?_ (nospace_of (T.symbols _ _ hj hy).1)
    rw [this]
    simp [arrowText]
  | couple hi' hj' hx' hy' h =>
    obtain ⟨rfl, rfl⟩ := split_space (nospace_of (T.symbols _ _ hi hx).1) (nospace_of (T.symbols _ _ hi' hx').1) hu
    cases T.distinct _ _ _ hi hi' hx hx'
    cases T.distinct _ _ _ hj hj' hy hy'
    exact h
  | asked hi' hx' h =>
    exact absurd (split_space (nospace_of (T.symbols _ _ hi hx).1) (nospace_of (T.symbols _ _ hi' hx').1) hu).2
      (T.arrowless _ _ hj hy)

theorem Noted.ofAsked (T : Tidy s D) {i : Nat} {x : Str} (hi : D i) (hx : PlainWord s i x) (no : ∀ k, ¬ReducesTo s i k)
    {r : RR} (h : Noted s D (coupleText x (str% "->")) r) : r = none := by
  generalize hu : coupleText x (str% "->") = u at h
  cases h with
  | assoc h =>
    obtain ⟨h1, h2⟩ := T.symbols _ _ hi hx
    exact absurd (split_space (nospace_of h1) (by decide) hu).1 h2
  | arrow hj' hy' h =>
    exact absurd (split_space (nospace_of (T.symbols _ _ hi hx).1) (by decide) hu).1 (T.arrowless _ _ hi hx)
  | claim hi' hj' hx' hy' h =>
    have := (split_space (nospace_of (T.symbols _ _ hi hx).1) (nospace_of (T.symbols _ _ hi' hx').1) hu).2
    simp [arrowText] at this
  | couple hi' hj' hx' hy' h =>
    exact absurd (split_space (nospace_of (T.symbols _ _ hi hx).1) (nospace_of (T.symbols _ _ hi' hx').1) hu).2.symm
      (T.arrowless _ _ hj' hy')
  | asked hi' hx' h =>
    obtain ⟨rfl, _⟩ := split_space (nospace_of (T.symbols _ _ hi hx).1) (nospace_of (T.symbols _ _ hi' hx').1) hu
    cases T.distinct _ _ _ hi hi' hx hx'
    exact h no

/-- What is remembered of a text is right. -/
theorem Known.noted {ca : Cache} (hn : Known W D ca) {X : Syn} {u : Str} (hX : X.concept = none) (hu : X.syntx = some u)
    {x : RR} (hx : ca.reduction? X = some x) : Noted s D u x := by
  have : ∀ fs : List Frame, (∀ f ∈ fs, f ∈ ca.frames) → ∀ x, Cache.lookupIn X.key fs = some x → Noted s D u x := by
    intro fs
    induction fs with
    | nil => intro _ x hx; cases hx
    | cons f fs ih =>
      intro hfs x hx
      unfold Cache.lookupIn at hx
      cases hf : f.red.get? X.key with
      | some y =>
        rw [hf] at hx
        cases hx
        obtain ⟨u', h1, h2⟩ := hn.pairs f (hfs f (by simp)) X.key _ hf hX
        have h1 : X.syntx = some u' := h1
        rw [hu] at h1
        cases h1
        exact h2
      | none =>
        rw [hf] at hx
        exact ih (fun g hg => hfs g (by simp [hg])) x hx
  exact this _ (fun _ h => h) _ hx

end

namespace Search

variable [HashOrder] {S : Search} {e : Env}

/-- Two words next to each other. -/
theorem displayJoint_leaves {a b t : Str} {o o' : Option CId} {k k' : SLeaf} {ca ca' : Cache}
    (h : S.displayJoint e (.leaf (some a) o k) (.leaf (some b) o' k') ca = .ok (t, ca')) :
    t = a ++ ' ' :: b ∧ ca' = ca := by
  unfold Search.displayJoint at h
  simp only [Syn.expansion, ite_self, pure_bind] at h
  obtain ⟨x, ca2, h3, h4⟩ := SM.bind_ok.1 h
  obtain ⟨h3, rfl⟩ := SM.lift_ok.1 h3
  obtain ⟨y, ca3, h5, h6⟩ := SM.bind_ok.1 h4
  obtain ⟨h5, rfl⟩ := SM.lift_ok.1 h5
  cases h3
  cases h5
  cases h6
  exact ⟨rfl, rfl⟩

theorem pairConcept_unstored {l r : Syn} {o : Option CId} (hr : ∀ a b m, l.concept = some a →
      r.concept = some b → e.view.read a = .ok m → m.findAsHand b .left = none)
    (h1 : pairConcept e l r = .ok o) : o = none := by
  unfold pairConcept at h1
  cases hl : l.concept with
  | none => rw [hl] at h1; cases h1; rfl
  | some a =>
    cases hr' : r.concept with
    | none => rw [hl, hr'] at h1; cases h1; rfl
    | some b =>
      rw [hl, hr'] at h1
      simp only [Except.bind_eq_ok, Except.pure_eq_ok] at h1
      obtain ⟨m, hm, rfl⟩ := h1
      exact hr a b m hl hr' hm

/-- The pair of two words that is not stored. -/
theorem contractPair_spells {a b : Str} {o o' : Option CId} {k k' : SLeaf} {t : Syn} {ca ca' : Cache}
    (hr : ∀ a b m, o = some a → o' = some b → e.view.read a = .ok m → m.findAsHand b .left = none)
    (h : S.contractPair e (.leaf (some a) o k) (.leaf (some b) o' k') ca = .ok (t, ca')) :
    (∃ f g, t = .branch (some (a ++ ' ' :: b)) none (.leaf (some a) o k) (.leaf (some b) o' k') f g) ∧ ca' = ca := by
  unfold contractPair at h
  obtain ⟨q, ca1, h1, h2⟩ := SM.bind_ok.1 h
  obtain ⟨h1', rfl⟩ := SM.lift_ok.1 h1
  have hq := pairConcept_unstored (l := .leaf (some a) o k) (r := .leaf (some b) o' k') hr h1'
  subst hq
  obtain ⟨u, ca2, h3, h4⟩ := SM.bind_ok.1 h2
  cases h4
  obtain ⟨rfl, rfl⟩ := displayJoint_leaves h3
  exact ⟨⟨_, _, rfl⟩, rfl⟩

theorem combine_spells {a b : Str} {o o' : Option CId} {k k' : SLeaf} {t : Syn} {ca ca' : Cache}
    (hr : ∀ a b m, o = some a → o' = some b → e.view.read a = .ok m → m.findAsHand b .left = none)
    (h : S.combine e (.leaf (some a) o k) (.leaf (some b) o' k') ca = .ok (t, ca')) :
    (∃ f g, t = .branch (some (a ++ ' ' :: b)) none (.leaf (some a) o k) (.leaf (some b) o' k') f g) ∧ ca' = ca := by
  unfold combine at h
  obtain ⟨q, ca1, h1, h2⟩ := SM.bind_ok.1 h
  obtain ⟨h1', rfl⟩ := SM.lift_ok.1 h1
  have hq := pairConcept_unstored (l := .leaf (some a) o k) (r := .leaf (some b) o' k') hr h1'
  subst hq
  have h2 : S.join e (.leaf (some a) o k) (.leaf (some b) o' k') _ = .ok (t, ca') := h2
  unfold join at h2
  obtain ⟨u, ca2, h3, h4⟩ := SM.bind_ok.1 h2
  cases h4
  obtain ⟨rfl, rfl⟩ := displayJoint_leaves h3
  exact ⟨⟨_, _, rfl⟩, rfl⟩

end Search

end Zia

import Verif.Lemmas.Introduced

/-!
# New words that are pending

While a command that mentions new words is carried out, the store is read as if the words were introduced.
-/

namespace Zia
open Spec
set_option linter.unusedSectionVars false

/-- The ids by which the concepts are known: `b` of them are stored and `n` are pending. -/
def pendId (b n k : Nat) : CId := if k < b then .com k else if k < b + n then .unc (k - b) else .com k

theorem pendId_old {b n k : Nat} (h : k < b) : pendId b n k = .com k := if_pos h

theorem pendId_new {b n u : Nat} (h : u < n) : pendId b n (b + u) = .unc u := by
  rw [pendId, if_neg (by omega), if_pos (by omega)]
  congr 1
  omega

theorem pendId_cases {b n k : Nat} : (k < b ∧ pendId b n k = .com k) ∨
    (∃ u, u < n ∧ k = b + u ∧ pendId b n k = .unc u) ∨ (b + n ≤ k ∧ pendId b n k = .com k) := by
  by_cases h : k < b
  · exact .inl ⟨h, pendId_old h⟩
  · by_cases h' : k < b + n
    · exact .inr (.inl ⟨k - b, by omega, by omega, by rw [pendId, if_neg h, if_pos h']⟩)
    · exact .inr (.inr ⟨by omega, by rw [pendId, if_neg h, if_neg h']⟩)

theorem pendId_inj {b n i j : Nat} (h : pendId b n i = pendId b n j) : i = j := by
  rcases pendId_cases (b := b) (n := n) (k := i) with ⟨h1, e⟩ | ⟨u, h1, h2, e⟩ | ⟨h1, e⟩ <;>
    rcases pendId_cases (b := b) (n := n) (k := j) with ⟨h3, e'⟩ | ⟨u', h3, h4, e'⟩ | ⟨h3, e'⟩ <;>
    rw [e, e'] at h <;> cases h <;> omega

theorem AMap.mem_insert_other {α β : Type} [DecidableEq α] {m : AMap α β} {a : α} {b : β} {p : α × β}
    (h : p ∈ m) (hne : p.1 ≠ a) : p ∈ m.insert a b := by
  induction m with
  | nil => cases h
  | cons q m ih =>
    simp only [AMap.insert]
    split
    · next e =>
      rcases List.mem_cons.1 h with rfl | h
      · exact absurd e hne
      · exact List.mem_cons_of_mem _ h
    · rcases List.mem_cons.1 h with rfl | h
      · exact List.mem_cons_self
      · exact List.mem_cons_of_mem _ (ih h)

section
variable [HashOrder] {s : Snap} {n : Nat}

theorem handOf_lt (hs : RefsInv s) {k : Nat} {c : Con} (hc : s.concepts[k]? = some c) {h : Hand} {y q : Nat}
    (hy : (y, q) ∈ c.handOf h) : y < s.concepts.length ∧ q < s.concepts.length := by
  have := hs.valid.concepts k c hc
  constructor
  · refine this y ?_
    rw [mem_refs]
    cases h
    · exact .inr (.inl ⟨_, hy, .inl rfl⟩)
    · exact .inr (.inr (.inl ⟨_, hy, .inl rfl⟩))
  · refine this q ?_
    rw [mem_refs]
    cases h
    · exact .inr (.inl ⟨_, hy, .inr rfl⟩)
    · exact .inr (.inr (.inl ⟨_, hy, .inr rfl⟩))

theorem findAsHand_lt (hs : RefsInv s) {k : Nat} {c : Con} (hc : s.concepts[k]? = some c) {h : Hand} {y q : Nat}
    (hy : c.findAsHand y h = some q) : y < s.concepts.length ∧ q < s.concepts.length :=
  handOf_lt hs hc (h := h) (AMap.mem_of_get? _ _ _ hy)

/-- A stored concept. -/
theorem mirrors_old (hs : RefsInv s) {k : Nat} {c : Con} (hc : s.concepts[k]? = some c) :
    Mirrors (pendId s.concepts.length n) c (.ofCon c) := by
  have hk := lt_of_get hc
  have hid := hs.valid.ids _ _ hc
  have M := mirrors_ofCon c
  refine ⟨?_, rfl, rfl, ?_, ?_, rfl, rfl, rfl, ?_, ?_, ?_, ?_⟩
  · rw [M.id, hid, pendId_old hk]
  · rw [M.composition]
    cases hp : c.composition with
    | none => rfl
    | some p =>
      have := composedOf_lt hs (k := k) (l := p.1) (r := p.2) ⟨c, hc, hp⟩
      simp only [Option.map_some, pendId_old this.1, pendId_old this.2]
  · rw [M.reduction]
    cases hp : c.reduction with
    | none => rfl
    | some r =>
      have := reducesTo_lt hs (i := k) (j := r) ⟨c, hc, hp⟩
      simp only [Option.map_some, pendId_old this.2]
  · intro j h
    have old : ∀ i, (c.findAsHand i h).map CId.com = (c.findAsHand i h).map (pendId s.concepts.length n) := by
      intro i
      cases hf : c.findAsHand i h with
      | none => rfl
      | some q => simp only [Option.map_some, pendId_old (findAsHand_lt hs hc hf).2]
    rcases pendId_cases (b := s.concepts.length) (n := n) (k := j) with ⟨h1, e⟩ | ⟨u, h1, h2, e⟩ | ⟨h1, e⟩
    · rw [e, M.find, old]
    · rw [e, M.foreign _ _ (by intro k e; cases e)]
      cases hf : c.findAsHand j h with
      | none => rfl
      | some q =>
        have := (findAsHand_lt hs hc hf).1
        omega
    · rw [e, M.find, old]
  · intro x h hx
    cases x with
    | unc u => exact M.foreign _ _ (by intro k e; cases e)
    | com j =>
      rw [M.find]
      cases hf : c.findAsHand j h with
      | none => rfl
      | some q => exact absurd (pendId_old (findAsHand_lt hs hc hf).1).symm (hx j)
  · intro y hy
    obtain ⟨q, rfl, hq⟩ := M.froms y hy
    refine ⟨q, (pendId_old ?_).symm, hq⟩
    exact hs.valid.concepts k c hc q (by simp [Spec.refs, hq])
  · intro h p hp
    obtain ⟨y, q, rfl, hy⟩ := M.hands h p hp
    have := handOf_lt hs hc hy
    exact ⟨y, q, by rw [pendId_old this.1, pendId_old this.2], hy⟩

/-- The concept for labels, of which a word more is read. -/
theorem mirrors_label {b : Nat} {c c0 : Con} {l : AMap CId (Option CId)} {cp : Option (CId × CId)} {rd : Option CId}
    {u v : Nat} (hu : u < n) (hv : v < n)
    (hs : ∀ p ∈ c0.leftOf, p.1 < b)
    (M : Mirrors (pendId b n) c (.prev c0 l [] [] cp rd)) (hl : ∀ p ∈ l, ∃ w, p.1 = .unc w ∧ w ≠ u) :
    Mirrors (pendId b n) (c.addLeft (b + u) (b + v))
      (.prev c0 (l.insert (.unc u) (some (.unc v))) [] [] cp rd) := by
  have hn : l.get? (.unc u) = none := by
    cases hg : l.get? (.unc u) with
    | none => rfl
    | some w =>
      obtain ⟨w', e, hw⟩ := hl _ (AMap.mem_of_get? _ _ _ hg)
      cases e
      exact absurd rfl hw
  refine ⟨M.id, M.string, M.cct, M.composition, M.reduction, M.free, M.bound, M.anonymous, ?_, ?_, M.froms, ?_⟩
  · intro k h
    cases h with
    | right => exact M.find k .right
    | left =>
      have F := M.find k .left
      simp only [Mixed.findAsHand] at F ⊢
      rw [AMap.get?_insert]
      show _ = (AMap.get? (c.leftOf.insert (b + u) (b + v)) k).map _
      rw [AMap.get?_insert]
      by_cases e : k = b + u
      · subst e
        rw [pendId_new hu, if_pos rfl, if_pos rfl]
        simp only [Option.map_some, pendId_new hv]
      · rw [if_neg (Ne.symm e), if_neg (by
          intro e'
          rw [← pendId_new (b := b) hu] at e'
          exact e (pendId_inj e').symm)]
        exact F
  · intro x h hx
    have F := M.foreign x h hx
    cases h with
    | right => exact F
    | left =>
      simp only [Mixed.findAsHand] at F ⊢
      rw [AMap.get?_insert, if_neg (by
        rintro rfl
        exact hx (b + u) (pendId_new hu).symm)]
      exact F
  · intro h p hp
    cases h with
    | right => exact M.hands .right p hp
    | left =>
      have hp' : p ∈ (Mixed.prev c0 l [] [] cp rd).iterHandOf .left := by
        simp only [Mixed.iterHandOf] at hp ⊢
        convert hp using 3
        rw [AMap.get?_insert, if_neg (by rintro ⟨⟩)]
      obtain ⟨y, q, e, hy⟩ := M.hands .left p hp'
      refine ⟨y, q, e, AMap.mem_insert_other hy ?_⟩
      rintro rfl
      simp only [Mixed.iterHandOf, List.mem_filterMap, HashOrder.mem_order] at hp'
      obtain ⟨p0, h1, h2⟩ := hp'
      have hlt := hs p0 h1
      have : p.1 = .com p0.1 := by
        split at h2 <;> cases h2 <;> rfl
      rw [e] at this
      dsimp only at this
      rw [pendId_new hu] at this
      cases this

/-- The string of a new word. -/
theorem mirrors_string {b u : Nat} {t : Str} (h : u + 1 < n) : Mirrors (pendId b n)
    (⟨b + u, [], [], [b + (u + 1)], .str t⟩ : Con) (.unc ⟨.unc u, [], [], [.unc (u + 1)], .str t⟩) := by
  refine ⟨(pendId_new (by omega)).symm, rfl, rfl, rfl, rfl, rfl, rfl, rfl, fun _ h => by cases h <;> rfl,
    fun _ h _ => by cases h <;> rfl, ?_, fun h p hp => ?_⟩
  · intro y hy
    simp only [Mixed.reducesFrom, HashOrder.mem_order, List.mem_cons, List.not_mem_nil, or_false] at hy
    subst hy
    exact ⟨_, (pendId_new h).symm, by simp⟩
  · cases h <;> simp [Mixed.iterHandOf, Concept.handOf, HashOrder.order_nil] at hp

/-- The concept that names a new word. -/
theorem mirrors_name {b u l : Nat} (h : u + 2 < n) (hl : l < b) : Mirrors (pendId b n)
    (⟨b + (u + 1), [], [], [], .abst (.comp l (b + (u + 2)) [] []) (some (b + u))⟩ : Con)
    (.unc ⟨.unc (u + 1), [], [], [], .abst (.comp (.com l) (.unc (u + 2)) [] []) (some (.unc u))⟩) := by
  refine ⟨(pendId_new (by omega)).symm, rfl, rfl, ?_, ?_, rfl, rfl, rfl, fun _ h => by cases h <;> rfl,
    fun _ h _ => by cases h <;> rfl, fun y hy => ?_, fun h p hp => ?_⟩
  · show some _ = some (pendId b n l, pendId b n (b + (u + 2)))
    rw [pendId_old hl, pendId_new h]
  · show some _ = some _
    rw [pendId_new (by omega)]
  · simp [Mixed.reducesFrom, HashOrder.order_nil] at hy
  · cases h <;> simp [Mixed.iterHandOf, Concept.handOf, HashOrder.order_nil] at hp

/-- The concept of a new word. -/
theorem mirrors_word {b u l : Nat} (h : u + 2 < n) (hl : l < b) : Mirrors (pendId b n)
    (⟨b + (u + 2), [], [(l, b + (u + 1))], [], .abst (.leaf .constant) none⟩ : Con)
    (.unc ⟨.unc (u + 2), [], [(.com l, .unc (u + 1))], [], .abst (.leaf .constant) none⟩) := by
  refine ⟨(pendId_new h).symm, rfl, rfl, rfl, rfl, rfl, rfl, rfl, fun k h => ?_, fun x h hx => ?_,
    fun y hy => ?_, fun h p hp => ?_⟩
  · cases h with
    | left => rfl
    | right =>
      show AMap.get? [(CId.com l, CId.unc (u + 1))] (pendId b n k) = (AMap.get? [(l, b + (u + 1))] k).map _
      simp only [AMap.get?]
      by_cases e : l = k
      · subst e
        rw [pendId_old hl, if_pos rfl, if_pos rfl]
        simp only [Option.map_some]
        rw [pendId_new (by omega)]
      · rw [if_neg e, if_neg]
        · rfl
        · intro e'
          rw [← pendId_old (n := n) hl] at e'
          exact e (pendId_inj e')
  · cases h with
    | left => rfl
    | right =>
      show AMap.get? [(CId.com l, CId.unc (u + 1))] x = none
      simp only [AMap.get?]
      rw [if_neg]
      rintro rfl
      exact hx l (pendId_old hl).symm
  · simp [Mixed.reducesFrom, HashOrder.order_nil] at hy
  · cases h with
    | left => simp [Mixed.iterHandOf, Concept.handOf, HashOrder.order_nil] at hp
    | right =>
      simp only [Mixed.iterHandOf, Concept.handOf, HashOrder.mem_order, List.mem_cons, List.not_mem_nil, or_false] at hp
      subst hp
      exact ⟨l, b + (u + 1), by rw [pendId_old hl, pendId_new (by omega)], by simp [Concept.handOf]⟩

theorem Nameable.labelLeaf (hs : Nameable s) {c : Con} (hc : s.concepts[builtin .label]? = some c) :
    c.composition = none ∧ c.reduction = none := by
  obtain ⟨cl, hcl, e⟩ := (hs.concrete _).2 rfl
  rw [hc] at hcl
  cases hcl
  exact ⟨by rw [composition_eq, e]; rfl, by simp [Concept.reduction, e]⟩

theorem byRight_lt (hs : RefsInv s) {t : CCT} {i : Nat} (h : byRight s.concrete t = some i) :
    i < s.concepts.length := by
  simp only [byRight, Option.map_eq_some_iff] at h
  obtain ⟨p, hp, rfl⟩ := h
  exact hs.valid.concrete p.1 p.2 (List.mem_of_find?_eq_some hp)

/-- One word is pending. -/
def Stand.one (hs : Nameable s) (t : Str) : Stand (grown s t) where
  snap := s
  pend := .base (oneName t)
  ι := pendId s.concepts.length 3
  inj := fun _ _ h => pendId_inj h
  old := fun k u h => by
    rcases pendId_cases (b := s.concepts.length) (n := 3) (k := k) with ⟨_, e⟩ | ⟨v, h1, _, e⟩ | ⟨_, e⟩ <;>
      rw [e] at h <;> cases h
    exact h1
  own := fun k h j e => by
    rw [grown_len] at h
    rcases pendId_cases (b := s.concepts.length) (n := 3) (k := k) with ⟨h1, e'⟩ | ⟨v, h1, _, e'⟩ | ⟨h1, e'⟩ <;>
      rw [e'] at e <;> cases e
    · exact h1
    · omega
  keys := fun u ds h => by
    have := AMap.mem_of_get? _ _ _ h
    simp only [oneName, List.mem_cons, List.not_mem_nil, or_false, Prod.mk.injEq, CId.unc.injEq, reduceCtorEq,
      false_and] at this
    show u < 3
    omega
  read := fun k m h => by
    have P := pending_one hs t
    rcases pendId_cases (b := s.concepts.length) (n := 3) (k := k) with ⟨h1, e⟩ | ⟨u, h1, rfl, e⟩ | ⟨h1, e⟩ <;>
      rw [e] at h
    · by_cases hk : k = builtin .label
      · subst hk
        have hcl := List.getElem?_eq_getElem h1
        obtain ⟨z1, z2⟩ := hs.labelLeaf hcl
        refine ⟨_, grown_label hcl, ?_⟩
        simp only [View.read, View.maybeRead, View.getConcept, hcl] at h
        cases h
        exact mirrors_label (u := 2) (v := 1) (l := []) (by omega) (by omega)
          (fun p hp => (handOf_lt hs.refs hcl (h := .left) hp).1) (mirrors_old hs.refs hcl) (by simp)
      · rw [P.read_com hk] at h
        obtain ⟨_, c, e', hc, rfl⟩ := rest_read_inv h
        cases e'
        exact ⟨c, by rw [grown_old h1 hk, hc], mirrors_old hs.refs hc⟩
    · have hl := label_lt hs
      obtain rfl | rfl | rfl : u = 0 ∨ u = 1 ∨ u = 2 := by omega
      · cases h
        exact ⟨_, grown_string t, mirrors_string (u := 0) (by omega)⟩
      · cases h
        exact ⟨_, grown_name t, mirrors_name (u := 0) (by omega) hl⟩
      · cases h
        exact ⟨_, grown_word t, mirrors_word (u := 0) (by omega) hl⟩
    · have hl := label_lt hs
      rw [P.read_com (by omega)] at h
      obtain ⟨_, c, e', hc, rfl⟩ := rest_read_inv h
      cases e'
      have := lt_of_get hc
      omega
  readOf := fun k c hc => by
    have P := pending_one hs t
    rcases pendId_cases (b := s.concepts.length) (n := 3) (k := k) with ⟨h1, e⟩ | ⟨u, h1, rfl, e⟩ | ⟨h1, e⟩ <;>
      rw [e]
    · have hk := List.getElem?_eq_getElem h1
      by_cases h2 : k = builtin .label
      · subst h2
        obtain ⟨m, hm, _⟩ := P.two
        exact ⟨m, hm⟩
      · rw [P.read_com h2, rest_read hk]
        exact ⟨_, rfl⟩
    · obtain rfl | rfl | rfl : u = 0 ∨ u = 1 ∨ u = 2 := by omega
      all_goals exact ⟨_, rfl⟩
    · have := lt_of_get hc
      rw [grown_len] at this
      omega
  other := fun x m h => by
    cases x with
    | com k =>
      have P := pending_one hs t
      refine ⟨k, (pendId_old ?_).symm⟩
      by_cases hk : k = builtin .label
      · subst hk
        exact label_lt hs
      · rw [P.read_com hk] at h
        obtain ⟨_, c, e', hc, rfl⟩ := rest_read_inv h
        cases e'
        exact lt_of_get hc
    | unc u =>
      refine ⟨s.concepts.length + u, (pendId_new ?_).symm⟩
      refine Nat.lt_of_not_le fun hu => ?_
      have : (oneName t).concept.get? (.unc u) = none := by
        simp only [oneName, AMap.get?]
        rw [if_neg (by rintro ⟨⟩; omega), if_neg (by rintro ⟨⟩; omega), if_neg (by rintro ⟨⟩; omega),
          if_neg (by rintro ⟨⟩)]
      simp only [View.read, View.maybeRead, Nested.getConcept, this] at h
      cases h
  quiet := fun p hp cc hcc d hd => by
    simp only [Nested.iterConcepts, oneName, List.mem_cons, List.not_mem_nil, or_false] at hp
    rcases hp with rfl | rfl | rfl | rfl
    · cases hcc
    · cases hcc
    · cases hcc
    · simp only [List.mem_cons, List.not_mem_nil, or_false] at hd
      exact ⟨_, hd⟩
  concrete := fun cc => by
    show _ = (byRight s.concrete cc).map _
    cases hb : byRight s.concrete cc with
    | none => rfl
    | some i =>
      simp only [Option.map_some]
      rw [pendId_old (byRight_lt hs.refs hb)]

/-- Two words are pending. -/
def Stand.two (hs : Nameable s) (t u : Str) : Stand (grown (grown s t) u) where
  snap := s
  pend := .base (twoNames t u)
  ι := pendId s.concepts.length 6
  inj := fun _ _ h => pendId_inj h
  old := fun k w h => by
    rcases pendId_cases (b := s.concepts.length) (n := 6) (k := k) with ⟨_, e⟩ | ⟨v, h1, _, e⟩ | ⟨_, e⟩ <;>
      rw [e] at h <;> cases h
    exact h1
  own := fun k h j e => by
    rw [grown_len, grown_len] at h
    rcases pendId_cases (b := s.concepts.length) (n := 6) (k := k) with ⟨h1, e'⟩ | ⟨v, h1, _, e'⟩ | ⟨h1, e'⟩ <;>
      rw [e'] at e <;> cases e
    · exact h1
    · omega
  keys := fun w ds h => by
    have := AMap.mem_of_get? _ _ _ h
    simp only [twoNames, List.mem_cons, List.not_mem_nil, or_false, Prod.mk.injEq, CId.unc.injEq, reduceCtorEq,
      false_and, false_or] at this
    show w < 6
    omega
  read := fun k m h => by
    have P := pending_two hs t u
    rcases pendId_cases (b := s.concepts.length) (n := 6) (k := k) with ⟨h1, e⟩ | ⟨w, h1, rfl, e⟩ | ⟨h1, e⟩ <;>
      rw [e] at h
    · by_cases hk : k = builtin .label
      · subst hk
        have hcl := List.getElem?_eq_getElem h1
        obtain ⟨z1, z2⟩ := hs.labelLeaf hcl
        have g := grown_label (t := u) (grown_label (t := t) hcl)
        simp only [grown_len] at g
        refine ⟨_, g, ?_⟩
        simp only [View.read, View.maybeRead, View.getConcept, hcl] at h
        cases h
        have hlt : ∀ p ∈ (s.concepts[builtin .label]).leftOf, p.1 < s.concepts.length :=
          fun p hp => (handOf_lt hs.refs hcl (h := .left) hp).1
        exact mirrors_label (u := 5) (v := 4) (l := [(.unc 2, some (.unc 1))]) (by omega) (by omega) hlt
          (mirrors_label (u := 2) (v := 1) (l := []) (by omega) (by omega) hlt (mirrors_old hs.refs hcl) (by simp))
          (by simp)
      · rw [P.read_com hk] at h
        obtain ⟨_, c, e', hc, rfl⟩ := rest_read_inv h
        cases e'
        exact ⟨c, by rw [grown_old (by rw [grown_len]; omega) hk, grown_old h1 hk, hc], mirrors_old hs.refs hc⟩
    · have hl := label_lt hs
      have g1 := grown_string (s := grown s t) u
      have g2 := grown_name (s := grown s t) u
      have g3 := grown_word (s := grown s t) u
      simp only [grown_len] at g1 g2 g3
      have old : ∀ {k c}, k < s.concepts.length + 3 → k ≠ builtin .label → (grown s t).concepts[k]? = some c →
          (grown (grown s t) u).concepts[k]? = some c :=
        fun h1 h2 h3 => (grown_old (by rw [grown_len]; exact h1) h2).trans h3
      obtain rfl | rfl | rfl | rfl | rfl | rfl : w = 0 ∨ w = 1 ∨ w = 2 ∨ w = 3 ∨ w = 4 ∨ w = 5 := by omega
      · cases h
        exact ⟨_, old (by omega) (by omega) (grown_string t), mirrors_string (u := 0) (by omega)⟩
      · cases h
        exact ⟨_, old (by omega) (by omega) (grown_name t), mirrors_name (u := 0) (by omega) hl⟩
      · cases h
        exact ⟨_, old (by omega) (by omega) (grown_word t), mirrors_word (u := 0) (by omega) hl⟩
      · cases h
        exact ⟨_, g1, mirrors_string (u := 3) (by omega)⟩
      · cases h
        exact ⟨_, g2, mirrors_name (u := 3) (by omega) hl⟩
      · cases h
        exact ⟨_, g3, mirrors_word (u := 3) (by omega) hl⟩
    · have hl := label_lt hs
      rw [P.read_com (by omega)] at h
      obtain ⟨_, c, e', hc, rfl⟩ := rest_read_inv h
      cases e'
      have := lt_of_get hc
      omega
  readOf := fun k c hc => by
    have P := pending_two hs t u
    rcases pendId_cases (b := s.concepts.length) (n := 6) (k := k) with ⟨h1, e⟩ | ⟨w, h1, rfl, e⟩ | ⟨h1, e⟩ <;>
      rw [e]
    · have hk := List.getElem?_eq_getElem h1
      by_cases h2 : k = builtin .label
      · subst h2
        obtain ⟨m, hm, _⟩ := P.two
        exact ⟨m, hm⟩
      · rw [P.read_com h2, rest_read hk]
        exact ⟨_, rfl⟩
    · obtain rfl | rfl | rfl | rfl | rfl | rfl : w = 0 ∨ w = 1 ∨ w = 2 ∨ w = 3 ∨ w = 4 ∨ w = 5 := by omega
      all_goals exact ⟨_, rfl⟩
    · have := lt_of_get hc
      rw [grown_len, grown_len] at this
      omega
  other := fun x m h => by
    cases x with
    | com k =>
      have P := pending_two hs t u
      refine ⟨k, (pendId_old ?_).symm⟩
      by_cases hk : k = builtin .label
      · subst hk
        exact label_lt hs
      · rw [P.read_com hk] at h
        obtain ⟨_, c, e', hc, rfl⟩ := rest_read_inv h
        cases e'
        exact lt_of_get hc
    | unc w =>
      refine ⟨s.concepts.length + w, (pendId_new ?_).symm⟩
      refine Nat.lt_of_not_le fun hu => ?_
      have : (twoNames t u).concept.get? (.unc w) = none := by
        simp only [twoNames, AMap.get?]
        rw [if_neg (by rintro ⟨⟩; omega), if_neg (by rintro ⟨⟩; omega), if_neg (by rintro ⟨⟩; omega),
          if_neg (by rintro ⟨⟩), if_neg (by rintro ⟨⟩; omega), if_neg (by rintro ⟨⟩; omega),
          if_neg (by rintro ⟨⟩; omega)]
      simp only [View.read, View.maybeRead, Nested.getConcept, this] at h
      cases h
  quiet := fun p hp cc hcc d hd => by
    simp only [Nested.iterConcepts, twoNames, List.mem_cons, List.not_mem_nil, or_false] at hp
    rcases hp with rfl | rfl | rfl | rfl | rfl | rfl | rfl
    · cases hcc
    · cases hcc
    · cases hcc
    · simp only [List.mem_cons, List.not_mem_nil, or_false] at hd
      rcases hd with hd | hd <;> exact ⟨_, hd⟩
    · cases hcc
    · cases hcc
    · cases hcc
  concrete := fun cc => by
    show _ = (byRight s.concrete cc).map _
    cases hb : byRight s.concrete cc with
    | none => rfl
    | some i =>
      simp only [Option.map_some]
      rw [pendId_old (byRight_lt hs.refs hb)]

end

end Zia

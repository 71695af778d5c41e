import Verif.Lemmas.PendingCommit
import Verif.Spec.Session

/-!
# The store during a session about words
-/

namespace Zia
open CM Spec Relation
set_option linter.unusedSectionVars false

/-- A word that is found at once. -/
theorem lookup_single [HashOrder] {s : Snap} {t : Str} {n z k i : Nat} {cz ck : Con}
    (hz : s.stringMap.get? t = some z)
    (hcz : s.concepts[z]? = some cz) (hf : cz.redFrom = [k]) (hck : s.concepts[k]? = some ck)
    (hp : ck.composition = some (builtin .label, i)) (hlab : IsBuiltIn s (builtin .label) .label) (hn : 1 ≤ n) :
    (View.mk s Nested.default).conceptFromLabel n t = .ok (some (.com i)) := by
  obtain ⟨n, rfl⟩ : ∃ m, n = m + 1 := ⟨n - 1, by omega⟩
  have st : (View.mk s Nested.default).stringConcept t = .ok (some (.com z)) := by
    show Except.ok ((s.stringMap.get? t).map CId.com) = _
    rw [hz]; rfl
  unfold View.conceptFromLabel
  rw [st]
  show (View.mk s Nested.default).labellee (n + 1) (.com z) = _
  unfold View.labellee
  rw [rest_read hcz]
  show View.labelleeLoop _ (n + 1) (Mixed.ofCon cz).reducesFrom = _
  cases hL : (Mixed.ofCon cz).reducesFrom with
  | nil =>
    have := ofCon_reducesFrom.2 ⟨k, rfl, show k ∈ cz.redFrom by rw [hf]; simp⟩
    rw [hL] at this
    cases this
  | cons a l =>
    have ha : a ∈ (Mixed.ofCon cz).reducesFrom := by rw [hL]; simp
    obtain ⟨k', rfl, hk'⟩ := ofCon_reducesFrom.1 ha
    rw [hf] at hk'
    simp only [List.mem_cons, List.not_mem_nil, or_false] at hk'
    subst hk'
    rw [View.labelleeLoop, rest_read hck]
    have hc : (Mixed.ofCon ck).composition = some (.com (builtin .label), .com i) := by
      show ck.composition.map _ = _
      rw [hp]; rfl
    have hcct : (View.mk s Nested.default).cct (.com (builtin .label)) = .ok (some .label) := by
      obtain ⟨cl, h1, h2⟩ := hlab
      show (do return (← (View.mk s Nested.default).read (.com (builtin .label))).cct) = _
      rw [rest_read h1]
      exact congrArg Except.ok h2
    simp only [bind, Except.bind, hc, hcct, if_true]
    rfl

variable [HashOrder] {s : Snap}

/-- The word `t` stands for the concept `i`. -/
def StandsFor (n : Nat) (s : Snap) (t : Str) (i : Nat) : Prop :=
  (View.mk s Nested.default).conceptFromLabel n t = .ok (some (.com i))

/-- The concept `i` is one of the words. -/
def Means (n : Nat) (K : List Str) (s : Snap) (i : Nat) : Prop := ∃ t, t ∈ K ∧ StandsFor n s t i

theorem StandsFor.unique {n : Nat} {t : Str} {i j : Nat} (h : StandsFor n s t i) (h' : StandsFor n s t j) : i = j := by
  unfold StandsFor at h h'
  rw [h] at h'
  cases h'
  rfl

/-- A new word stands for nothing. -/
theorem StandsFor.known {n : Nat} {t : Str} {i : Nat} (h : StandsFor n s t i) (hs : StrInv s) : ¬NewWord s t := by
  intro hn
  have := none_of_new (n := n) (d := Delta.empty 0) hs hn rfl
  unfold StandsFor at h
  rw [show (View.mk s Nested.default).conceptFromLabel n t = .ok none from this] at h
  cases h

/-- What is needed for the search. -/
theorem Orderly.asked (h : Orderly s) (hr : NoBlanketRule s) {D : Nat → Prop}
    (hD : ∀ i j, D i → ReducesTo s i j → D j)
    (hw : ∀ i, D i → (∃ t, PlainWord s i t) ∧ Unconnected s i) : Asked s D := by
  have hs := h.names
  have hconc := h.conc
  have hbuiltin : ∀ t, Conc boot0.snap (builtin t) t → ¬ShownAsVariable s (builtin t) →
      ¬MayVary s (builtin t) ∧ ∀ l r, ¬ComposedOf s (builtin t) l r := by
    intro t ht hsh
    obtain ⟨k, hk, ek⟩ := (hconc.2 _ _).2 ht
    refine ⟨?_, ?_⟩
    · rintro (⟨k', hk', e⟩ | h')
      · rw [hk] at hk'; cases hk'
        simp [Concept.isAnonymous, ek] at e
      · exact hsh h'
    · rintro l r ⟨k', hk', e⟩
      rw [hk] at hk'; cases hk'
      simp [composition_eq, ek, pairOf] at e
  refine ⟨⟨fun k c hc => hs.refs.valid.ids k c hc, ?_, ?_, ?_, hr, hs, h.fwd, h.rev, ?_⟩, fun i hi => (hw i hi).1,
    hD, ?_⟩
  · rw [hconc.1]; rfl
  · rw [hconc.1]; rfl
  · rintro t (rfl | rfl)
    · exact hbuiltin _ ⟨_, rfl, rfl⟩ (hr.operators _ (by simp))
    · exact hbuiltin _ ⟨_, rfl, rfl⟩ (hr.operators _ (by simp))
  · intro i hi
    obtain ⟨⟨t, ht⟩, hu⟩ := hw i hi
    exact ⟨ht.simple, hu.constant, hu.left⟩
  · intro i k hi hk
    have := (hw i hi).2.right k _ hk
    exact absurd this (by decide)

theorem Orderly.built (h : Orderly s) (t : CCT) : IsBuiltIn s (builtin t) t := by
  obtain ⟨k, hk, e⟩ := (h.conc.2 (builtin t) t).2 (by cases t <;> exact ⟨_, rfl, rfl⟩)
  exact ⟨k, hk, by simp [Concept.cct, e]⟩

theorem Orderly.built_lt (h : Orderly s) (t : CCT) : builtin t < s.concepts.length := by
  obtain ⟨k, hk, _⟩ := h.built t
  exact lt_of_get hk

/-- There is one concept for each built-in operation. -/
theorem built_unique (h : Orderly s) {i : Nat} {t : CCT} (hb : IsBuiltIn s i t) : i = builtin t := by
  obtain ⟨c, hc, e⟩ := hb
  have hs : c.spec = .concrete t := by
    unfold Concept.cct at e
    split at e <;> simp_all
  obtain ⟨k, hk, hs'⟩ := (h.conc.2 i t).1 ⟨c, hc, hs⟩
  have : ∀ p ∈ boot0.snap.concepts.zipIdx, match p.1.spec with
      | .concrete t => p.2 = builtin t
      | _ => True := by
    have : boot0.snap.concepts.zipIdx.all (fun p => match p.1.spec with
      | .concrete t => decide (p.2 = builtin t)
      | _ => true) = true := by decide +kernel
    intro p hp
    have := List.all_eq_true.1 this p hp
    split at this <;> simp_all
  have := this (k, i) (List.mem_zipIdx_iff_getElem?.2 hk)
  dsimp only at this
  rw [hs'] at this
  exact this

theorem Orderly.listed (h : Orderly s) {d q : Nat} (hq : ListsReduced s d q) : ReducesTo s q d := by
  obtain ⟨c, hc, hm⟩ := hq
  obtain ⟨k, h1, h2⟩ := h.redRev d c q hc hm
  exact ⟨k, h1, by rw [reduction_eq]; exact h2⟩

theorem composedOf_self {k l r : Nat} (hc : ComposedOf s k l r) : k < s.concepts.length := by
  obtain ⟨c, hc, _⟩ := hc
  exact lt_of_get hc

theorem Added.wide {s' : Snap} {N : List Str} (T : Added s s' N) (O : Orderly s)
    (hN : ∀ u ∈ N, Syn.isVariableName u = false) (h : Wide s) : Wide s' := by
  have U := O.names
  refine h.keep (len := s.concepts.length) ?_ (fun k l r hc => T.composed.2 (.inl hc))
    (fun k l r hc => ⟨composedOf_self hc, composedOf_lt U.refs hc⟩) (fun i t ht => T.keepsPlain U hN ht) ?_ O.built_lt ?_
  · intro k l r hc
    rcases T.composed.1 hc with hc | ⟨m, t, hm, e, e', e''⟩
    · exact .inl hc
    · refine .inr ⟨by omega, e', fun l' r' hc' => ?_⟩
      rcases T.composed.1 hc' with hc' | ⟨m, t, hm, e, _⟩
      · have := composedOf_self hc'
        omega
      · omega
  · intro k hk hv
    rcases T.varies U hN hv with hv | ⟨m, _, _, e⟩
    · exact hv
    · omega
  · intro q d l r hd hq
    rcases T.reduces.1 hq with hq | ⟨m, _, _, _, e⟩
    · exact hq
    · have := composedOf_self hd
      omega

theorem Told.wide {s' : Snap} {N : List Str} {i j : Nat} (T : Told s s' N i j) (U : Untold s N i j) (O : Orderly s)
    (hj : ∀ l r, ¬ComposedOf s j l r) (h : Wide s) : Wide s' := by
  refine h.keep (len := s.concepts.length) ?_ (fun k l r hc => T.composed.2 (.inl hc))
    (fun k l r hc => ⟨composedOf_self hc, composedOf_lt O.names.refs hc⟩) (fun i t ht => T.keepsPlain U ht) ?_ O.built_lt ?_
  · intro k l r hc
    rcases T.composed.1 hc with hc | ⟨m, t, hm, e, e', e''⟩
    · exact .inl hc
    · refine .inr ⟨by omega, e', fun l' r' hc' => ?_⟩
      rcases T.composed.1 hc' with hc' | ⟨m, t, hm, e, _⟩
      · have := composedOf_self hc'
        omega
      · omega
  · intro k hk hv
    rcases T.varies U hv with hv | ⟨m, _, _, e⟩
    · exact hv
    · omega
  · intro q d l r hd hq
    rcases T.reduces.1 hq with ⟨_, rfl⟩ | ⟨_, hq⟩ | ⟨m, _, _, _, e⟩
    · exact absurd hd (hj l r)
    · exact hq
    · have := composedOf_self hd
      omega

theorem Lost.wide {s' : Snap} {i j : Nat} (T : Lost s s' i j) (O : Orderly s)
    (off : ∀ q t, ReflTransGen (ReducesTo s) i q → ¬IsString s q t) (h : Wide s) : Wide s' :=
  h.keep (len := s.concepts.length) (fun k l r hc => .inl ((T.rest.definitions _ _ _).1 hc))
    (fun k l r hc => (T.rest.definitions _ _ _).2 hc)
    (fun k l r hc => ⟨composedOf_self hc, composedOf_lt O.names.refs hc⟩) (fun i t ht => T.keepsPlain off ht)
    (fun k _ hv => T.varies off hv) O.built_lt (fun q d l r _ hq => (T.reduces.1 hq).2)

/-- The store during a session: `B` are the strings from before, `K` the words. -/
structure Speech (n : Nat) (B : Str → Prop) (K : List Str) (L : Facts) (s : Snap) : Prop where
  fuel : 1 ≤ n
  orderly : Orderly s
  rules : NoBlanketRule s
  letWord : StandsFor n s (str% "let") (builtin .letCmd)
  redWord : StandsFor n s (str% "->") (builtin .reduction)
  forgetWord : StandsFor n s (str% "forget") (builtin .forget)
  labelWord : StandsFor n s (str% "label_of") (builtin .label)
  constant : ∀ t, t ∈ [.letCmd, .forget, .associativity, .label] → ¬MayVary s (builtin t)
  left : ∀ k r, ¬ComposedOf s k (builtin .associativity) r
  right : ∀ k l, ComposedOf s k l (builtin .reduction) → l = builtin .label
  closed : ∀ x y, (x, y) ∈ L → x ∈ K ∧ y ∈ K
  strings : ∀ k t, IsString s k t → B t ∨ t ∈ K
  word : ∀ t, t ∈ K → ∃ i, StandsFor n s t i ∧ PlainWord s i t ∧ Unconnected s i ∧ IsSymbol t
  reduces : ∀ t i, t ∈ K → StandsFor n s t i → ∀ k, ReducesTo s i k ↔ ∃ u, (t, u) ∈ L ∧ StandsFor n s u k
  wide : Wide s
  apart : ∀ t i, t ∈ K → StandsFor n s t i → t ≠ str% "assoc" ∧ ∀ c, i ≠ builtin c

namespace Speech

variable {n : Nat} {B : Str → Prop} {K : List Str} {L : Facts}

theorem known {t : Str} {i : Nat} (h : Speech n B K L s) (hi : StandsFor n s t i) : ¬NewWord s t :=
  hi.known h.orderly.names.strings

theorem new {t : Str} (h : Speech n B K L s) (hb : ¬B t) (hm : t ∉ K) : NewWord s t := by
  intro k hk
  rcases h.strings k t hk with e | e
  exacts [hb e, hm e]

theorem plain {t : Str} {i : Nat} (h : Speech n B K L s) (ht : t ∈ K) (hi : StandsFor n s t i) :
    PlainWord s i t ∧ Unconnected s i := by
  obtain ⟨i', h1, h2, h3, _⟩ := h.word t ht
  cases h1.unique hi
  exact ⟨h2, h3⟩

theorem asked (h : Speech n B K L s) : Asked s (Means n K s) := by
  refine h.orderly.asked h.rules ?_ ?_
  · rintro i j ⟨t, ht, hi⟩ hj
    obtain ⟨u, hu, hl⟩ := (h.reduces t i ht hi j).1 hj
    exact ⟨u, (h.closed t u hu).2, hl⟩
  · rintro i ⟨t, ht, hi⟩
    exact ⟨⟨t, (h.plain ht hi).1⟩, (h.plain ht hi).2⟩

/-- The words may be listed in another way. -/
theorem same {K' : List Str} (h : Speech n B K L s) (hK : ∀ t, t ∈ K' ↔ t ∈ K) : Speech n B K' L s := by
  obtain ⟨f, q0, q1, q2, q3, q4, q4', q5, q5', q5'', q6, q7, q8, q9, q10, q11⟩ := h
  refine ⟨f, q0, q1, q2, q3, q4, q4', q5, q5', q5'', ?_, ?_, ?_, ?_, q10, ?_⟩ <;> simp only [hK] <;> assumption

/-- What is reached in the store is what is reached by the pairs. -/
theorem path (h : Speech n B K L s) {x : Str} {i j : Nat} (hx : x ∈ K) (hi : StandsFor n s x i)
    (hj : ReflTransGen (ReducesTo s) i j) :
    ∃ u, u ∈ K ∧ StandsFor n s u j ∧ ReflTransGen (fun a b => (a, b) ∈ L) x u := by
  induction hj with
  | refl => exact ⟨x, hx, hi, .refl⟩
  | tail _ hb ih =>
    obtain ⟨u, h1, h2, h3⟩ := ih
    obtain ⟨w, h4, h5⟩ := (h.reduces u _ h1 h2 _).1 hb
    exact ⟨w, (h.closed u w h4).2, h5, h3.tail h4⟩

/-- The name of a word. -/
theorem nameOf (h : Speech n B K L s) {u t : Str} {j : Nat} (hu : u ∈ K) (hj : StandsFor n s u j)
    (ht : PlainWord s j t) : t = u := by
  obtain ⟨m, hm⟩ := label_of_hasName h.orderly.names h.orderly.fwd ht.name
  obtain ⟨m', hm'⟩ := label_of_hasName h.orderly.names h.orderly.fwd (h.plain hu hj).1.name
  have e1 := hm _ (Nat.le_max_left m m')
  have e2 := hm' _ (Nat.le_max_right m m')
  rw [e1] at e2
  cases e2
  rfl

theorem ties (h : Speech n B K L s) : Ties s (Means n K s) := by
  refine ⟨h.orderly.maps, by rw [h.orderly.conc.1]; rfl, h.orderly.built, h.constant _ (by simp),
    h.constant _ (by simp), h.left, ?_, fun t => by rw [h.orderly.conc.1]; cases t <;> rfl, h.wide, ⟨?_, ?_, ?_, ?_⟩, ?_, ?_⟩
  · rintro w (⟨t, ht, hw⟩ | rfl) k l hl
    · exact (h.plain ht hw).2.right k l hl
    · exact h.right k l hl
  · rintro i x ⟨t, ht, hi⟩ hx
    cases h.nameOf ht hi hx
    obtain ⟨_, _, _, _, hs⟩ := h.word x ht
    exact ⟨hs, (h.apart x i ht hi).1⟩
  · rintro i x ⟨t, ht, hi⟩ hx rfl
    cases h.nameOf ht hi hx
    exact (h.apart _ i ht hi).2 .reduction (hi.unique h.redWord)
  · rintro i j x ⟨t, ht, hi⟩ ⟨u, hu, hj⟩ hx hy
    cases h.nameOf ht hi hx
    cases h.nameOf hu hj hy
    exact hi.unique hj
  · rintro i x y ⟨t, ht, hi⟩ hx hy
    rw [h.nameOf ht hi hx, h.nameOf ht hi hy]
  · rintro i c ⟨t, ht, hi⟩ hb
    exact (h.apart t i ht hi).2 c (built_unique h.orderly hb)
  · intro d q hq
    exact h.orderly.listed hq

/-- Different words stand for different concepts. -/
theorem distinct (h : Speech n B K L s) {x y : Str} {i : Nat} (hx : x ∈ K) (hy : y ∈ K) (hi : StandsFor n s x i)
    (hj : StandsFor n s y i) : x = y :=
  h.nameOf hy hj (h.plain hx hi).1

/-- One word leads to another by the pairs if it does in the store. -/
theorem leads (h : Speech n B K L s) {x y : Str} {i j : Nat} (hx : x ∈ K) (hy : y ∈ K) (hi : StandsFor n s x i)
    (hj : StandsFor n s y j) : TransGen (ReducesTo s) i j ↔ TransGen (fun a b => (a, b) ∈ L) x y := by
  constructor
  · intro hr
    obtain ⟨k, h1, h2⟩ := TransGen.head'_iff.1 hr
    obtain ⟨u, h3, h4⟩ := (h.reduces x i hx hi k).1 h1
    obtain ⟨w, hw, h5, h6⟩ := h.path (h.closed x u h3).2 h4 h2
    cases h.distinct hw hy h5 hj
    exact .head' h3 h6
  · intro hr
    induction hr using TransGen.head_induction_on generalizing i with
    | single hp => exact .single ((h.reduces _ i hx hi j).2 ⟨y, hp, hj⟩)
    | head hp _ ih =>
      obtain ⟨k, hk, _⟩ := h.word _ (h.closed _ _ hp).2
      exact .head ((h.reduces _ i hx hi k).2 ⟨_, hp, hk⟩) (ih (h.closed _ _ hp).2 hk)

theorem sound (h : Speech n B K L s) {x t : Str} {i : Nat} (hx : x ∈ K) (hi : StandsFor n s x i)
    (ht : Normal s i t) : EndsIn L x t := by
  obtain ⟨j, h1, h2, h3⟩ := ht
  obtain ⟨u, h4, h5, h6⟩ := h.path hx hi h1
  cases h.nameOf h4 h5 h3
  refine ⟨h6, fun z hz => ?_⟩
  obtain ⟨k, hk, _⟩ := h.word z (h.closed t z hz).2
  exact h2 k ((h.reduces t j h4 h5 k).2 ⟨z, hz, hk⟩)

/-- There is a pair for the word if and only if its concept reduces to something. -/
theorem idle (h : Speech n B K L s) {x : Str} {i : Nat} (hx : x ∈ K) (hi : StandsFor n s x i) :
    (∀ k, ¬ReducesTo s i k) ↔ ∀ z, (x, z) ∉ L := by
  constructor
  · intro hno z hz
    obtain ⟨k, hk, _⟩ := h.word z (h.closed x z hz).2
    exact hno k ((h.reduces x i hx hi k).2 ⟨z, hz, hk⟩)
  · intro hno k hk
    obtain ⟨u, hu, _⟩ := (h.reduces x i hx hi k).1 hk
    exact hno u hu

/-- The new word of the store in which it is introduced. -/
theorem newWord (h : Speech n B K L s) (t : Str) : StandsFor n (grown s t) t (s.concepts.length + 2) :=
  lookup_single (z := s.concepts.length) (by simp [grown, AMap.get?_insert]) (grown_string t) rfl (grown_name t) rfl
    ((h.orderly.grown t).built .label) h.fuel

/-- A word is introduced. -/
theorem grow (h : Speech n B K L s) {t : Str} (ht : NewTo s t) : Speech n B (t :: K) L (grown s t) := by
  have T := h.orderly.added t
  have U := h.orderly.names
  have hN : ∀ u ∈ [t], Syn.isVariableName u = false := by
    intro u hu
    simp only [List.mem_cons, List.not_mem_nil, or_false] at hu
    subst hu
    exact ht.constant
  have O := h.orderly.grown t
  have look : ∀ {u}, u ≠ t → ∀ {i}, StandsFor n (grown s t) u i ↔ StandsFor n s u i := by
    intro u hu i
    unfold StandsFor
    rw [T.sameLookup U (by simpa using hu) n]
  have other : ∀ {u i}, StandsFor n s u i → u ≠ t := by
    rintro u i hi rfl
    exact h.known hi ht.new
  have same : ∀ {u i}, StandsFor n s u i → StandsFor n (grown s t) u i := fun hi => (look (other hi)).2 hi
  have inK : ∀ {u}, u ∈ K → u ≠ t := by
    intro u hu
    obtain ⟨i, hi, _⟩ := h.word u hu
    exact other hi
  have first := T.newWord U hN (m := 0) rfl
  refine ⟨h.fuel, O, T.noBlanketRule U hN h.rules h.orderly.redFwd O.redRev, same h.letWord, same h.redWord,
    same h.forgetWord, same h.labelWord, fun u hu => T.constant_of U hN (h.constant u hu) fun m => ?_, ?_, ?_, ?_, ?_, ?_, ?_,
    T.wide h.orderly hN h.wide, ?_⟩
  · have := h.orderly.built_lt u
    omega
  · intro k r hk
    rcases T.composed.1 hk with hk | ⟨m, t, _, _, e, _⟩
    · exact h.left k r hk
    · cases e
  · intro k l hk
    rcases T.composed.1 hk with hk | ⟨m, t, _, _, e, _⟩
    · exact h.right k l hk
    · exact e
  · intro x y hxy
    have := h.closed x y hxy
    simp [this]
  · intro k u hk
    rcases T.strings.1 hk with hk | ⟨m, hm, _⟩
    · exact (h.strings k u hk).imp_right fun hm => by simp [hm]
    · have := List.mem_of_getElem? hm
      simp only [List.mem_cons, List.not_mem_nil, or_false] at this
      exact .inr (by simp [this])
  · intro u hu
    rcases List.mem_cons.1 hu with rfl | hu
    · exact ⟨_, h.newWord _, first.1, first.2, ht.symbol⟩
    · obtain ⟨k, h1, h2, h3, h4⟩ := h.word u hu
      exact ⟨k, same h1, (T.keepsWord U hN h2 h3).1, (T.keepsWord U hN h2 h3).2, h4⟩
  · intro u i hu hi k
    rcases List.mem_cons.1 hu with rfl | hu
    · cases hi.unique (h.newWord u)
      constructor
      · intro hr
        rcases T.reduces.1 hr with hr | ⟨m, _, _, e, _⟩
        · have := (reducesTo_lt U.refs hr).1
          omega
        · omega
      · rintro ⟨w, hw, _⟩
        exact absurd rfl (inK (h.closed _ _ hw).1)
    · have hi := (look (inK hu)).1 hi
      have hlt := Added.hasName_lt U (h.plain hu hi).1.name
      rw [T.reduces]
      constructor
      · rintro (hr | ⟨m, t', hm, e, _⟩)
        · obtain ⟨w, h1, h2⟩ := (h.reduces u i hu hi k).1 hr
          exact ⟨w, h1, same h2⟩
        · omega
      · rintro ⟨w, h1, h2⟩
        exact .inl ((h.reduces u i hu hi k).2 ⟨w, h1, (look (inK (h.closed _ _ h1).2)).1 h2⟩)
  · intro u i hu hi
    rcases List.mem_cons.1 hu with rfl | hu
    · cases hi.unique (h.newWord u)
      refine ⟨?_, fun c => ?_⟩
      · rintro rfl
        obtain ⟨_, z, _, _, hz⟩ := (h.wide.names (.associativity, str% "assoc") (by simp [spoken])).name
        exact ht.new z hz
      · have := h.orderly.built_lt c
        omega
    · exact h.apart u i hu ((look (inK hu)).1 hi)

end Speech

end Zia

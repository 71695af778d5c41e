import Verif.Lemmas.Concrete
import Verif.Lemmas.HashOrder
import Verif.Lemmas.Rest
import Verif.Spec.Labels

/-!
# Names
-/

namespace Zia

open Spec Relation

/-! ## The table of strings -/

/-- A stored string. -/
def StrAt (s : Snap) (i : Nat) (t : Str) : Prop := ∃ k, s.concepts[i]? = some k ∧ k.spec = .str t

theorem isString_iff {s : Snap} {i : Nat} {t : Str} : IsString s i t ↔ StrAt s i t := by
  constructor
  · rintro ⟨k, hk, hs⟩
    refine ⟨k, hk, ?_⟩
    unfold Concept.string at hs
    split at hs
    · next t' e => cases hs; exact e
    · cases hs
  · rintro ⟨k, hk, hs⟩
    exact ⟨k, hk, by simp only [Concept.string, hs]⟩

theorem StrAt.unreduced {s : Snap} {i j : Nat} {t : Str} (h : StrAt s i t) : ¬ ReducesTo s i j := by
  rintro ⟨k, hk, hr⟩
  obtain ⟨k', hk', hs⟩ := h
  rw [hk] at hk'; cases hk'
  simp only [Concept.reduction, hs] at hr
  cases hr

theorem Step.strAt {s s' : Snap} {p : CId × Direct CId} (st : Step s p s') {i : Nat} {t : Str}
    (h : StrAt s i t) : StrAt s' i t := by
  obtain ⟨k, hk, hs⟩ := h
  obtain ⟨k', h1, _, h2⟩ := st.keepSpec hk (by rw [hs]; intro _ _ h; cases h)
  exact ⟨k', h1, h2.trans hs⟩

/-- The table of strings lists strings. -/
def StrInv (s : Snap) : Prop := ∀ t i, (t, i) ∈ s.stringMap → StrAt s i t

theorem Step.strings {s s' : Snap} {p : CId × Direct CId} (h : StrInv s) (st : Step s p s') :
    StrInv s' := by
  intro t i hi
  by_cases hs : s'.stringMap = s.stringMap
  · rw [hs] at hi
    exact st.strAt (h t i hi)
  · cases st with
    | str u t' =>
      rcases mem_insert_or hi with e | hi
      · cases e
        exact ⟨_, List.getElem?_concat_length .., rfl⟩
      · exact Step.strAt (.str u t') (h t i hi)
    | left u comp r t => cases t <;> exact (hs rfl).elim
    | right u comp r t => cases t <;> exact (hs rfl).elim
    | double u comp t => cases t <;> exact (hs rfl).elim
    | _ => exact (hs rfl).elim

theorem Step.prev {s s' : Snap} {p : CId × Direct CId} (st : Step s p s') {u i : Nat}
    (h : s.prev.get? u = some i) (hu : p.1 ≠ .unc u) : s'.prev.get? u = some i := by
  have key : ∀ v j, v ≠ u → (s.prev.insert v j).get? u = some i := by
    intro v j hv
    rw [AMap.get?_insert, if_neg hv]
    exact h
  have reg : ∀ (g : Snap) (j : Nat) (t : Option CCT), (g.registerConcrete j t).prev = g.prev := by
    intro g j t; cases t <;> rfl
  cases st with
  | left v => rw [reg]; exact key v _ (fun e => hu (e ▸ rfl))
  | right v => rw [reg]; exact key v _ (fun e => hu (e ▸ rfl))
  | double v => rw [reg]; exact key v _ (fun e => hu (e ▸ rfl))
  | freeVariable v => exact key v _ (fun e => hu (e ▸ rfl))
  | boundVariable v => exact key v _ (fun e => hu (e ▸ rfl))
  | str v => exact key v _ (fun e => hu (e ▸ rfl))
  | composition v => exact key v _ (fun e => hu (e ▸ rfl))
  | reducesTo v => exact key v _ (fun e => hu (e ▸ rfl))
  | _ => exact h

theorem Step.prev_compose {s s' : Snap} {a c : CId} {ch : VChange (CompPair CId)}
    (st : Step s (a, .compose c ch) s') : s'.prev = s.prev := by
  cases st <;> rfl

theorem Step.prev_reduce {s s' : Snap} {a c : CId} {ch : VChange CId}
    (st : Step s (a, .reduce c ch) s') : s'.prev = s.prev := by
  cases st <;> rfl

theorem Step.str_inv {s s' : Snap} {u : Nat} {t : Str} (st : Step s (.unc u, .new (.str t)) s') :
    s' = { s.pushNew u s.concepts (Concept.mk' s.concepts.length (.str t)) with
        stringMap := s.stringMap.insert t s.concepts.length } := by
  cases st; rfl

/-- The strings of the pending changes are strings among the concepts they will become. -/
def StrPend (d : Delta) (g : Snap) : Prop :=
  StrInv g ∧ Strings d ∧ ∀ t u, (t, .create (.unc u)) ∈ d.string → ∃ i, g.prev.get? u = some i ∧ StrAt g i t

theorem StrPend.step {g g' : Snap} {d d' : Delta} {dd : Direct CId}
    (h : StrPend d g) (re : Replay d d' g g' dd) : StrPend d' g' := by
  obtain ⟨h1, h2, h3⟩ := h
  have st := applyOne_step re.applied
  refine ⟨st.strings h1, h2.step re.updated, ?_⟩
  have old : ∀ t u, (t, .create (.unc u)) ∈ d.string → ∃ i, g'.prev.get? u = some i ∧ StrAt g' i t := by
    intro t u hu
    obtain ⟨i, hi, hs'⟩ := h3 t u hu
    obtain ⟨v, e, hv⟩ := h2 _ hu
    cases e
    by_cases hp : dd.subject d.num = .unc u
    · refine ⟨i, ?_, st.strAt hs'⟩
      cases dd with
      | new nd => cases hp; omega
      | compose c ch => rw [st.prev_compose]; exact hi
      | reduce c ch => rw [st.prev_reduce]; exact hi
      | remove c => cases st
    · exact ⟨i, st.prev hi hp, st.strAt hs'⟩
  intro t u hu
  by_cases hn : ∃ t', dd = .new (.str t')
  · obtain ⟨t', rfl⟩ := hn
    rcases re.updated.string.1 t' rfl with ⟨_, e⟩ | ⟨b, hb, _⟩
    · rw [e] at hu
      rcases mem_insert_or hu with e | hu
      · cases e
        cases st.str_inv
        refine ⟨g.concepts.length, ?_, _, List.getElem?_concat_length .., rfl⟩
        show (g.prev.insert _ _).get? _ = _
        rw [AMap.get?_insert, if_pos rfl]
      · exact old t u hu
    · obtain ⟨u', e, _⟩ := h2 _ (AMap.mem_of_get? _ _ _ hb)
      cases e
  · rw [re.updated.string.2 (fun t e => hn ⟨t, e⟩)] at hu
    exact old t u hu

theorem applyStrings_strInv {g g' : Snap} {L : List (Str × VChange CId)}
    (hL : ∀ p ∈ L, ∃ u, p.2 = .create (.unc u))
    (hp : ∀ t u, (t, .create (.unc u)) ∈ L → ∃ i, g.prev.get? u = some i ∧ StrAt g i t)
    (hg : StrInv g) (h : g.applyStrings L = .ok g') : StrInv g' := by
  induction L generalizing g with
  | nil => cases h; exact hg
  | cons p L ih =>
    simp only [Snap.applyStrings, Except.bind_eq_ok] at h
    obtain ⟨g1, h1, h2⟩ := h
    obtain ⟨u, e⟩ := hL p List.mem_cons_self
    obtain ⟨t, c⟩ := p
    cases e
    obtain ⟨i, hi, hs⟩ := hp t u List.mem_cons_self
    simp only [Snap.applyString, Except.bind_eq_ok, Except.pure_eq_ok] at h1
    obtain ⟨j, hj, rfl⟩ := h1
    have := convert_unc hj
    rw [hi] at this; cases this
    refine ih (g := { g with stringMap := g.stringMap.insert t i })
      (fun p hp => hL p (List.mem_cons_of_mem _ hp))
      (fun t u hu => hp t u (List.mem_cons_of_mem _ hu)) ?_ h2
    intro t' i' hi'
    rcases mem_insert_or hi' with e | hi'
    · cases e; exact hs
    · exact hg t' i' hi'

/-- The table of strings of the start. -/
def strCheck (s : Snap) : Bool := s.stringMap.all (fun p => match s.concepts[p.2]? with
  | some k => match k.spec with
    | .str t => t = p.1
    | _ => false
  | none => false)

theorem strInv_of_check {s : Snap} (h : strCheck s = true) : StrInv s := by
  intro t i hi
  have := List.all_eq_true.1 h _ hi
  dsimp only at this
  split at this
  · next k hk =>
    split at this
    · next t' e => exact ⟨k, hk, by rw [e, of_decide_eq_true this]⟩
    · cases this
  · cases this

/-- In every history the table of strings lists strings. -/
theorem History.strings {Q : Snap → CId × Direct CId → Prop} {c : Ctx} (h : History Q c) :
    StrInv c.snap := by
  refine History.induct (R := StrInv) (fun _ d g => StrPend d g) (strInv_of_check (by decide +kernel))
    ?_ ?_ ?_ ?_ h
  · intro s _ _ h
    exact ⟨h, Strings.start, fun t u hu => by cases hu⟩
  · intro s d g d' g' dd _ _ _ sim hP he hq re _
    exact hP.step re
  · intro _ s d g d1 g1 d2 g2 d3 g3 t l _ _ _ sim hP _ _ _ _ r1 s1 r2 s2 r3 _
    exact ((hP.step r1).step r2).step r3
  · intro s d g g' _ _ _ _ _ hP hst
    exact (applyStrings_strInv (fun p hp => (hP.2.1 p hp).imp fun _ h => h.1) hP.2.2 hP.1 hst :
      StrInv g')

/-! ## Looking up a symbol between commands -/

/-- What the store needs so that names can be looked up. -/
structure Nameable (s : Snap) : Prop where
  refs : RefsInv s
  strings : StrInv s
  concrete : ∀ i, Conc s i .label ↔ i = builtin .label
  table : byRight s.concrete .label = some (builtin .label)

section
variable [HashOrder]

theorem rest_read_inv {s : Snap} {a : CId} {m : Mixed}
    (h : (View.mk s Nested.default).read a = .ok m) : ∃ k c, a = .com k ∧ s.concepts[k]? = some c ∧
      m = .ofCon c := by
  have h1 : (View.mk s Nested.default).maybeRead a = .ok none := rfl
  unfold View.read at h
  rw [h1] at h
  cases a with
  | unc u => cases h
  | com k =>
    cases hk : s.concepts[k]? with
    | none =>
      have : (View.mk s Nested.default).getConcept (.com k) = none := by simp [View.getConcept, hk]
      simp only [Except.bind_eq_ok] at h
      obtain ⟨x, e, h⟩ := h
      cases e
      simp only [this] at h
      cases h
    | some c =>
      rw [← h1] at h
      have := rest_read hk
      unfold View.read at this
      rw [this] at h
      cases h
      exact ⟨k, c, rfl, hk, rfl⟩

theorem rest_label {s : Snap} (h : Nameable s) :
    (View.mk s Nested.default).concreteId .label = .ok (some (.com (builtin .label))) := by
  unfold View.concreteId
  rw [show Nested.default.iterConcepts = [] from rfl, HashOrder.order_nil]
  show Except.ok ((byRight s.concrete .label).map CId.com) = _
  rw [h.table]
  rfl

theorem ofCon_reducesFrom {c : Con} {a : CId} :
    a ∈ (Mixed.ofCon c).reducesFrom ↔ ∃ i, a = .com i ∧ i ∈ c.redFrom := by
  simp only [Mixed.ofCon, Mixed.reducesFrom, List.mem_append, List.mem_filter, List.mem_map,
    HashOrder.mem_order, List.not_mem_nil, AMap.get?_nil, HashOrder.order_nil, List.filter_nil,
    List.map_nil, or_false]
  constructor
  · rintro ⟨⟨i, hi, rfl⟩, _⟩; exact ⟨i, rfl, hi⟩
  · rintro ⟨i, rfl, hi⟩; exact ⟨⟨i, hi, rfl⟩, by simp⟩

theorem labelleeLoop_sound {s : Snap} (hs : Nameable s) (hr : RedRev (look s.concepts)) {i : Nat} {n : Nat}
    {L : List CId} (hL : ∀ a ∈ L, ∃ k, a = .com k ∧ TransGen (ReducesTo s) k i) {x : CId}
    (h : (View.mk s Nested.default).labelleeLoop n L = .ok (some x)) :
    ∃ y k, x = .com y ∧ ComposedOf s k (builtin .label) y ∧ TransGen (ReducesTo s) k i := by
  induction n generalizing L with
  | zero => cases h
  | succ n ih =>
    cases L with
    | nil => cases h
    | cons a L =>
      obtain ⟨k, rfl, hk⟩ := hL a List.mem_cons_self
      simp only [View.labelleeLoop, Except.bind_eq_ok] at h
      obtain ⟨m, hm, h⟩ := h
      obtain ⟨_, c, e, hc, rfl⟩ := rest_read_inv hm
      cases e
      have next : ∀ a ∈ L ++ (Mixed.ofCon c).reducesFrom,
          ∃ k, a = .com k ∧ TransGen (ReducesTo s) k i := by
        intro a ha
        rcases List.mem_append.1 ha with ha | ha
        · exact hL a (List.mem_cons_of_mem _ ha)
        · obtain ⟨j, rfl, hj⟩ := ofCon_reducesFrom.1 ha
          exact ⟨j, rfl, .head (reducesTo_iff.2 (hr k c j hc hj)) hk⟩
      split at h
      · next r x' hcomp =>
        simp only [Except.bind_eq_ok] at h
        obtain ⟨t, ht, h⟩ := h
        split at h
        · next e =>
          cases h
          subst e
          simp only [View.cct, Except.bind_eq_ok] at ht
          obtain ⟨mr, hmr, ht⟩ := ht
          obtain ⟨r', cr, rfl, hcr, rfl⟩ := rest_read_inv hmr
          have hp : c.composition.map (fun p => (CId.com p.1, CId.com p.2)) = some (.com r', x) := hcomp
          cases hcp : c.composition with
          | none => rw [hcp] at hp; cases hp
          | some p =>
            rw [hcp] at hp
            cases hp
            have hct : cr.cct = some .label := by
              have : (pure (Mixed.ofCon cr).cct : Except Fault _) = .ok (some .label) := ht
              exact Except.pure_eq_ok.1 this
            have : p.1 = builtin .label := by
              refine (hs.concrete p.1).1 ⟨cr, hcr, ?_⟩
              unfold Concept.cct at hct
              split at hct
              · next t' e => cases hct; exact e
              · cases hct
            refine ⟨p.2, k, rfl, ⟨c, hc, ?_⟩, hk⟩
            rw [hcp, ← this]
        · exact ih next h
      · exact ih next h

/-- Looking up a symbol finds a concept with that name. -/
theorem lookup_sound {s : Snap} (hs : Nameable s) (hr : RedRev (look s.concepts)) {n : Nat} {t : Str}
    {x : CId} (h : (View.mk s Nested.default).conceptFromLabel n t = .ok (some x)) :
    ∃ y, x = .com y ∧ HasName s y t := by
  simp only [View.conceptFromLabel, Except.bind_eq_ok] at h
  obtain ⟨o, ho, h⟩ := h
  have ho' : o = (s.stringMap.get? t).map CId.com := by
    have : (View.mk s Nested.default).stringConcept t = .ok ((s.stringMap.get? t).map CId.com) := rfl
    rw [this] at ho
    cases ho; rfl
  cases hi : s.stringMap.get? t with
  | none => rw [ho', hi] at h; cases h
  | some i =>
    rw [ho', hi] at h
    simp only [Option.map_some, View.labellee, Except.bind_eq_ok] at h
    obtain ⟨m, hm, h⟩ := h
    obtain ⟨_, c, e, hc, rfl⟩ := rest_read_inv hm
    cases e
    obtain ⟨y, k, rfl, h1, h2⟩ := labelleeLoop_sound hs hr (i := i) (fun a ha => by
      obtain ⟨j, rfl, hj⟩ := ofCon_reducesFrom.1 ha
      exact ⟨j, rfl, .single (reducesTo_iff.2 (hr i c j hc hj))⟩) h
    exact ⟨y, rfl, k, i, h1, h2, isString_iff.2 (hs.strings t i (AMap.mem_of_get? _ _ _ hi))⟩

theorem normalForm_to {s : Snap} {k i : Nat} {t : Str} (h : TransGen (ReducesTo s) k i)
    (hi : StrAt s i t) : ∃ n, ∀ m, n ≤ m →
      (View.mk s Nested.default).normalForm m (.com k) = .ok (some (.com i)) := by
  have step : ∀ {k j : Nat}, ReducesTo s k j → ∀ m, (View.mk s Nested.default).normalForm (m + 1) (.com k) =
      (do return some ((← (View.mk s Nested.default).normalForm m (.com j)).getD (.com j))) := by
    rintro k j ⟨c, hc, hr⟩ m
    rw [View.normalForm, rest_read hc]
    show (match (Mixed.ofCon c).reduction with
      | none => _
      | some r => _) = _
    have : (Mixed.ofCon c).reduction = some (.com j) := by
      show c.reduction.map _ = _
      rw [hr]; rfl
    rw [this]
  have last : ∀ m, (View.mk s Nested.default).normalForm (m + 1) (.com i) = .ok none := by
    intro m
    obtain ⟨c, hc, hs⟩ := hi
    rw [View.normalForm, rest_read hc]
    show (match (Mixed.ofCon c).reduction with
      | none => _
      | some r => _) = _
    have : (Mixed.ofCon c).reduction = none := by
      show c.reduction.map _ = _
      simp only [Concept.reduction, hs]; rfl
    rw [this]
    rfl
  induction h using TransGen.head_induction_on with
  | single h =>
    refine ⟨2, fun m hm => ?_⟩
    obtain ⟨m, rfl⟩ : ∃ m', m = m' + 2 := ⟨m - 2, by omega⟩
    rw [step h, last]
    rfl
  | head h _ ih =>
    obtain ⟨n, ih⟩ := ih
    refine ⟨n + 1, fun m hm => ?_⟩
    obtain ⟨m, rfl⟩ : ∃ m', m = m' + 1 := ⟨m - 1, by omega⟩
    rw [step h, ih m (by omega)]
    rfl

theorem ofCon_findAsHand (c : Con) (i : Nat) (h : Hand) :
    (Mixed.ofCon c).findAsHand (.com i) h = (c.findAsHand i h).map .com := by
  cases h <;> rfl

theorem rest_conceptOfLabel {s : Snap} (hs : Nameable s) {y : Nat} {c : Con}
    (hc : s.concepts[y]? = some c) : (View.mk s Nested.default).conceptOfLabel (.com y) =
      .ok ((c.findAsHand (builtin .label) .right).map .com) := by
  unfold View.conceptOfLabel
  rw [rest_label hs]
  show (do return (← (View.mk s Nested.default).read (.com y)).findAsHand (.com (builtin .label)) .right) = _
  rw [rest_read hc]
  show Except.ok ((Mixed.ofCon c).findAsHand _ _) = _
  rw [ofCon_findAsHand]

/-- Displaying a concept that has a name prints that name. -/
theorem label_of_hasName {s : Snap} (hs : Nameable s) (hf : CompFwd (look s.concepts)) {y : Nat} {t : Str}
    (h : HasName s y t) :
    ∃ n, ∀ m, n ≤ m → (View.mk s Nested.default).label m (.com y) = .ok (some t) := by
  obtain ⟨k, i, ⟨ck, hk, hp⟩, hr, hi⟩ := h
  rw [composition_eq] at hp
  obtain ⟨_, cy, hy, hg⟩ := hf k ck _ _ hk hp
  have hi := isString_iff.1 hi
  obtain ⟨n, hn⟩ := normalForm_to hr hi
  obtain ⟨ci, hci, hsp⟩ := hi
  refine ⟨n + 1, fun m hm => ?_⟩
  obtain ⟨m, rfl⟩ : ∃ m', m = m' + 1 := ⟨m - 1, by omega⟩
  unfold View.label
  rw [rest_conceptOfLabel hs hy]
  have : cy.findAsHand (builtin .label) .right = some k := hg
  rw [this]
  show (do match ← (View.mk s Nested.default).normalForm m (.com k) with
    | none => pure none
    | some x => do return (← (View.mk s Nested.default).read x).string) = _
  rw [hn m (by omega)]
  show (do return (← (View.mk s Nested.default).read (.com i)).string) = _
  rw [rest_read hci]
  show Except.ok ci.string = _
  simp only [Concept.string, hsp]

theorem normalForm_inv {s : Snap} {n k : Nat} {x : CId}
    (h : (View.mk s Nested.default).normalForm n (.com k) = .ok (some x)) :
    ∃ i, x = .com i ∧ TransGen (ReducesTo s) k i := by
  induction n generalizing k x with
  | zero => cases h
  | succ n ih =>
    simp only [View.normalForm, Except.bind_eq_ok] at h
    obtain ⟨m, hm, h⟩ := h
    obtain ⟨_, c, e, hc, rfl⟩ := rest_read_inv hm
    cases e
    have e : (Mixed.ofCon c).reduction = c.reduction.map .com := rfl
    rw [e] at h
    cases hr : c.reduction with
    | none => rw [hr] at h; cases h
    | some j =>
      rw [hr] at h
      have red : ReducesTo s k j := ⟨c, hc, hr⟩
      simp only [Option.map_some, Except.bind_eq_ok, Except.pure_eq_ok] at h
      obtain ⟨o, ho, h⟩ := h
      cases h
      cases o with
      | none => exact ⟨j, rfl, .single red⟩
      | some z =>
        obtain ⟨i, e, ht⟩ := ih ho
        exact ⟨i, e, .head red ht⟩

/-- The symbol that a concept is displayed as is the name of the concept or of what it reduces to. -/
theorem label_sound {s : Snap} (hs : Nameable s) (hb : CompRev (look s.concepts)) {n y : Nat} {t : Str}
    (h : (View.mk s Nested.default).label n (.com y) = .ok (some t)) :
    ∃ z, ReflTransGen (ReducesTo s) y z ∧ HasName s z t := by
  induction n generalizing y with
  | zero => cases h
  | succ n ih =>
    simp only [View.label, Except.bind_eq_ok] at h
    obtain ⟨o, ho, h⟩ := h
    have hc : ∃ c, s.concepts[y]? = some c := by
      unfold View.conceptOfLabel at ho
      rw [rest_label hs] at ho
      simp only [Except.bind_eq_ok] at ho
      obtain ⟨_, e, ho⟩ := ho
      cases e
      simp only [Except.bind_eq_ok] at ho
      obtain ⟨m, hm, _⟩ := ho
      obtain ⟨_, c, e, hc, _⟩ := rest_read_inv hm
      cases e
      exact ⟨c, hc⟩
    obtain ⟨c, hc⟩ := hc
    rw [rest_conceptOfLabel hs hc] at ho
    cases ho
    cases hf : c.findAsHand (builtin .label) .right with
    | none =>
      rw [hf] at h
      simp only [Option.map_none, Except.bind_eq_ok] at h
      obtain ⟨m, hm, h⟩ := h
      rw [rest_read hc] at hm
      cases hm
      have e : (Mixed.ofCon c).reduction = c.reduction.map .com := rfl
      rw [e] at h
      cases hr : c.reduction with
      | none => rw [hr] at h; cases h
      | some j =>
        rw [hr] at h
        obtain ⟨z, h1, h2⟩ := ih h
        exact ⟨z, .head ⟨c, hc, hr⟩ h1, h2⟩
    | some k =>
      rw [hf] at h
      simp only [Option.map_some, Except.bind_eq_ok] at h
      obtain ⟨x, hx, h⟩ := h
      cases x with
      | none => cases h
      | some x =>
        obtain ⟨i, rfl, ht⟩ := normalForm_inv hx
        simp only [Except.bind_eq_ok, Except.pure_eq_ok] at h
        obtain ⟨m, hm, h⟩ := h
        obtain ⟨_, ci, e, hci, rfl⟩ := rest_read_inv hm
        cases e
        obtain ⟨ck, hck, hp⟩ := (hb y c _ k hc).2 hf
        refine ⟨y, .refl, k, i, ⟨ck, hck, ?_⟩, ht, ci, hci, h⟩
        rw [composition_eq]
        exact hp

end

theorem History.nameable {Q : Snap → CId × Direct CId → Prop} {c : Ctx} (h : History Q c) :
    Nameable c.snap := by
  obtain ⟨h1, h2⟩ := History.concrete h
  refine ⟨(History.settled h).refs, History.strings h, fun i => ?_, by rw [h1]; rfl⟩
  rw [h2]
  constructor
  · rintro ⟨k, hk, hs⟩
    have h : everywhere boot0.snap (fun i c => match c.spec with
        | .concrete .label => i == builtin .label
        | _ => true) = true := by decide +kernel
    have := of_everywhere h hk
    rw [hs] at this
    simpa using this
  · rintro rfl
    exact ⟨_, rfl, rfl⟩

end Zia

import Verif.Lemmas.Query
import Verif.Props.Learn

/-!
# Asking what a word reduces to
-/

namespace Zia.Props

open Spec

/-! ## C56: a word is answered with what it reduces to -/

/-- What is needed for the search, of a context that was reached. -/
theorem asked_of_history [HashOrder] {c : Ctx} (h : History (fun s p => ReducesFresh s p ∧ KeepsDefinitions s p) c)
    (hr : NoBlanketRule c.snap) {D : Nat → Prop} (hD : ∀ i j, D i → ReducesTo c.snap i j → D j)
    (hw : ∀ i, D i → (∃ t, PlainWord c.snap i t) ∧ Unconnected c.snap i) : Asked c.snap D := by
  have hs := History.nameable h
  have hcomp := History.comps (History.mono (fun _ _ h => h.2) h)
  have hconc := History.concrete h
  have hbuiltin : ∀ t, Conc boot0.snap (builtin t) t → ¬ShownAsVariable c.snap (builtin t) →
      ¬MayVary c.snap (builtin t) ∧ ∀ l r, ¬ComposedOf c.snap (builtin t) l r := by
    intro t ht hsh
    obtain ⟨k, hk, ek⟩ := (hconc.2 _ _).2 ht
    refine ⟨?_, ?_⟩
    · rintro (⟨k', hk', e⟩ | h')
      · rw [hk] at hk'; cases hk'
        simp [Concept.isAnonymous, ek] at e
      · exact hsh h'
    · rintro l r ⟨k', hk', e⟩
      rw [hk] at hk'; cases hk'
      simp [composition_eq, ek, pairOf] at e
  refine ⟨⟨fun k c hc => hs.refs.valid.ids k c hc, ?_, ?_, ?_, hr, hs, hcomp.1, hcomp.2, ?_⟩, fun i hi => (hw i hi).1,
    hD, ?_⟩
  · rw [hconc.1]; rfl
  · rw [hconc.1]; rfl
  · rintro t (rfl | rfl)
    · exact hbuiltin _ ⟨_, rfl, rfl⟩ (hr.operators _ (by simp))
    · exact hbuiltin _ ⟨_, rfl, rfl⟩ (hr.operators _ (by simp))
  · intro i hi
    obtain ⟨⟨t, ht⟩, hu⟩ := hw i hi
    exact ⟨ht.simple, hu.constant, hu.left⟩
  · intro i k hi hk
    have := (hw i hi).2.right k _ hk
    exact absurd this (by decide)

/-- C56: words that are asked about one after the other are each answered with a name of what the word
reduces to in the end, and nothing is changed. Missing: words in compositions or reducing to such, a store
with a rule that may conclude the reduction of just anything, a cache in which something is remembered, and
a history in which a reduction was replaced or a definition changed. -/
theorem words_answered_partial [HashOrder] {c c' : Ctx}
    (h : History (fun s p => ReducesFresh s p ∧ KeepsDefinitions s p) c) (hca : c.cache = .empty)
    (hr : NoBlanketRule c.snap) {n : Nat} {xs outs : List Str}
    (hx : ∀ x ∈ xs, IsSymbol x ∧ Syn.isVariableName x = false ∧ ∃ i,
      (View.mk c.snap c.delta).conceptFromLabel n x = .ok (some (.com i)) ∧
      ∀ j, Relation.ReflTransGen (ReducesTo c.snap) i j → (∃ t, PlainWord c.snap j t) ∧ Unconnected c.snap j)
    (he : Context.run n c xs = .ok (outs, c')) :
    c'.snap = c.snap ∧ List.Forall₂ (fun x t => ∃ i,
      (View.mk c.snap c.delta).conceptFromLabel n x = .ok (some (.com i)) ∧ Answer c.snap i t) xs outs := by
  have hse := History.settled h
  have A := asked_of_history h hr (D := fun i => ∀ j, Relation.ReflTransGen (ReducesTo c.snap) i j →
    (∃ t, PlainWord c.snap j t) ∧ Unconnected c.snap j) (fun i j hi hj k hk => hi k (.head hj hk)) (fun i hi => hi i .refl)
  have hc : Asking (.rest c.snap) (fun i => ∀ j, Relation.ReflTransGen (ReducesTo c.snap) i j →
    (∃ t, PlainWord c.snap j t) ∧ Unconnected c.snap j) c := by
    refine ⟨rfl, hse.delta, hse.bound, ?_, ?_⟩
    · rw [hca]; exact .empty
    · rw [hca]; exact .empty
  rw [hse.delta] at hx ⊢
  obtain ⟨e, hall⟩ := ask_words A hse.prev hc (fun x m => by
    obtain ⟨h1, h2, i, h3, h4⟩ := hx x m
    exact ⟨h1, h2, i, h4, h3⟩) he
  refine ⟨e, hall.imp ?_⟩
  rintro x t ⟨i, hi, j, h1, h2, h3⟩
  exact ⟨i, hi, j, h1, h2, h3.name⟩

/-! ## Checking the hypotheses -/

/-- The concepts that may have a name of the form of a variable. -/
def variableNamed (s : Snap) : List Nat :=
  s.concepts.filterMap fun c => c.composition.bind fun (l, x) =>
    if l = builtin .label ∧
        !((c.reduction.bind (s.concepts[·]?)).bind Concept.string).any (fun t => !Syn.isVariableName t)
    then some x else none

/-- No concept reduces to one of these. -/
def noneTo (bl : List Nat) (s : Snap) : Bool :=
  s.concepts.all fun c => c.reduction.all fun j => !bl.contains j

theorem shown_mem {s : Snap} {bl : List Nat} (hb : variableNamed s = bl) (hr : noneTo bl s = true) {i : Nat}
    (h : ShownAsVariable s i) : i ∈ bl := by
  obtain ⟨j, t, hij, ⟨k, m, ⟨c, hc, e⟩, hkm, ⟨cm, hcm, hm⟩⟩, hv⟩ := h
  have hj : j ∈ bl := by
    rw [← hb]
    refine List.mem_filterMap.2 ⟨c, List.mem_of_getElem? hc, ?_⟩
    simp only [e, Option.bind_some]
    refine if_pos ⟨trivial, ?_⟩
    rw [Bool.not_eq_true']
    refine Bool.eq_false_iff.2 fun hh => ?_
    cases hu : (c.reduction.bind (s.concepts[·]?)).bind Concept.string with
    | none => rw [hu] at hh; cases hh
    | some u =>
    rw [hu, Option.any_some] at hh
    obtain ⟨k', hk', hs⟩ := Option.bind_eq_some_iff.1 hu
    obtain ⟨q, hq, hk'⟩ := Option.bind_eq_some_iff.1 hk'
    obtain ⟨q', ⟨c1, hc1, hq'⟩, hrest⟩ := Relation.TransGen.head'_iff.1 hkm
    rw [hc] at hc1
    cases hc1
    rw [hq] at hq'
    cases hq'
    rcases Relation.ReflTransGen.cases_head hrest with rfl | ⟨q2, ⟨c2, hc2, hq2⟩, _⟩
    · rw [hcm] at hk'
      cases hk'
      rw [hm] at hs
      injection hs with hs
      rw [← hs, hv] at hh
      cases hh
    · rw [hk'] at hc2
      cases hc2
      unfold Concept.string at hs
      unfold Concept.reduction at hq2
      split at hs <;> simp_all
  rcases Relation.ReflTransGen.cases_tail hij with rfl | ⟨q, _, cq, hq, e'⟩
  · exact hj
  · have := List.all_eq_true.1 hr cq (List.mem_of_getElem? hq)
    simp [e', hj] at this

/-- A test for rules. -/
def noBlanketRule (bl : List Nat) (s : Snap) : Bool :=
  let var := fun i => (s.concepts[i]?).any Concept.isAnonymous || bl.contains i
  let comp := fun i => (s.concepts[i]?).bind Concept.composition
  noneTo bl s && (bl.all fun i => (comp i).isNone) &&
  ([CCT.implication, .reduction, .label].all fun t => !bl.contains (builtin t)) &&
  s.concepts.all fun c => c.composition.all fun (l, r) =>
    (l != builtin .implication || !var r || (comp r).isSome) &&
    ((l != builtin .implication && !var l) ||
      (r :: ((s.concepts[r]?).map Concept.redFrom).getD []).all fun q => (comp q).all fun (p, d) => !var p ||
        ((!var d || (comp d).isSome) && (comp d).all fun (l', _) => l' != builtin .reduction && !var l'))

theorem noBlanketRule_sound {s : Snap} {bl : List Nat} (hb : variableNamed s = bl)
    (h : noBlanketRule bl s = true) : NoBlanketRule s := by
  simp only [noBlanketRule, Bool.and_eq_true] at h
  obtain ⟨⟨⟨h1, h2⟩, h3⟩, h⟩ := h
  have sh := @shown_mem s bl hb h1
  have var : ∀ {i}, MayVary s i → ((s.concepts[i]?).any Concept.isAnonymous || bl.contains i) = true := by
    rintro i (⟨c, hc, e⟩ | h)
    · simp [hc, e]
    · simp [sh h]
  have comp : ∀ {i l r}, ComposedOf s i l r → (s.concepts[i]?).bind Concept.composition = some (l, r) := by
    rintro i l r ⟨c, hc, e⟩
    simp [hc, e]
  have comp' : ∀ {i}, ((s.concepts[i]?).bind Concept.composition).isSome = true → ∃ l r, ComposedOf s i l r := by
    intro i h
    obtain ⟨⟨l, r⟩, h⟩ := Option.isSome_iff_exists.1 h
    obtain ⟨c, hc, e⟩ := Option.bind_eq_some_iff.1 h
    exact ⟨l, r, c, hc, e⟩
  rw [List.all_eq_true] at h
  refine ⟨?_, ?_, ?_, ?_⟩
  · intro i l r hc hv
    have := List.all_eq_true.1 h2 i (sh hv)
    rw [comp hc] at this
    cases this
  · intro t ht hv
    have := List.all_eq_true.1 h3 t ht
    simp [sh hv] at this
  · rintro e r ⟨c, hc, he⟩ hv
    have := h c (List.mem_of_getElem? hc)
    simp only [he, Option.all_some, Bool.and_eq_true, Bool.or_eq_true (_ || _), Bool.or_eq_true (_ != _)] at this
    rcases this.1 with (h1 | h1) | h1
    · simp at h1
    · rw [var hv] at h1; cases h1
    · exact comp' h1
  · rintro e l r q p d ⟨c, hc, he⟩ hl hq hpd hp
    have := h c (List.mem_of_getElem? hc)
    simp only [he, Option.all_some, Bool.and_eq_true] at this
    have h2 := (Bool.or_eq_true _ _ ▸ this.2 : _ ∨ _).resolve_left (by
      intro h0
      obtain ⟨h1, h2⟩ := (Bool.and_eq_true _ _ ▸ h0 : _ ∧ _)
      rcases hl with rfl | hl
      · simp at h1
      · rw [var hl] at h2; cases h2)
    have hm : q ∈ r :: ((s.concepts[r]?).map Concept.redFrom).getD [] := by
      rcases hq with rfl | ⟨cr, hcr, hq⟩
      · simp
      · simp [hcr, hq]
    have h3 := List.all_eq_true.1 h2 q hm
    simp only [comp hpd, Option.all_some, var hp, Bool.not_true, Bool.false_or, Bool.and_eq_true] at h3
    refine ⟨fun hd => ?_, fun l' r' hd => ?_⟩
    · have h4 := h3.1
      rw [var hd] at h4
      exact comp' h4
    · have h4 := h3.2
      simp only [comp hd, Option.all_some, Bool.and_eq_true] at h4
      refine ⟨by simpa using h4.1, fun hv => ?_⟩
      have := h4.2
      rw [var hv] at this
      cases this

theorem unconnected_of_check {s : Snap} {i : Nat} {bl : List Nat} (hb : variableNamed s = bl)
    (hr : noneTo bl s = true) (hi : i ∉ bl) (h : (s.concepts.all fun c => c.composition.all fun (l, r) =>
      l != i && (r != i || l == builtin .label)) && !(s.concepts[i]?).any Concept.isAnonymous) : Unconnected s i := by
  simp only [Bool.and_eq_true, List.all_eq_true] at h
  refine ⟨?_, ?_, ?_⟩
  · rintro k r ⟨c, hc, e⟩
    have := h.1 c (List.mem_of_getElem? hc)
    simp [e] at this
  · rintro k l ⟨c, hc, e⟩
    have := h.1 c (List.mem_of_getElem? hc)
    simp [e] at this
    exact this.2
  · rintro (⟨c, hc, e⟩ | hv)
    · simp [hc, e] at h
    · exact hi (shown_mem hb hr hv)

section

open Insertion

set_option maxRecDepth 100000

/-- The words `a` and `b`, of which `a` was taught to reduce to `b`. -/
example {outs : List Str} {c' : Ctx}
    (he : Context.run 60 Witness.taught1 [str% "a", str% "b", str% "a"] = .ok (outs, c')) :
    outs = [str% "b", str% "b", str% "b"] := by
  have ha : (View.mk Witness.taught1.snap Witness.taught1.delta).conceptFromLabel 60 (str% "a") =
    .ok (some (.com 82)) := by decide +kernel
  have hb : (View.mk Witness.taught1.snap Witness.taught1.delta).conceptFromLabel 60 (str% "b") =
    .ok (some (.com 85)) := by decide +kernel
  have hc : History Calm Witness.taught1 :=
    History.check (fun _ _ => of_calm) boot_calm Witness.taught1_eq (by decide +kernel)
  obtain ⟨_, e, na, _⟩ := lookup_named_partial hc ha
  cases e
  obtain ⟨_, e, nb, hlb⟩ := lookup_named_partial hc hb
  cases e
  have pa := plain_of_check na (by decide +kernel) (by decide)
  have pb := plain_of_check nb (by decide +kernel) (by decide)
  have ra : ∀ j, ReducesTo Witness.taught1.snap 82 j → j = 85 := by
    rintro j ⟨c, h1, h2⟩
    have : (Witness.taught1.snap.concepts[82]?).map (·.reduction) = some (some 85) := by decide +kernel
    rw [h1] at this
    simp only [Option.map_some, h2, Option.some.injEq] at this
    exact this
  have rb : ∀ j, ¬ReducesTo Witness.taught1.snap 85 j := by
    rintro j ⟨c, h1, h2⟩
    have : (Witness.taught1.snap.concepts[85]?).map (·.reduction) = some none := by decide +kernel
    rw [h1] at this
    simp [h2] at this
  have cb : ∀ j, Relation.ReflTransGen (ReducesTo Witness.taught1.snap) 85 j → j = 85 := by
    intro j h
    rcases Relation.ReflTransGen.cases_head h with rfl | ⟨k, hk, _⟩
    · rfl
    · exact absurd hk (rb k)
  have ca : ∀ j, Relation.ReflTransGen (ReducesTo Witness.taught1.snap) 82 j → j = 82 ∨ j = 85 := by
    intro j h
    rcases Relation.ReflTransGen.cases_head h with rfl | ⟨k, hk, hj⟩
    · exact .inl rfl
    · cases ra k hk
      exact .inr (cb j hj)
  have hbl : variableNamed Witness.taught1.snap = [49, 55, 61] := by decide +kernel
  have hto : noneTo [49, 55, 61] Witness.taught1.snap = true := by decide +kernel
  have ub : Unconnected Witness.taught1.snap 85 := unconnected_of_check hbl hto (by decide) (by decide +kernel)
  have ua : Unconnected Witness.taught1.snap 82 := unconnected_of_check hbl hto (by decide) (by decide +kernel)
  have hnb : ∀ t, HasName Witness.taught1.snap 85 t → t = str% "b" := by
    intro t ht
    have hs := History.nameable hc
    obtain ⟨m, hm⟩ := label_of_hasName hs (History.comps (History.mono (fun _ _ h => h.2) hc)).1 ht
    have hd := (History.settled hc).delta
    obtain ⟨m', hm'⟩ := hlb
    have h1 := hm _ (Nat.le_max_left m m')
    have h2 := hm' _ (Nat.le_max_right m m')
    rw [hd, h1] at h2
    cases h2
    rfl
  obtain ⟨_, hall⟩ := words_answered_partial hc (by decide +kernel) (noBlanketRule_sound hbl (by decide +kernel)) (by
    intro x hx
    have hx : x = str% "a" ∨ x = str% "b" := by
      simp only [List.mem_cons, List.not_mem_nil, or_false] at hx
      rcases hx with rfl | rfl | rfl <;> simp
    rcases hx with rfl | rfl
    · refine ⟨⟨by decide, by simp [SymbolChar]; decide⟩, by decide, 82, ha, fun j hj => ?_⟩
      rcases ca j hj with rfl | rfl
      exacts [⟨⟨_, pa⟩, ua⟩, ⟨⟨_, pb⟩, ub⟩]
    · refine ⟨⟨by decide, by simp [SymbolChar]; decide⟩, by decide, 85, hb, fun j hj => ?_⟩
      cases cb j hj
      exact ⟨⟨_, pb⟩, ub⟩) he
  have fa : ∀ t, (∃ i, (View.mk Witness.taught1.snap Witness.taught1.delta).conceptFromLabel 60 (str% "a") =
      .ok (some (.com i)) ∧ Answer Witness.taught1.snap i t) → t = str% "b" := by
    rintro t ⟨i, hi, j, hij, hirr, hn⟩
    rw [ha] at hi
    cases hi
    rcases ca j hij with rfl | rfl
    · exact absurd (show ReducesTo Witness.taught1.snap 82 85 by
        have : (Witness.taught1.snap.concepts[82]?).bind (·.reduction) = some 85 := by decide +kernel
        obtain ⟨c, h1, h2⟩ := Option.bind_eq_some_iff.1 this
        exact ⟨c, h1, h2⟩) (hirr 85)
    · exact hnb t hn
  have fb : ∀ t, (∃ i, (View.mk Witness.taught1.snap Witness.taught1.delta).conceptFromLabel 60 (str% "b") =
      .ok (some (.com i)) ∧ Answer Witness.taught1.snap i t) → t = str% "b" := by
    rintro t ⟨i, hi, j, hij, hirr, hn⟩
    rw [hb] at hi
    cases hi
    cases cb j hij
    exact hnb t hn
  cases hall with
  | cons h1 hall => cases hall with
    | cons h2 hall => cases hall with
      | cons h3 hall =>
        cases hall
        rw [fa _ h1, fb _ h2, fa _ h3]

/-- The first of these questions is answered. -/
example : (Context.execute 60 Witness.taught1 (str% "a")).map Prod.fst = .ok (str% "b") := by
  decide +kernel

end

end Zia.Props

import Verif.Lemmas.LearnParse
import Verif.Lemmas.Naming
import Verif.Lemmas.Fuel
namespace Zia
open CM Spec
set_option linter.unusedSectionVars false

/-- The effect of a new reduction on the store. -/
theorem reduce_specs {g g' : Snap} (hg : RefsInv g) {a y : CId} {ch : VChange CId}
    (hch : ch = .create y ∨ ∃ b, ch = .update b y) (st : Step g (a, .reduce a ch) g') :
    ∃ i j mc red, g.convert a = .ok i ∧ g.convert y = .ok j ∧ specs g i = some (.abst mc red) ∧
      specs g' = updS (specs g) i (.abst mc (some j)) ∧ g'.concepts.length = g.concepts.length := by
  have key : ∀ (f : Look) (i : Nat) (c c' : Con), f i = some c → c'.spec = c.spec →
      (fun j => (upd f i c' j).map (·.spec)) = fun j => (f j).map (·.spec) := fun f i c c' h => map_upd_same h
  cases st with
  | reduceCreate _ r k ri ck cr mc red hk hr hne hck hcr hs =>
    obtain rfl : y = r := by rcases hch with h | ⟨b, h⟩ <;> cases h; rfl
    refine ⟨k, ri, mc, red, hk, hr, by simp [specs, look, hck, hs], ?_, by simp [Snap.withConcepts]⟩
    funext m
    have hid := hg.valid.ids ri cr hcr
    simp only [specs, look, Snap.withConcepts, updS, List.getElem?_set, List.length_set]
    have h1 := lt_of_get hck
    have h2 := lt_of_get hcr
    by_cases e1 : ri = m
    · subst e1
      rw [if_pos rfl, if_pos h2, if_neg (fun e => hne e.symm), hcr]; rfl
    · rw [if_neg e1]
      by_cases e2 : k = m
      · subst e2
        rw [if_pos rfl, if_pos rfl, if_pos h1, ← hid]; rfl
      · rw [if_neg e2, if_neg (fun e => e2 e.symm)]
  | reduceUpdate _ b r k bi ri ck cb cr mc red hk hb hr hkb hne hba hck hcb hcr hs =>
    obtain rfl : y = r := by rcases hch with h | ⟨b, h⟩ <;> cases h; rfl
    refine ⟨k, ri, mc, red, hk, hr, by simp [specs, look, hck, hs], ?_, by simp [Snap.withConcepts]⟩
    funext m
    have hid := hg.valid.ids ri cr hcr
    simp only [specs, look, Snap.withConcepts, updS, List.getElem?_set, List.length_set]
    have h1 := lt_of_get hck
    have h2 := lt_of_get hcr
    have h3 := lt_of_get hcb
    by_cases e1 : ri = m
    · subst e1
      rw [if_pos rfl, if_pos h2, if_neg (fun e => hne e.symm), hcr]; rfl
    · rw [if_neg e1]
      by_cases e3 : bi = m
      · subst e3
        rw [if_pos rfl, if_pos h3, if_neg (fun e => hkb e.symm), hcb]; rfl
      · rw [if_neg e3]
        by_cases e2 : k = m
        · subst e2
          rw [if_pos rfl, if_pos rfl, if_pos h1, ← hid]; rfl
        · rw [if_neg e2, if_neg (fun e => e2 e.symm)]
  | reduceRemove _ _ _ _ _ _ _ _ _ => rcases hch with h | ⟨b, h⟩ <;> cases h

/-- Every error has a message. -/
theorem message_ne (e : ZiaError) : e.message ≠ [] := by
  cases e <;> simp [ZiaError.message]

variable [HashOrder]

theorem _root_.Zia.Spec.PlainWord.label {s : Snap} (hs : Nameable s) (hf : CompFwd (look s.concepts)) {i : Nat} {t : Str}
    (h : PlainWord s i t) {n : Nat} {r : Option Str} (hr : (View.mk s Nested.default).label n (.com i) = .ok r) :
    r = some t := by
  obtain ⟨m, hm⟩ := label_of_hasName hs hf h.name
  have := (View.label_below ⟨s, Nested.default⟩ (Nat.le_max_left n m) (.com i)).ok hr
  rw [hm _ (Nat.le_max_right n m)] at this
  cases this; rfl

theorem words_displayed {s : Snap} (hs : Nameable s) (hf : CompFwd (look s.concepts)) {D : CId → Prop}
    (h : ∀ a, D a → ∃ i t, a = .com i ∧ PlainWord s i t) : Displayed ⟨s, Nested.default⟩ D := by
  refine ⟨?_, ?_, ?_⟩
  · intro a m hm
    obtain ⟨k, c, rfl, hc, rfl⟩ := rest_read_inv hm
    simp [Mixed.ofCon, Mixed.id, hs.refs.valid.ids k c hc]
  · intro a ha
    obtain ⟨i, t, rfl, hw⟩ := h a ha
    obtain ⟨k, x, hk, _⟩ := hw.name
    obtain ⟨ck, h1, h2⟩ := hk
    rw [composition_eq] at h2
    obtain ⟨_, c, hc, _⟩ := hf k ck _ _ h1 h2
    refine ⟨_, rest_read hc, ?_, ?_⟩
    · cases hp : (Mixed.ofCon c).composition with
      | none => rfl
      | some p =>
        have e : (Mixed.ofCon c).composition = c.composition.map fun p => (.com p.1, .com p.2) := rfl
        rw [e] at hp
        cases hq : c.composition with
        | none => rw [hq] at hp; cases hp
        | some q => exact absurd ⟨c, hc, hq⟩ (hw.simple q.1 q.2)
    · cases hp : (Mixed.ofCon c).string with
      | none => rfl
      | some p => exact absurd ⟨c, hc, hp⟩ (hw.nostring p)
  · intro a n r ha hr
    obtain ⟨i, t, rfl, hw⟩ := h a ha
    exact ⟨t, hw.label hs hf hr, hw.constant⟩

theorem ready_known {c : Ctx} (hs : Nameable c.snap) (hf : CompFwd (look c.snap.concepts))
    (hr : CompRev (look c.snap.concepts)) (hd : c.delta = Nested.default) (hc : c.cache = .empty)
    {x y : Str} {i j : Nat} (hl : PlainWord c.snap (builtin .letCmd) (str% "let"))
    (ha : PlainWord c.snap (builtin .reduction) (str% "->")) (hx : PlainWord c.snap i x)
    (hy : PlainWord c.snap j y) (hb : IsBuiltIn c.snap (builtin .letCmd) .letCmd)
    (hb' : IsBuiltIn c.snap (builtin .reduction) .reduction) (hne : i ≠ j)
    (hu : ∀ k, ¬ComposedOf c.snap k (builtin .reduction) j) :
    Ready c (.com (builtin .letCmd)) (.com i) (.com (builtin .reduction)) (.com j) := by
  have cct : ∀ k t, IsBuiltIn c.snap k t → (View.mk c.snap c.delta).cct (.com k) = .ok (some t) := by
    rintro k t ⟨ck, h1, h2⟩
    rw [hd]
    show (do return (← (View.mk c.snap Nested.default).read (.com k)).cct) = _
    rw [rest_read h1]
    exact congrArg Except.ok h2
  refine ⟨?_, hc ▸ PlainCache.empty, cct _ _ hb, cct _ _ hb', fun e => hne (CId.com.inj e), ?_⟩
  · rw [hd]
    refine words_displayed hs hf fun a ha => ?_
    simp only [List.mem_cons, List.not_mem_nil, or_false] at ha
    rcases ha with rfl | rfl | rfl | rfl
    exacts [⟨_, _, rfl, hl⟩, ⟨_, _, rfl, hx⟩, ⟨_, _, rfl, by assumption⟩, ⟨_, _, rfl, hy⟩]
  · intro m hm
    rw [hd] at hm
    obtain ⟨k, ck, e, hk, rfl⟩ := rest_read_inv hm
    cases e
    rw [ofCon_findAsHand]
    cases hf : ck.findAsHand j .left with
    | none => rfl
    | some w =>
      obtain ⟨cw, h1, h2⟩ := (hr _ ck j w hk).1 hf
      exact absurd ⟨cw, h1, by rw [composition_eq]; exact h2⟩ (hu w)

/-- The leaf of a known word. -/
theorem leaf_known {n : Nat} {v : View} {t : Str} {id : CId} {k : Kind} {c c' : Ctx} {L : Syn}
    (ht : IsSymbol t) (hv : Syn.isVariableName t = false)
    (hl : v.conceptFromLabel n t = .ok (some id)) (hk : Parser.conceptKind v n t = .ok k)
    (h : leafOf n t k c = .ok (.ok L, c')) : Plain id L ∧ c' = c := by
  have hsp : ' ' ∉ t := by
    intro hm
    have := (ht.2 _ hm).2.2
    exact absurd this (by decide)
  have hnv : ¬(t.head? = some '_' ∧ t.getLast? = some '_') := by
    rintro ⟨h1, h2⟩
    simp [Syn.isVariableName, h1, h2, hsp] at hv
  unfold Parser.conceptKind at hk
  rw [if_neg hnv, hl] at hk
  have hk : (v.read id >>= fun m => match m.cct with
    | none => pure (.abst id)
    | some t => pure (.concrete id t)) = Except.ok k := hk
  rw [Except.bind_eq_ok] at hk
  obtain ⟨m, _, hk⟩ := hk
  have : ∃ l, L = .leaf (some t) (some id) l ∧ l ≠ .variable ∧ c' = c := by
    cases hc : m.cct with
    | none =>
      rw [hc] at hk; cases hk
      cases h
      exact ⟨_, rfl, by simp, rfl⟩
    | some q =>
      rw [hc] at hk; cases hk
      cases h
      refine ⟨_, rfl, ?_, rfl⟩
      cases q <;> simp
  obtain ⟨l, rfl, hl, rfl⟩ := this
  exact ⟨⟨_, _, rfl, hl⟩, rfl⟩

theorem isBuiltIn_specs {s : Snap} {i : Nat} {t : CCT} :
    IsBuiltIn s i t ↔ specs s i = some (.concrete t) := by
  simp only [IsBuiltIn, specs, look, Option.map_eq_some_iff]
  constructor
  · rintro ⟨c, hc, h⟩
    refine ⟨c, hc, ?_⟩
    unfold Concept.cct at h
    split at h
    · next e => rw [e]; cases h; rfl
    · cases h
  · rintro ⟨c, hc, h⟩
    exact ⟨c, hc, by simp [Concept.cct, h]⟩

/-- What the command makes of the store. -/
theorem taught_known {c c' : Ctx} {i j : Nat} {s' : Snap} (hs : RefsInv c.snap)
    (hd : c.delta = Nested.default) {x : Str} (h : Taught c (.com i) (.com j) (.ok x) c')
    (ha : c.snap.apply c'.delta = .ok s') : Learnt c.snap s' i j := by
  obtain ⟨_, _, ch, hch, id, hu⟩ := h
  have hch : ch = .create (.com j) ∨ ∃ b, ch = .update b (.com j) :=
    hch.imp_right fun ⟨b, _, h, _⟩ => ⟨b, h⟩
  rw [hd] at hu
  obtain ⟨o, e, hid, hup⟩ := Nested.update_base hu
  have ho := Nested.update_order hu
  rw [e] at ha ho
  obtain ⟨g, g', h1, h2, rfl⟩ := apply_base ha
  have ho : o.order = [(id, .reduce (.com i) ch)] := ho
  have hid : id = .com i := hid
  subst hid
  rw [ho] at h1
  have h1 : c.snap.applyOne (.com i, .reduce (.com i) ch) = .ok g := by
    simp only [Snap.applyAll, Except.bind_eq_ok] at h1
    obtain ⟨a, b, d⟩ := h1
    cases d
    exact b
  obtain ⟨i', j', mc, red, hi, hj, hsp, hsp', hlen⟩ := reduce_specs hs hch (applyOne_step h1)
  cases hi; cases hj
  have h2 := applyStrings_only h2
  have hcon : ({ g' with prev := [] } : Snap).concepts = g.concepts := by rw [h2]
  have hsame : specs { g' with prev := [] } = updS (specs c.snap) i (.abst mc (some j)) := by
    rw [← hsp']
    funext m
    unfold specs look
    rw [hcon]
  have other : ∀ k, k ≠ i → specs { g' with prev := [] } k = specs c.snap k := by
    intro k hk
    rw [hsame]; simp [updS, hk]
  have at_i : specs { g' with prev := [] } i = some (.abst mc (some j)) := by
    rw [hsame]; simp [updS]
  refine ⟨by rw [hcon, hlen], ?_, ?_, ?_, ?_, ?_⟩
  · intro m
    rw [reducesTo_specs, at_i]
    simp [redOf, eq_comm]
  · intro k m _ hk
    rw [reducesTo_specs, reducesTo_specs, other k hk]
  · intro k l r _
    rw [composedOf_specs, composedOf_specs]
    by_cases hk : k = i
    · subst hk
      rw [at_i, hsp]
      cases mc <;> simp [pairOf]
    · rw [other k hk]
  · intro k t _
    rw [isString_specs, isString_specs]
    by_cases hk : k = i
    · subst hk
      rw [at_i, hsp]; simp
    · rw [other k hk]
  · intro k t _
    rw [isBuiltIn_specs, isBuiltIn_specs]
    by_cases hk : k = i
    · subst hk
      rw [at_i, hsp]; simp
    · rw [other k hk]
end Zia

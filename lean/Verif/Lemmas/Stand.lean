import Verif.Lemmas.Labels
import Verif.Spec.Teach

/-!
# Stores with pending changes

During a command, the store is read through a change set, which may name new words. What is read is then the same as
if the changes were in the store, but for the ids of the new concepts. A search for a rule that concludes a reduction
adds three bound variables to the change set, and nothing else, which does not affect what is read about the other
concepts.
-/

namespace Zia

open Spec

set_option linter.unusedSectionVars false

section

variable [HashOrder]

/-- What is read agrees with the stored concept, but for the ids. -/
structure Mirrors (ι : Nat → CId) (c : Con) (m : Mixed) : Prop where
  id : m.id = ι c.id
  string : m.string = c.string
  cct : m.cct = c.cct
  composition : m.composition = c.composition.map (fun p => (ι p.1, ι p.2))
  reduction : m.reduction = c.reduction.map ι
  free : m.isFree = c.isFree
  bound : m.isBound = c.isBound
  anonymous : m.isAnonymous = c.isAnonymous
  find : ∀ k h, m.findAsHand (ι k) h = (c.findAsHand k h).map ι
  foreign : ∀ x h, (∀ k, x ≠ ι k) → m.findAsHand x h = none
  froms : ∀ y ∈ m.reducesFrom, ∃ q, y = ι q ∧ q ∈ c.redFrom
  hands : ∀ h p, p ∈ m.iterHandOf h → ∃ y q, p = (ι y, ι q) ∧ (y, q) ∈ c.handOf h

/-- A store with pending changes that is read as the store `s`. -/
structure Stand (s : Snap) where
  snap : Snap
  pend : Nested
  ι : Nat → CId
  inj : ∀ a b, ι a = ι b → a = b
  old : ∀ k u, ι k = .unc u → u < pend.overlay.num
  own : ∀ k, k < s.concepts.length → ∀ j, ι k = .com j → j < snap.concepts.length
  keys : ∀ u ds, pend.getConcept (.unc u) = some ds → u < pend.overlay.num
  read : ∀ k m, (View.mk snap pend).read (ι k) = .ok m → ∃ c, s.concepts[k]? = some c ∧ Mirrors ι c m
  readOf : ∀ k c, s.concepts[k]? = some c → ∃ m, (View.mk snap pend).read (ι k) = .ok m
  other : ∀ x m, (View.mk snap pend).read x = .ok m → ∃ k, x = ι k
  quiet : ∀ p ∈ pend.iterConcepts, ∀ t, (View.mk snap pend).maybeCct p.1 = .ok (some t) →
    ∀ d ∈ p.2, ∃ x, d = CDelta.indirect x
  concrete : ∀ t, (byRight snap.concrete t).map CId.com = (byRight s.concrete t).map ι

theorem Mirrors.composition_inv {ι : Nat → CId} {c : Con} {m : Mixed} (h : Mirrors ι c m) {l r : CId}
    (hc : m.composition = some (l, r)) : ∃ l' r', l = ι l' ∧ r = ι r' ∧ c.composition = some (l', r') := by
  rw [h.composition] at hc
  cases hp : c.composition with
  | none => rw [hp] at hc; cases hc
  | some p => rw [hp] at hc; cases hc; exact ⟨p.1, p.2, rfl, rfl, rfl⟩

theorem Mirrors.composition_none {ι : Nat → CId} {c : Con} {m : Mixed} (h : Mirrors ι c m)
    (hc : c.composition = none) : m.composition = none := by
  rw [h.composition, hc]; rfl

theorem mirrors_ofCon (c : Con) : Mirrors .com c (.ofCon c) := by
  refine ⟨rfl, rfl, rfl, rfl, rfl, rfl, rfl, rfl, ?_, ?_, ?_, ?_⟩
  · intro k h
    exact ofCon_findAsHand ..
  · intro x h hx
    cases x with
    | com k => exact absurd rfl (hx k)
    | unc u => cases h <;> rfl
  · intro y hy
    simp only [Mixed.ofCon, Mixed.reducesFrom, List.mem_append, List.mem_filter, List.mem_map] at hy
    rcases hy with ⟨⟨q, hq, rfl⟩, _⟩ | ⟨q, ⟨hq, _⟩, _⟩
    · exact ⟨q, rfl, (HashOrder.perm _).mem_iff.1 hq⟩
    · rw [(HashOrder.perm _).mem_iff] at hq
      cases hq
  · intro h p hp
    simp only [Mixed.ofCon, Mixed.iterHandOf, List.mem_filterMap, HashOrder.mem_order] at hp
    obtain ⟨⟨y, q⟩, hy, hp⟩ := hp
    refine ⟨y, q, ?_, hy⟩
    cases h <;> (cases hp; rfl)

/-- Nothing is pending. -/
def Stand.rest (s : Snap) : Stand s where
  snap := s
  pend := Nested.default
  ι := .com
  inj := fun _ _ h => CId.com.inj h
  old := fun _ _ h => by cases h
  own := fun _ h _ e => by cases e; exact h
  keys := fun _ _ h => by cases h
  read := fun k m h => by
    obtain ⟨_, c, e, hc, rfl⟩ := rest_read_inv h
    cases e
    exact ⟨c, hc, mirrors_ofCon c⟩
  readOf := fun _ _ h => ⟨_, rest_read h⟩
  other := fun x m h => by
    obtain ⟨k, _, e, _⟩ := rest_read_inv h
    exact ⟨k, e⟩
  quiet := fun _ h => by cases h
  concrete := fun _ => rfl

/-- Bound variables only. -/
def FreshLayer (b : Nat) (o : Delta) : Prop :=
  ∀ p ∈ o.concept, ∃ u, b ≤ u ∧ p = (CId.unc u, [CDelta.direct (.new .boundVariable)])

/-- Change sets that add bound variables. -/
inductive Ext (P : Nested) : Nested → Prop
  | here : Ext P P
  | over {i : Nested} {o : Delta} (hi : Ext P i) (h : FreshLayer P.overlay.num o) (hn : P.overlay.num ≤ o.num) :
      Ext P (.over i o)

theorem FreshLayer.get {b : Nat} {o : Delta} (h : FreshLayer b o) {id : CId} {ds : List CDelta}
    (hg : o.concept.get? id = some ds) : ∃ u, b ≤ u ∧ id = .unc u ∧ ds = [.direct (.new .boundVariable)] := by
  obtain ⟨u, hb, e⟩ := h _ (AMap.mem_of_get? _ _ _ hg)
  cases e
  exact ⟨u, hb, rfl, rfl⟩

variable {P d : Nested}

theorem Ext.num (h : Ext P d) : P.overlay.num ≤ d.overlay.num := by
  cases h with
  | here => exact Nat.le_refl _
  | over _ _ h => exact h

theorem Ext.get_old (h : Ext P d) {id : CId} (hid : ∀ u, id = .unc u → u < P.overlay.num) :
    d.getConcept id = P.getConcept id := by
  induction h with
  | here => rfl
  | @over i o hi h _ ih =>
    have : o.concept.get? id = none := by
      cases hg : o.concept.get? id with
      | none => rfl
      | some ds =>
        obtain ⟨u, hb, e, _⟩ := h.get hg
        have := hid u e
        omega
    simp only [Nested.getConcept, this, ← ih]
    cases i.getConcept id <;> rfl

theorem Ext.get_new (h : Ext P d) {u : Nat} (hu : P.getConcept (.unc u) = none) {ds : List CDelta}
    (hg : d.getConcept (.unc u) = some ds) : ∀ x ∈ ds, x = .direct (.new .boundVariable) := by
  induction h generalizing ds with
  | here => rw [hu] at hg; cases hg
  | @over i o hi h _ ih =>
    simp only [Nested.getConcept] at hg
    cases h1 : i.getConcept (.unc u) with
    | none =>
      cases h2 : o.concept.get? (.unc u) with
      | none => rw [h1, h2] at hg; cases hg
      | some w =>
        rw [h1, h2] at hg; cases hg
        obtain ⟨_, _, _, rfl⟩ := h.get h2
        simp
    | some v =>
      have hv := ih h1
      cases h2 : o.concept.get? (.unc u) with
      | none => rw [h1, h2] at hg; cases hg; exact hv
      | some w =>
        rw [h1, h2] at hg; cases hg
        obtain ⟨_, _, _, rfl⟩ := h.get h2
        intro x hx
        rcases List.mem_append.1 hx with hx | hx
        · exact hv x hx
        · simpa using hx

theorem Ext.iter (h : Ext P d) : ∀ p ∈ d.iterConcepts, p ∈ P.iterConcepts ∨ ∃ u, P.overlay.num ≤ u ∧ p.1 = .unc u := by
  induction h with
  | here => exact fun p hp => .inl hp
  | @over i o hi h _ ih =>
    intro p hp
    simp only [Nested.iterConcepts, List.mem_append, List.mem_filter, List.mem_map] at hp
    rcases hp with ⟨hp, _⟩ | ⟨q, hq, rfl⟩
    · exact ih p hp
    · obtain ⟨u, hb, rfl⟩ := h q hq
      exact .inr ⟨u, hb, rfl⟩

theorem Ext.spawn (h : Ext P d) : Ext P d.spawn := .over h (fun _ h => by cases h) h.num

/-- Another bound variable, in a layer of its own. -/
theorem Ext.insertNew {i : Nested} {o : Delta} {id : CId} {d' : Nested} (h : Ext P (.over i o))
    (hb : FreshLayer P.overlay.num o) (hi : Ext P i)
    (hn : (Nested.over i o).insertNew .boundVariable = .ok (d', id)) :
    id = .unc o.num ∧ ∃ o', d' = .over i o' ∧ FreshLayer P.overlay.num o' ∧ o'.num = o.num + 1 ∧ Ext P d' := by
  have hnum : P.overlay.num ≤ o.num := h.num
  simp only [Nested.insertNew, Delta.insertNew, Except.bind_eq_ok] at hn
  obtain ⟨⟨o1, i1⟩, h1, h2⟩ := hn
  cases h2
  cases hg : (Nested.over i o).overlay.concept.get? (.unc (Nested.over i o).overlay.num) with
  | none =>
    rw [hg] at h1
    cases h1
    have hf : ∀ o' : Delta, o'.concept = o.concept.insert (.unc o.num) [.direct (.new .boundVariable)] →
        FreshLayer P.overlay.num o' := by
      intro o' e p hp
      rw [e] at hp
      rcases mem_insert_or hp with rfl | hp
      · exact ⟨_, hnum, rfl⟩
      · exact hb p hp
    exact ⟨rfl, _, rfl, hf _ rfl, rfl, .over hi (hf _ rfl) (Nat.le_succ_of_le hnum)⟩
  | some v =>
    rw [hg] at h1
    obtain ⟨u, _, e, rfl⟩ := hb.get hg
    cases h1

/-- The three bound variables of a search for a rule. -/
theorem Ext.three (h : Ext P d) {d1 d2 d3 : Nested} {a b c : CId}
    (h1 : d.spawn.insertNew .boundVariable = .ok (d1, a)) (h2 : d1.insertNew .boundVariable = .ok (d2, b))
    (h3 : d2.insertNew .boundVariable = .ok (d3, c)) :
    Ext P d3 ∧ a = .unc d.overlay.num ∧ b = .unc (d.overlay.num + 1) ∧ c = .unc (d.overlay.num + 2) := by
  obtain ⟨e1, o1, rfl, f1, n1, x1⟩ := Ext.insertNew h.spawn (fun _ h => by cases h) h h1
  obtain ⟨e2, o2, rfl, f2, n2, x2⟩ := Ext.insertNew x1 f1 h h2
  obtain ⟨e3, o3, rfl, f3, n3, x3⟩ := Ext.insertNew x2 f2 h h3
  have : (Delta.empty d.overlay.num).num = d.overlay.num := rfl
  exact ⟨x3, e1, by rw [e2, n1, this], by rw [e3, n2, n1, this]⟩

variable {s : Snap} (W : Stand s)

theorem Stand.read_old (h : Ext W.pend d) {id : CId} (hid : ∀ u, id = .unc u → u < W.pend.overlay.num) :
    (View.mk W.snap d).read id = (View.mk W.snap W.pend).read id := by
  unfold View.read View.maybeRead
  rw [h.get_old hid]
  rfl

/-- A concept is read as it is stored. -/
theorem Stand.read_ext (h : Ext W.pend d) {k : Nat} {m : Mixed}
    (hr : (View.mk W.snap d).read (W.ι k) = .ok m) : ∃ c, s.concepts[k]? = some c ∧ Mirrors W.ι c m := by
  rw [W.read_old h (W.old k)] at hr
  exact W.read k m hr

/-- What is added is read as a bound variable. -/
theorem Stand.read_new (h : Ext W.pend d) {u : Nat} (hu : W.pend.overlay.num ≤ u) {m : Mixed}
    (hr : (View.mk W.snap d).read (.unc u) = .ok m) : m = .unc (Concept.ofNew (.unc u) .boundVariable) := by
  have hp : W.pend.getConcept (.unc u) = none := by
    cases hx : W.pend.getConcept (.unc u) with
    | none => rfl
    | some ds =>
      have := W.keys u ds hx
      omega
  simp only [View.read, View.maybeRead] at hr
  cases hg : d.getConcept (.unc u) with
  | none => rw [hg] at hr; cases hr
  | some ds =>
    have hv := h.get_new hp hg
    rw [hg] at hr
    cases ds with
    | nil => cases hr
    | cons x xs =>
      cases hv x (by simp)
      cases xs with
      | nil => cases hr; rfl
      | cons y ys =>
        cases hv y (by simp)
        cases hr

/-- What can be read. -/
theorem Stand.read_cases (h : Ext W.pend d) {id : CId} {m : Mixed} (hr : (View.mk W.snap d).read id = .ok m) :
    (∃ k c, id = W.ι k ∧ s.concepts[k]? = some c ∧ Mirrors W.ι c m) ∨
      ∃ u, W.pend.overlay.num ≤ u ∧ id = .unc u ∧ m = .unc (Concept.ofNew (.unc u) .boundVariable) := by
  by_cases hid : ∀ u, id = .unc u → u < W.pend.overlay.num
  · rw [W.read_old h hid] at hr
    obtain ⟨k, rfl⟩ := W.other id m hr
    obtain ⟨c, hc, hm⟩ := W.read k m hr
    exact .inl ⟨k, c, rfl, hc, hm⟩
  · cases id with
    | com k => exact absurd (fun u e => by cases e) hid
    | unc u =>
      have hu : W.pend.overlay.num ≤ u := by
        refine Nat.le_of_not_lt fun hlt => hid fun u' e => ?_
        cases e; exact hlt
      exact .inr ⟨u, hu, rfl, W.read_new h hu hr⟩

theorem Stand.foreign {u : Nat} (hu : W.pend.overlay.num ≤ u) (k : Nat) : CId.unc u ≠ W.ι k := by
  intro e
  have := W.old k u e.symm
  omega

omit [HashOrder] in
theorem concreteStep_indirect {id : CId} {acc r : Option (Option CId)} {ds : List CDelta}
    (hd : ∀ x ∈ ds, ∃ y, x = CDelta.indirect y) (h : View.concreteStep id acc ds = .ok r) : r = acc := by
  induction ds with
  | nil => cases h; rfl
  | cons x ds ih =>
    obtain ⟨y, rfl⟩ := hd x (by simp)
    exact ih (fun z hz => hd z (by simp [hz])) h

theorem Stand.concreteLoop (h : Ext W.pend d) {t : CCT} {acc r : Option (Option CId)}
    {l : List (CId × List CDelta)}
    (hl : ∀ p ∈ l, p ∈ W.pend.iterConcepts ∨ ∃ u, W.pend.overlay.num ≤ u ∧ p.1 = .unc u)
    (hr : View.concreteLoop ⟨W.snap, d⟩ t acc l = .ok r) : r = acc := by
  induction l generalizing acc with
  | nil => cases hr; rfl
  | cons p l ih =>
    obtain ⟨id, ds⟩ := p
    simp only [View.concreteLoop, Except.bind_eq_ok] at hr
    obtain ⟨o, ho, hr⟩ := hr
    have hl' := fun p hp => hl p (List.mem_cons_of_mem _ hp)
    by_cases hf : ∃ u, W.pend.overlay.num ≤ u ∧ id = .unc u
    · obtain ⟨u, hu, rfl⟩ := hf
      have : o = none := by
        simp only [View.maybeCct, Except.bind_eq_ok, Except.pure_eq_ok] at ho
        obtain ⟨q, hq, rfl⟩ := ho
        cases q with
        | none => rfl
        | some m =>
          have := W.read_new h (m := m) hu (by simp only [View.read, hq]; rfl)
          subst this
          rfl
      subst this
      rw [if_neg (by simp)] at hr
      exact ih hl' hr
    · have hp : (id, ds) ∈ W.pend.iterConcepts := (hl (id, ds) (by simp)).resolve_right hf
      have ho' : (View.mk W.snap W.pend).maybeCct id = .ok o := by
        rw [← ho]
        unfold View.maybeCct View.maybeRead
        rw [h.get_old (id := id) fun u e => Nat.lt_of_not_le fun hu => hf ⟨u, hu, e⟩]
        rfl
      split at hr
      · next e =>
        rw [e] at ho'
        simp only [Except.bind_eq_ok] at hr
        obtain ⟨acc', h1, hr⟩ := hr
        cases concreteStep_indirect (W.quiet _ hp t ho') h1
        exact ih hl' hr
      · exact ih hl' hr

/-- The built-in concepts. -/
theorem Stand.concreteId (h : Ext W.pend d) {t : CCT} {r : Option CId}
    (hr : View.concreteId ⟨W.snap, d⟩ t = .ok r) : r = (byRight s.concrete t).map W.ι := by
  simp only [View.concreteId, Except.bind_eq_ok] at hr
  obtain ⟨o, h1, h2⟩ := hr
  have := W.concreteLoop h (fun p hp => h.iter p ((HashOrder.perm _).mem_iff.1 hp)) h1
  subst this
  cases h2
  exact W.concrete t

/-- Normal forms are found as in the store. -/
theorem Stand.normalForm (h : Ext W.pend d) {n k : Nat} {o : Option CId}
    (hl : View.normalForm ⟨W.snap, d⟩ n (W.ι k) = .ok o) :
    ∃ o' : Option Nat, View.normalForm ⟨s, Nested.default⟩ n (.com k) = .ok (o'.map .com) ∧ o = o'.map W.ι := by
  induction n generalizing k o with
  | zero => cases hl
  | succ n ih =>
    simp only [View.normalForm, Except.bind_eq_ok] at hl ⊢
    obtain ⟨m, hm, hl⟩ := hl
    obtain ⟨c, hc, M⟩ := W.read_ext h hm
    have hr : (Mixed.ofCon c).reduction = c.reduction.map .com := rfl
    rw [M.reduction] at hl
    cases hcr : c.reduction with
    | none =>
      rw [hcr] at hl
      cases hl
      refine ⟨none, ⟨_, rest_read hc, ?_⟩, rfl⟩
      rw [hr, hcr]
      rfl
    | some r =>
      rw [hcr] at hl
      simp only [Option.map_some, Except.bind_eq_ok, Except.pure_eq_ok] at hl
      obtain ⟨q, hq, rfl⟩ := hl
      obtain ⟨q', h1, rfl⟩ := ih hq
      refine ⟨some (q'.getD r), ⟨_, rest_read hc, ?_⟩, by cases q' <;> rfl⟩
      rw [hr, hcr]
      simp only [Option.map_some, h1]
      cases q' <;> rfl

theorem rest_concreteId {t : CCT} : View.concreteId ⟨s, Nested.default⟩ t = .ok ((byRight s.concrete t).map .com) := by
  unfold View.concreteId
  rw [show Nested.default.iterConcepts = [] from rfl, HashOrder.order_nil]
  rfl

/-- Names are found as in the store. -/
theorem Stand.label_rest (h : Ext W.pend d) {n k : Nat} {o : Option Str}
    (hl : View.label ⟨W.snap, d⟩ n (W.ι k) = .ok o) : View.label ⟨s, Nested.default⟩ n (.com k) = .ok o := by
  induction n generalizing k o with
  | zero => cases hl
  | succ n ih =>
    simp only [View.label, View.conceptOfLabel, Except.bind_eq_ok] at hl ⊢
    obtain ⟨q, ⟨l, h1, h2⟩, hl⟩ := hl
    have := W.concreteId h h1
    subst this
    rw [rest_concreteId]
    have onward : ∀ {c : Con}, s.concepts[k]? = some c → (do
        match (← (View.mk W.snap d).read (W.ι k)).reduction with
        | none => return none
        | some r => View.label ⟨W.snap, d⟩ n r) = .ok o → (do
        match (← (View.mk s Nested.default).read (.com k)).reduction with
        | none => return none
        | some r => View.label ⟨s, Nested.default⟩ n r) = .ok o := by
      intro c hc hl
      simp only [Except.bind_eq_ok] at hl
      obtain ⟨m, hm, hl⟩ := hl
      obtain ⟨c', hc', M⟩ := W.read_ext h hm
      rw [hc] at hc'; cases hc'
      rw [rest_read hc]
      show (match (Mixed.ofCon c).reduction with | none => _ | some r => _) = _
      have hr : (Mixed.ofCon c).reduction = c.reduction.map .com := rfl
      rw [M.reduction] at hl
      rw [hr]
      cases hcr : c.reduction with
      | none => rw [hcr] at hl; exact hl
      | some r => rw [hcr] at hl; exact ih hl
    cases hb : byRight s.concrete .label with
    | none =>
      rw [hb] at h2
      cases h2
      refine ⟨none, ⟨_, rfl, rfl⟩, ?_⟩
      have hl' := hl
      simp only [Except.bind_eq_ok] at hl'
      obtain ⟨m, hm, _⟩ := hl'
      obtain ⟨c, hc, _⟩ := W.read_ext h hm
      exact onward hc hl
    | some b =>
      rw [hb] at h2
      simp only [Option.map_some, Except.bind_eq_ok, Except.pure_eq_ok] at h2
      obtain ⟨m, hm, rfl⟩ := h2
      obtain ⟨c, hc, M⟩ := W.read_ext h hm
      refine ⟨(Mixed.ofCon c).findAsHand (.com b) .right, ⟨_, rfl, ?_⟩, ?_⟩
      · simp only [Option.map_some, rest_read hc]
        rfl
      · rw [M.find] at hl
        rw [ofCon_findAsHand]
        cases hf : c.findAsHand b .right with
        | none =>
          rw [hf] at hl
          exact onward hc hl
        | some q =>
          rw [hf] at hl
          simp only [Option.map_some, Except.bind_eq_ok] at hl
          obtain ⟨x, hx, hl⟩ := hl
          obtain ⟨x', h3, rfl⟩ := W.normalForm h hx
          dsimp only [Option.map_some]
          rw [h3]
          cases x' with
          | none => exact hl
          | some i =>
            simp only [Option.map_some, Except.bind_eq_ok] at hl
            obtain ⟨m, hm, hl⟩ := hl
            obtain ⟨ci, hci, M⟩ := W.read_ext h hm
            show ((View.mk s Nested.default).read (.com i) >>= fun m => pure m.string) = _
            rw [rest_read hci]
            rw [M.string] at hl
            exact hl

end

end Zia

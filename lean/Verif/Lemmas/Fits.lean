import Verif.Lemmas.Reach

/-!
# When a change can be applied
-/

namespace Zia

open Spec

/-- Success. -/
def Ok {α : Type} (x : Except Fault α) : Prop := ∃ a, x = .ok a

theorem ok_bind {α β : Type} {x : Except Fault α} {f : α → Except Fault β} :
    Ok (x >>= f) ↔ ∃ a, x = .ok a ∧ Ok (f a) := by
  cases x with
  | error e => simp [Ok, bind, Except.bind]
  | ok a => simp [Ok, bind, Except.bind]

theorem ok_pure {α : Type} (a : α) : Ok (pure a : Except Fault α) := ⟨a, rfl⟩

theorem storedAs_iff {s : Snap} {a : CId} {i : Nat} {k : Con} :
    StoredAs s a i k ↔ s.convert a = .ok i ∧ s.concepts[i]? = some k := by
  cases a with
  | com n => simp [StoredAs, Snap.convert]
  | unc u =>
    simp only [StoredAs, Snap.convert]
    cases s.prev.get? u <;> simp

theorem orDisjoint_get2 {cs : List Con} {i j : Nat} {x : Con × Con} :
    orDisjoint (get2 cs i j) = .ok x ↔ i ≠ j ∧ cs[i]? = some x.1 ∧ cs[j]? = some x.2 := by
  obtain ⟨a, b⟩ := x
  unfold get2
  by_cases h : i = j
  · simp [h, orDisjoint]
  · cases h1 : cs[i]? <;> cases h2 : cs[j]? <;> simp [h, orDisjoint]

theorem orDisjoint_get3 {cs : List Con} {i j k : Nat} {x : Con × Con × Con} :
    orDisjoint (get3 cs i j k) = .ok x ↔ [i, j, k].Nodup ∧ cs[i]? = some x.1 ∧
      cs[j]? = some x.2.1 ∧ cs[k]? = some x.2.2 := by
  obtain ⟨a, b, c⟩ := x
  unfold get3
  by_cases h : i = j ∨ i = k ∨ j = k
  · simp only [h, if_true, orDisjoint]
    constructor
    · intro h; cases h
    · rintro ⟨hn, _⟩; simp at hn; tauto
  · have hn : [i, j, k].Nodup := by simp; tauto
    simp only [h, if_false, hn, true_and]
    cases h1 : cs[i]? <;> cases h2 : cs[j]? <;> cases h3 : cs[k]? <;> simp [orDisjoint]

theorem orDisjoint_get5 {cs : List Con} {i j k l m : Nat} {x : Con × Con × Con × Con × Con} :
    orDisjoint (get5 cs i j k l m) = .ok x ↔ [i, j, k, l, m].Nodup ∧ cs[i]? = some x.1 ∧
      cs[j]? = some x.2.1 ∧ cs[k]? = some x.2.2.1 ∧ cs[l]? = some x.2.2.2.1 ∧
      cs[m]? = some x.2.2.2.2 := by
  obtain ⟨a, b, c, d, e⟩ := x
  unfold get5
  by_cases h : [i, j, k, l, m].Nodup
  · rw [if_pos h]
    simp only [h, true_and]
    cases h1 : cs[i]? <;> cases h2 : cs[j]? <;> cases h3 : cs[k]? <;> cases h4 : cs[l]? <;>
      cases h5 : cs[m]? <;> simp [orDisjoint]
  · rw [if_neg h]
    simp [orDisjoint, h]

theorem orDisjoint_get {cs : List Con} {i : Nat} {k : Con} :
    orDisjoint cs[i]? = .ok k ↔ cs[i]? = some k := by
  cases cs[i]? <;> simp [orDisjoint]

theorem ok_insertInto {m : AMap Nat Nat} {k v : Nat} :
    Ok (insertInto m k v) ↔ ∀ v', m.get? k = some v' → v' = v := by
  unfold insertInto
  cases m.get? k with
  | none => simp [Ok]
  | some p =>
    by_cases h : v = p
    · simp [Ok, h]
    · simp only [h, if_false, Ok]
      constructor
      · rintro ⟨_, h⟩; cases h
      · intro h'; exact absurd (h' p rfl).symm h

theorem ok_compositionOf {c : Nat} {l r : Con} :
    Ok (compositionOf c l r) ↔ FreePair l r c := by
  unfold compositionOf
  simp only [ok_bind]
  constructor
  · rintro ⟨a, ha, b, hb, _⟩
    exact ⟨ok_insertInto.1 ⟨a, ha⟩, ok_insertInto.1 ⟨b, hb⟩⟩
  · rintro ⟨h1, h2⟩
    obtain ⟨a, ha⟩ := ok_insertInto.2 h1
    obtain ⟨b, hb⟩ := ok_insertInto.2 h2
    exact ⟨a, ha, b, hb, ok_pure _⟩

theorem abstract_iff {k : Con} : Abstract k ↔ ∃ mc red, k.spec = .abst mc red := by
  unfold Abstract Concept.cct Concept.string
  cases k.spec <;> simp

theorem constant_iff {k : Con} : k.maybeComposition = some (.leaf .constant) ↔
    ∃ red, k.spec = .abst (.leaf .constant) red := by
  unfold Concept.maybeComposition
  split <;> simp_all

/-- A key outside the store is not a key of a stored concept. -/
theorem fresh_left {s : Snap} (h : RefsInv s) {i : Nat} {k : Con} (hk : s.concepts[i]? = some k) {w : Nat} :
    k.leftOf.get? s.concepts.length = some w → False := by
  intro hw
  have := h.valid.concepts i k hk s.concepts.length (mem_refs.2 (.inr (.inl
    ⟨_, AMap.mem_of_get? _ _ _ hw, .inl rfl⟩)))
  omega

theorem fresh_right {s : Snap} (h : RefsInv s) {i : Nat} {k : Con} (hk : s.concepts[i]? = some k) {w : Nat} :
    k.rightOf.get? s.concepts.length = some w → False := by
  intro hw
  have := h.valid.concepts i k hk s.concepts.length (mem_refs.2 (.inr (.inr (.inl
    ⟨_, AMap.mem_of_get? _ _ _ hw, .inl rfl⟩))))
  omega

theorem ok_lefthandOf {s : Snap} (h : RefsInv s) {i : Nat} {r c : Con} {t : Option CCT}
    (hr : s.concepts[i]? = some r) : Ok (lefthandOf s.concepts.length r c t) ↔
      c.maybeComposition = some (.leaf .constant) := by
  rw [constant_iff]
  unfold lefthandOf
  split
  · next red hs =>
    simp only [hs, Specific.abst.injEq, true_and, exists_eq', iff_true, ok_bind]
    obtain ⟨a, ha⟩ := ok_insertInto (v := c.id).2 (fun v' hv => (fresh_right h hr hv).elim)
    exact ⟨a, ha, ok_pure _⟩
  · next hs =>
    constructor
    · rintro ⟨_, h⟩; cases h
    · rintro ⟨red, h⟩; exact (hs red h).elim

theorem ok_righthandOf {s : Snap} (h : RefsInv s) {i : Nat} {l c : Con} {t : Option CCT}
    (hl : s.concepts[i]? = some l) : Ok (righthandOf s.concepts.length l c t) ↔
      c.maybeComposition = some (.leaf .constant) := by
  rw [constant_iff]
  unfold righthandOf
  split
  · next red hs =>
    simp only [hs, Specific.abst.injEq, true_and, exists_eq', iff_true, ok_bind]
    obtain ⟨a, ha⟩ := ok_insertInto (v := c.id).2 (fun v' hv => (fresh_left h hl hv).elim)
    exact ⟨a, ha, ok_pure _⟩
  · next hs =>
    constructor
    · rintro ⟨_, h⟩; cases h
    · rintro ⟨red, h⟩; exact (hs red h).elim

theorem ok_doubleOf {i : Nat} {c : Con} {t : Option CCT} : Ok (doubleOf i c t) ↔ Abstract c := by
  rw [abstract_iff]
  unfold doubleOf
  cases c.spec <;> simp [Ok]

theorem ok_composeCreate {c l r : Con} :
    Ok (c.composeCreate l r) ↔ Abstract c ∧ FreePair l r c.id := by
  rw [abstract_iff, ← ok_compositionOf]
  unfold Concept.composeCreate
  cases c.spec with
  | abst mc red =>
    simp only [ok_bind]
    exact ⟨fun ⟨a, ha, _⟩ => ⟨⟨_, _, rfl⟩, a, ha⟩, fun ⟨_, a, ha⟩ => ⟨a, ha, ok_pure _⟩⟩
  | concrete t => simp [Ok]
  | str t => simp [Ok]

theorem ok_composeRemove {c l r : Con} : Ok (c.composeRemove l r) ↔ Abstract c := by
  rw [abstract_iff]
  unfold Concept.composeRemove
  cases c.spec <;> simp [Ok]

theorem ok_makeReduceTo {c r : Con} : Ok (c.makeReduceTo r) ↔ Abstract c := by
  rw [abstract_iff]
  unfold Concept.makeReduceTo
  cases c.spec <;> simp [Ok]

theorem ok_makeNoLonger {c r : Con} : Ok (c.makeNoLongerReduceTo r) ↔ Abstract c := by
  rw [abstract_iff]
  unfold Concept.makeNoLongerReduceTo
  cases c.spec <;> simp [Ok]

theorem applyNew_ok {s : Snap} (hs : RefsInv s) {u : Nat} {nd : NewDelta CId} :
    Ok (s.applyNew u nd) ↔ CanApply s (.unc u, .new nd) := by
  unfold Snap.applyNew
  cases nd with
  | freeVariable => simp [CanApply, Ok, pure, Except.pure]
  | boundVariable => simp [CanApply, Ok, pure, Except.pure]
  | str t => simp [CanApply, Ok, pure, Except.pure]
  | composition p =>
    obtain ⟨l, r⟩ := p
    simp only [ok_bind, orDisjoint_get2, CanApply, storedAs_iff]
    constructor
    · rintro ⟨li, hl, ri, hr, ⟨kl, kr⟩, ⟨hne, h1, h2⟩, a, ha, _⟩
      exact ⟨⟨u, rfl⟩, li, ri, kl, kr, ⟨hl, h1⟩, ⟨hr, h2⟩, hne, ok_compositionOf.1 ⟨a, ha⟩⟩
    · rintro ⟨-, li, ri, kl, kr, ⟨hl, h1⟩, ⟨hr, h2⟩, hne, hf⟩
      obtain ⟨a, ha⟩ := ok_compositionOf.2 hf
      exact ⟨li, hl, ri, hr, ⟨kl, kr⟩, ⟨hne, h1, h2⟩, a, ha, ok_pure _⟩
  | left c r t =>
    simp only [ok_bind, orDisjoint_get2, CanApply, storedAs_iff]
    constructor
    · rintro ⟨ri, hr, ci, hc, ⟨kr, kc⟩, ⟨hne, h1, h2⟩, a, ha, _⟩
      exact ⟨⟨u, rfl⟩, ri, ci, kr, kc, ⟨hr, h1⟩, ⟨hc, h2⟩, hne, (ok_lefthandOf hs h1).1 ⟨a, ha⟩⟩
    · rintro ⟨-, ri, ci, kr, kc, ⟨hr, h1⟩, ⟨hc, h2⟩, hne, hf⟩
      obtain ⟨a, ha⟩ := (ok_lefthandOf (t := t) hs h1).2 hf
      exact ⟨ri, hr, ci, hc, ⟨kr, kc⟩, ⟨hne, h1, h2⟩, a, ha, ok_pure _⟩
  | right c l t =>
    simp only [ok_bind, orDisjoint_get2, CanApply, storedAs_iff]
    constructor
    · rintro ⟨ri, hr, ci, hc, ⟨kr, kc⟩, ⟨hne, h1, h2⟩, a, ha, _⟩
      exact ⟨⟨u, rfl⟩, ri, ci, kr, kc, ⟨hr, h1⟩, ⟨hc, h2⟩, hne, (ok_righthandOf hs h1).1 ⟨a, ha⟩⟩
    · rintro ⟨-, ri, ci, kr, kc, ⟨hr, h1⟩, ⟨hc, h2⟩, hne, hf⟩
      obtain ⟨a, ha⟩ := (ok_righthandOf (t := t) hs h1).2 hf
      exact ⟨ri, hr, ci, hc, ⟨kr, kc⟩, ⟨hne, h1, h2⟩, a, ha, ok_pure _⟩
  | double c t =>
    simp only [ok_bind, orDisjoint_get, CanApply, storedAs_iff]
    constructor
    · rintro ⟨ci, hc, kc, h1, a, ha, _⟩
      exact ⟨⟨u, rfl⟩, ci, kc, ⟨hc, h1⟩, ok_doubleOf.1 ⟨a, ha⟩⟩
    · rintro ⟨-, ci, kc, ⟨hc, h1⟩, hf⟩
      obtain ⟨a, ha⟩ := ok_doubleOf (i := s.concepts.length) (t := t).2 hf
      exact ⟨ci, hc, kc, h1, a, ha, ok_pure _⟩
  | reducesTo r =>
    simp only [ok_bind, orDisjoint_get, CanApply, storedAs_iff]
    constructor
    · rintro ⟨ci, hc, kc, h1, _⟩
      exact ⟨⟨u, rfl⟩, ci, kc, hc, h1⟩
    · rintro ⟨-, ci, kc, hc, h1⟩
      exact ⟨ci, hc, kc, h1, ok_pure _⟩

theorem applyCompose_ok {s : Snap} (hs : RefsInv s) {c : CId} {ch : VChange (CompPair CId)} :
    Ok (s.applyCompose c ch) ↔ CanApply s (c, .compose c ch) := by
  unfold Snap.applyCompose
  cases ch with
  | create p =>
    obtain ⟨l, r⟩ := p
    simp only [ok_bind, orDisjoint_get3, CanApply, storedAs_iff, true_and]
    constructor
    · rintro ⟨ci, hc, li, hl, ri, hr, ⟨kc, kl, kr⟩, ⟨hne, h0, h1, h2⟩, a, ha, _⟩
      obtain ⟨hab, hf⟩ := ok_composeCreate.1 ⟨a, ha⟩
      rw [hs.valid.ids _ _ h0] at hf
      exact ⟨ci, li, ri, kc, kl, kr, ⟨hc, h0⟩, ⟨hl, h1⟩, ⟨hr, h2⟩, hne, hab, hf⟩
    · rintro ⟨ci, li, ri, kc, kl, kr, ⟨hc, h0⟩, ⟨hl, h1⟩, ⟨hr, h2⟩, hne, hab, hf⟩
      rw [← hs.valid.ids _ _ h0] at hf
      obtain ⟨a, ha⟩ := ok_composeCreate.2 ⟨hab, hf⟩
      exact ⟨ci, hc, li, hl, ri, hr, ⟨kc, kl, kr⟩, ⟨hne, h0, h1, h2⟩, a, ha, ok_pure _⟩
  | update b a =>
    obtain ⟨bl, br⟩ := b
    obtain ⟨al, ar⟩ := a
    simp only [ok_bind, orDisjoint_get5, CanApply, storedAs_iff, true_and]
    constructor
    · rintro ⟨ci, hc, bli, hbl, bri, hbr, ali, hal, ari, har, ⟨kc, kbl, kbr, kal, kar⟩,
        ⟨hne, h0, h1, h2, h3, h4⟩, a, ha, _⟩
      obtain ⟨hab, hf⟩ := ok_composeCreate.1 ⟨a, ha⟩
      rw [hs.valid.ids _ _ h0] at hf
      exact ⟨ci, bli, bri, ali, ari, kc, kbl, kbr, kal, kar, ⟨hc, h0⟩, ⟨hbl, h1⟩, ⟨hbr, h2⟩,
        ⟨hal, h3⟩, ⟨har, h4⟩, hne, hab, hf⟩
    · rintro ⟨ci, bli, bri, ali, ari, kc, kbl, kbr, kal, kar, ⟨hc, h0⟩, ⟨hbl, h1⟩, ⟨hbr, h2⟩,
        ⟨hal, h3⟩, ⟨har, h4⟩, hne, hab, hf⟩
      rw [← hs.valid.ids _ _ h0] at hf
      obtain ⟨a, ha⟩ := ok_composeCreate.2 ⟨hab, hf⟩
      exact ⟨ci, hc, bli, hbl, bri, hbr, ali, hal, ari, har, ⟨kc, kbl, kbr, kal, kar⟩,
        ⟨hne, h0, h1, h2, h3, h4⟩, a, ha, ok_pure _⟩
  | remove p =>
    obtain ⟨l, r⟩ := p
    simp only [ok_bind, orDisjoint_get3, CanApply, storedAs_iff, true_and]
    constructor
    · rintro ⟨ci, hc, li, hl, ri, hr, ⟨kc, kl, kr⟩, ⟨hne, h0, h1, h2⟩, a, ha, _⟩
      exact ⟨ci, li, ri, kc, kl, kr, ⟨hc, h0⟩, ⟨hl, h1⟩, ⟨hr, h2⟩, hne,
        ok_composeRemove.1 ⟨a, ha⟩⟩
    · rintro ⟨ci, li, ri, kc, kl, kr, ⟨hc, h0⟩, ⟨hl, h1⟩, ⟨hr, h2⟩, hne, hab⟩
      obtain ⟨a, ha⟩ := ok_composeRemove (l := kl) (r := kr).2 hab
      exact ⟨ci, hc, li, hl, ri, hr, ⟨kc, kl, kr⟩, ⟨hne, h0, h1, h2⟩, a, ha, ok_pure _⟩

theorem makeNoLonger_abstract {c r c' r' : Con} (h : c.makeNoLongerReduceTo r = .ok (c', r')) :
    Abstract c' := by
  unfold Concept.makeNoLongerReduceTo at h
  rw [abstract_iff]
  split at h
  · cases h; exact ⟨_, _, rfl⟩
  · cases h

theorem applyReduce_ok {s : Snap} {c : CId} {ch : VChange CId} :
    Ok (s.applyReduce c ch) ↔ CanApply s (c, .reduce c ch) := by
  unfold Snap.applyReduce
  cases ch with
  | create r =>
    simp only [ok_bind, orDisjoint_get2, CanApply, storedAs_iff, true_and]
    constructor
    · rintro ⟨ci, hc, ri, hr, ⟨kc, kr⟩, ⟨hne, h0, h1⟩, a, ha, _⟩
      exact ⟨ci, ri, kc, kr, ⟨hc, h0⟩, ⟨hr, h1⟩, hne, ok_makeReduceTo.1 ⟨a, ha⟩⟩
    · rintro ⟨ci, ri, kc, kr, ⟨hc, h0⟩, ⟨hr, h1⟩, hne, hab⟩
      obtain ⟨a, ha⟩ := ok_makeReduceTo (r := kr).2 hab
      exact ⟨ci, hc, ri, hr, ⟨kc, kr⟩, ⟨hne, h0, h1⟩, a, ha, ok_pure _⟩
  | update b r =>
    simp only [ok_bind, orDisjoint_get3, CanApply, storedAs_iff, true_and]
    constructor
    · rintro ⟨ci, hc, bi, hb, ri, hr, ⟨kc, kb, kr⟩, ⟨hne, h0, h1, h2⟩, a, ha, _⟩
      exact ⟨ci, bi, ri, kc, kb, kr, ⟨hc, h0⟩, ⟨hb, h1⟩, ⟨hr, h2⟩, hne, ok_makeNoLonger.1 ⟨a, ha⟩⟩
    · rintro ⟨ci, bi, ri, kc, kb, kr, ⟨hc, h0⟩, ⟨hb, h1⟩, ⟨hr, h2⟩, hne, hab⟩
      obtain ⟨⟨c', b'⟩, ha⟩ := ok_makeNoLonger (r := kb).2 hab
      obtain ⟨a', ha'⟩ := ok_makeReduceTo (r := kr).2 (makeNoLonger_abstract ha)
      exact ⟨ci, hc, bi, hb, ri, hr, ⟨kc, kb, kr⟩, ⟨hne, h0, h1, h2⟩, ⟨c', b'⟩, ha, a', ha', ok_pure _⟩
  | remove b =>
    simp only [ok_bind, orDisjoint_get2, CanApply, storedAs_iff, true_and]
    constructor
    · rintro ⟨ci, hc, ri, hr, ⟨kc, kr⟩, ⟨hne, h0, h1⟩, a, ha, _⟩
      exact ⟨ci, ri, kc, kr, ⟨hc, h0⟩, ⟨hr, h1⟩, hne, ok_makeNoLonger.1 ⟨a, ha⟩⟩
    · rintro ⟨ci, ri, kc, kr, ⟨hc, h0⟩, ⟨hr, h1⟩, hne, hab⟩
      obtain ⟨a, ha⟩ := ok_makeNoLonger (r := kr).2 hab
      exact ⟨ci, hc, ri, hr, ⟨kc, kr⟩, ⟨hne, h0, h1⟩, a, ha, ok_pure _⟩

/-- A change can be applied exactly when it fits. -/
theorem applyOne_ok {s : Snap} (hs : RefsInv s) {p : CId × Direct CId} :
    Ok (s.applyOne p) ↔ CanApply s p := by
  obtain ⟨a, dd⟩ := p
  unfold Snap.applyOne
  cases dd with
  | new nd =>
    cases a with
    | unc u => exact applyNew_ok hs
    | com n => simp [Ok, CanApply]
  | compose c ch =>
    by_cases h : a = c
    · subst h; simp only [if_true]; exact applyCompose_ok hs
    · simp [h, Ok, CanApply]
  | reduce c ch =>
    by_cases h : a = c
    · subst h; simp only [if_true]; exact applyReduce_ok
    · simp [h, Ok, CanApply]
  | remove c => simp [Ok, CanApply]

/-- The changes fit one after the other exactly when all of them can be applied. -/
theorem applyAll_ok {s : Snap} (hs : RefsInv s) {L : List (CId × Direct CId)} :
    Ok (s.applyAll L) ↔
      ∀ before p rest g, L = before ++ p :: rest → s.applyAll before = .ok g → CanApply g p := by
  induction L generalizing s with
  | nil => simp [Snap.applyAll, Ok]
  | cons q L ih =>
    simp only [Snap.applyAll, ok_bind]
    constructor
    · rintro ⟨g, hg, hL⟩ before p rest g' e hb
      cases before with
      | nil =>
        simp only [List.nil_append, List.cons.injEq] at e
        cases hb
        rw [← e.1]
        exact (applyOne_ok hs).1 ⟨g, hg⟩
      | cons q' before =>
        simp only [List.cons_append, List.cons.injEq] at e
        obtain ⟨rfl, e⟩ := e
        simp only [Snap.applyAll, Except.bind_eq_ok] at hb
        obtain ⟨g0, h0, hb⟩ := hb
        rw [hg] at h0
        cases h0
        exact (ih ((applyOne_step hg).refsInv hs)).1 hL before p rest g' e hb
    · intro h
      obtain ⟨g, hg⟩ := (applyOne_ok hs).2 (h [] q L s rfl rfl)
      refine ⟨g, hg, (ih ((applyOne_step hg).refsInv hs)).2 ?_⟩
      intro before p rest g' e hb
      refine h (q :: before) p rest g' (by simp [e]) ?_
      simp only [Snap.applyAll, hg]
      exact hb

theorem applyStrings_ok {g : Snap} {L : List (Str × VChange CId)}
    (h : ∀ p ∈ L, ∃ u i, p.2 = .create (.unc u) ∧ g.prev.get? u = some i) : Ok (g.applyStrings L) := by
  induction L generalizing g with
  | nil => exact ⟨g, rfl⟩
  | cons p L ih =>
    obtain ⟨u, i, e, hu⟩ := h p (by simp)
    simp only [Snap.applyStrings, ok_bind]
    refine ⟨{ g with stringMap := g.stringMap.insert p.1 i }, ?_, ih (fun q hq => h q (by simp [hq]))⟩
    simp only [Snap.applyString, e, Snap.convert, hu]
    rfl

/-- A command's changes are committed exactly when each of them fits. -/
theorem execute_ok [HashOrder] {c : Ctx} (h : Settled c) {n : Nat} {t : Str} {x : Except ZiaError Str} {c1 : Ctx}
    (hc : Context.command n t c = .ok (x, c1)) : Ok (Context.execute n c t) ↔
      ∀ before p rest g, c1.delta.order = before ++ p :: rest → c.snap.applyAll before = .ok g →
        CanApply g p := by
  rw [← applyAll_ok h.refs]
  obtain ⟨es, ht⟩ := Context.command_traced n t c x c1 hc
  rw [h.delta] at ht
  obtain ⟨o, e, hst, hr⟩ := Trace.replay h.refs h.prev (Q := fun _ _ => True)
      (P := fun _ _ => True) trivial (fun _ _ _ _ _ _ _ _ _ _ _ => trivial)
      (fun _ _ _ _ _ _ _ _ _ _ _ _ _ _ _ _ _ _ _ _ _ _ => trivial) ht (fun _ _ _ _ _ _ => trivial)
  have hx : Ok (Context.execute n c t) ↔ Ok (c.snap.apply c1.delta) := by
    rw [← es]
    simp only [Context.execute, ok_bind, hc, Context.commit]
    constructor
    · rintro ⟨a, e, c2, h2, _⟩
      cases e
      simp only [Except.bind_eq_ok] at h2
      obtain ⟨g, hg, _⟩ := h2
      exact ⟨g, hg⟩
    · rintro ⟨g, hg⟩
      exact ⟨_, rfl, _, by rw [hg]; rfl, ok_pure _⟩
  rw [hx]
  have ha : c.snap.apply c1.delta = (do
      let s ← c.snap.applyAll c1.delta.order
      let s ← s.applyStrings (← c1.delta.iterString)
      return { s with prev := [] }) := by
    simp [Snap.apply, h.prev]
  rw [ha]
  simp only [ok_bind]
  constructor
  · rintro ⟨g, hg, _⟩; exact ⟨g, hg⟩
  · rintro ⟨g, hg⟩
    obtain ⟨sim, _⟩ := hr g hg
    rw [e]
    rw [e] at hg
    obtain ⟨g', hg'⟩ := applyStrings_ok (g := g) (L := o.string) (fun p hp => by
      obtain ⟨u, e, hu⟩ := hst p hp
      obtain ⟨i, hi⟩ := (sim.dom u).1 hu
      exact ⟨u, i, e, hi⟩)
    exact ⟨g, hg, o.string, rfl, g', hg', ok_pure _⟩

/-- The id of a built-in concept stands for a stored concept. -/
theorem Sim.concreteLoop {s g : Snap} {d : Delta} (h : Sim s d g) {t : CCT} {l : CId}
    {L : List (CId × List CDelta)} {acc : Option (Option CId)}
    (hl : (View.mk s (.base d)).concreteLoop t acc L = .ok (some (some l)))
    (ha : ∀ a, acc = some (some a) → ∃ i, Live s g a i) : ∃ i, Live s g l i := by
  induction L generalizing acc with
  | nil => cases hl; exact ha _ rfl
  | cons q L ih =>
    obtain ⟨a, ds⟩ := q
    simp only [View.concreteLoop, Except.bind_eq_ok] at hl
    obtain ⟨mc, hmc, hl⟩ := hl
    split at hl
    · next e =>
      simp only [Except.bind_eq_ok] at hl
      obtain ⟨acc', hs, hl⟩ := hl
      refine ih hl ?_
      have la : ∃ i, Live s g a i := by
        simp only [View.maybeCct, Except.bind_eq_ok, Except.pure_eq_ok] at hmc
        obtain ⟨o, ho, rfl⟩ := hmc
        cases o with
        | none => cases e
        | some m =>
          have hm : (View.mk s (.base d)).read a = .ok m := by
            simp only [View.read, ho]; rfl
          obtain ⟨i, _, hl, _⟩ := h.read hm
          exact ⟨i, hl⟩
      clear hl
      induction ds generalizing acc with
      | nil => cases hs; exact ha
      | cons e ds ihd =>
        unfold View.concreteStep at hs
        split at hs
        · next heq => cases heq
        · next heq => cases heq; exact ihd (fun b hb => by cases hb; exact la) hs
        · next heq =>
          cases heq
          split at hs
          · exact ihd (fun b hb => by cases hb) hs
          · cases hs
        · next heq => cases heq; exact ihd ha hs
    · exact ih hl ha

theorem Sim.concreteId [HashOrder] {s g : Snap} {d : Delta} (h : Sim s d g) (hs : RefsInv s) {t : CCT} {l : CId}
    (hl : (View.mk s (.base d)).concreteId t = .ok (some l)) : ∃ i, Live s g l i := by
  simp only [View.concreteId, Except.bind_eq_ok] at hl
  obtain ⟨r, hr, hl⟩ := hl
  cases r with
  | some r =>
    cases hl
    exact h.concreteLoop hr (fun _ e => by cases e)
  | none =>
    simp only [Except.pure_eq_ok, Option.map_eq_some_iff] at hl
    obtain ⟨n, hn, rfl⟩ := hl
    simp only [byRight, Option.map_eq_some_iff] at hn
    obtain ⟨⟨i, t'⟩, hf, rfl⟩ := hn
    exact ⟨i, rfl, hs.valid.concrete i t' (List.mem_of_find?_eq_some hf)⟩

/-- Introducing symbols and variables can always be committed. -/
theorem Trace.introduces {s : Snap} (hs : RefsInv s) (hp : s.prev = []) {d : Nested}
    (ht : Trace s Nested.default d) (hQ : ∀ p ∈ d.order, Introduces p) :
    ∃ o g, d = .base o ∧ s.applyAll d.order = .ok g ∧ Sim s o g := by
  induction ht with
  | refl => exact ⟨_, s, rfl, rfl, Sim.start hs hp⟩
  | tail _ hm ih =>
    cases hm with
    | emit dd he hd =>
      have ho := Nested.update_order hd
      obtain ⟨o, g, rfl, hg, sim⟩ := ih (fun p hp => hQ p (by rw [ho]; simp [hp]))
      obtain ⟨o', rfl, rfl, hu⟩ := Nested.update_base hd
      have hq := hQ (dd.subject o.num, dd) (by rw [ho]; simp)
      have hf : CanApply g (dd.subject o.num, dd) := by
        cases he with
        | str t => exact ⟨⟨_, rfl⟩, trivial⟩
        | freeVariable => exact ⟨⟨_, rfl⟩, trivial⟩
        | boundVariable => exact ⟨⟨_, rfl⟩, trivial⟩
        | composition l r m hm hh => exact hq.elim
        | unreduce c r m hm hh => exact hq.elim
        | reduce n c r m nf hnf hc hm hh => cases nf <;> exact hq.elim
        | compose n c l r m mc d hl hr hcl hcr hm hmc hh =>
          unfold composeDelta at hh
          split at hh <;> cases hh <;> exact hq.elim
        | remove c => exact hq.elim
      obtain ⟨g', hg'⟩ := (applyOne_ok sim.refs).2 hf
      refine ⟨o', g', rfl, ?_, sim.step hu (he.sound sim hs) hg'⟩
      rw [ho]
      exact applyAll_snoc.2 ⟨g, hg, hg'⟩
    | @labelled _ _ _ _ _ l _ _ _ t hl h1 h2 h3 =>
      have ho1 := Nested.update_order h1
      have ho2 := Nested.update_order h2
      have ho3 := Nested.update_order h3
      obtain ⟨o, g, rfl, hg, sim⟩ := ih (fun p hp => hQ p (by rw [ho3, ho2, ho1]; simp [hp]))
      obtain ⟨o1, rfl, rfl, hu1⟩ := Nested.update_base h1
      obtain ⟨o2, rfl, rfl, hu2⟩ := Nested.update_base h2
      obtain ⟨o3, rfl, rfl, hu3⟩ := Nested.update_base h3
      simp only [Direct.subject] at *
      obtain ⟨li, ll⟩ := sim.concreteId hs hl
      obtain ⟨g1, e1, p1, c1⟩ : ∃ g1, g.applyOne (.unc o.num, .new (.str t)) = .ok g1 ∧
          (∀ u, g1.prev.get? u = if o.num = u then some g.concepts.length else g.prev.get? u) ∧
          g1.concepts = g.concepts ++ [Concept.mk' g.concepts.length (.str t)] :=
        ⟨_, rfl, fun u => AMap.get?_insert _ _ _ _, rfl⟩
      have s1 := sim.step hu1 trivial e1
      have n1 : o1.num = o.num + 1 := hu1.num
      have st1 : g1.concepts[g.concepts.length]? = some (Concept.mk' g.concepts.length (.str t)) := by
        simp [c1]
      have hr : g1.convert (.unc o.num) = .ok g.concepts.length := by
        simp [Snap.convert, p1]
      obtain ⟨g2, e2, p2, c2⟩ : ∃ g2,
          g1.applyOne (.unc o1.num, .new (.reducesTo (.unc o.num))) = .ok g2 ∧
          (∀ u, g2.prev.get? u = if o1.num = u then some g1.concepts.length else g1.prev.get? u) ∧
          g2.concepts = g1.concepts.set g.concepts.length
            (reductionTo g1.concepts.length (Concept.mk' g.concepts.length (.str t))).2 ++
            [(reductionTo g1.concepts.length (Concept.mk' g.concepts.length (.str t))).1] := by
        refine ⟨g1.pushNew o1.num _ _, ?_, fun u => AMap.get?_insert _ _ _ _, rfl⟩
        simp only [Snap.applyOne, Snap.applyNew, Except.bind_eq_ok]
        exact ⟨_, hr, _, by rw [st1]; rfl, rfl⟩
      have s2 := s1.step hu2 trivial e2
      have l1 : g1.concepts.length = g.concepts.length + 1 := by simp [c1]
      have l2 : g2.concepts.length = g.concepts.length + 2 := by simp [c2, l1]
      have lil : li < g.concepts.length := by
        cases l with
        | com n => obtain ⟨rfl, h⟩ := ll; exact Nat.lt_of_lt_of_le h sim.base
        | unc u => exact sim.refs.prev _ _ ll
      have hf : CanApply g2 (.unc o2.num, .new (.right (.unc o1.num) l none)) := by
        refine ⟨⟨_, rfl⟩, li, g1.concepts.length, g2.concepts[li]'(by omega),
          (reductionTo g1.concepts.length (Concept.mk' g.concepts.length (.str t))).1, ⟨?_, by simp⟩,
          ⟨?_, ?_⟩, by omega, rfl⟩
        · cases l with
          | com n => exact ll.1
          | unc u =>
            have hu : u < o.num := (sim.dom u).2 ⟨_, ll⟩
            simp only [p2, p1]
            rw [if_neg (by omega), if_neg (by omega)]
            exact ll
        · simp [p2]
        · simp [c2]
      obtain ⟨g3, e3⟩ := (applyOne_ok s2.refs).2 hf
      refine ⟨o3, g3, rfl, ?_, s2.step hu3 (by intro n e; cases e) e3⟩
      rw [ho3, ho2, ho1]
      exact applyAll_snoc.2 ⟨g2, applyAll_snoc.2 ⟨g1, applyAll_snoc.2 ⟨g, hg, e1⟩, e2⟩, e3⟩

end Zia

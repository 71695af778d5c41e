import Verif.Lemmas.Sim
import Verif.Lemmas.Trace

/-!
# Commands replayed on the store

Every change that a command adds is replayed on the store, together with what the code checked before
adding it.
-/

namespace Zia

theorem applyIndirect_id {m m' : Mixed} {i : Indirect CId} (h : m.applyIndirect i = .ok m') :
    m'.id = m.id := by
  cases m with
  | prev c l r f u red => cases i <;> (cases h; rfl)
  | unc c =>
    simp only [Mixed.applyIndirect, Except.bind_eq_ok, Except.pure_eq_ok] at h
    obtain ⟨c', h, rfl⟩ := h
    cases i with
    | composedOf p =>
      simp only [Concept.applyIndirect] at h
      split at h
      · cases h; rfl
      · cases h
    | lefthandOf x y =>
      simp only [Concept.applyIndirect, Except.bind_eq_ok, Except.pure_eq_ok] at h
      obtain ⟨_, _, rfl⟩ := h; rfl
    | righthandOf x y =>
      simp only [Concept.applyIndirect, Except.bind_eq_ok, Except.pure_eq_ok] at h
      obtain ⟨_, _, rfl⟩ := h; rfl
    | noLongerLefthandOf x => cases h; rfl
    | noLongerRighthandOf x => cases h; rfl
    | reducesFrom x => cases h; rfl
    | noLongerReducesFrom x => cases h; rfl

theorem changeReduction_id {m m' : Mixed} {ch : VChange CId} (h : m.changeReduction ch = .ok m') :
    m'.id = m.id := by
  cases m with
  | prev c l r f u red => cases ch <;> (cases h; rfl)
  | unc c =>
    simp only [Mixed.changeReduction, Except.bind_eq_ok, Except.pure_eq_ok] at h
    obtain ⟨c', h, rfl⟩ := h
    unfold Concept.changeReduction at h
    split at h
    · split at h
      · cases h; rfl
      · cases h; rfl
      · split at h
        · cases h; rfl
        · cases h
    · cases h; rfl

theorem readSteps_id {a : CId} {L : List CDelta} {o : Option Mixed} {m : Mixed}
    (h : View.readSteps a o L = .ok (some m)) (ho : ∀ x, o = some x → x.id = a) : m.id = a := by
  induction L generalizing o with
  | nil => cases h; exact ho _ rfl
  | cons e L ih =>
    simp only [View.readSteps, Except.bind_eq_ok] at h
    obtain ⟨o1, h1, h2⟩ := h
    refine ih h2 ?_
    rintro x rfl
    cases e with
    | indirect i =>
      simp only [View.readStep, Except.bind_eq_ok, Except.pure_eq_ok] at h1
      obtain ⟨m0, e0, m', e1, e2⟩ := h1
      cases e2
      rw [applyIndirect_id e1]
      cases o with
      | none => cases e0
      | some y => cases e0; exact ho _ rfl
    | direct dd =>
      cases dd with
      | new nd =>
        cases o with
        | some y => simp [View.readStep] at h1
        | none =>
          simp only [View.readStep] at h1
          cases h1
          cases nd <;> rfl
      | compose c ch => simp [View.readStep] at h1
      | remove y =>
        simp only [View.readStep] at h1
        split at h1 <;> cases h1
      | reduce u ch =>
        simp only [View.readStep] at h1
        split at h1
        · simp only [Except.bind_eq_ok, Except.pure_eq_ok] at h1
          obtain ⟨m0, e0, m', e1, e2⟩ := h1
          cases e2
          rw [changeReduction_id e1]
          cases o with
          | none => cases e0
          | some y => cases e0; exact ho _ rfl
        · cases h1

theorem stored_id {s : Snap} (h : RefsInv s) {a : CId} {m : Mixed} (hm : stored s a = some m) :
    m.id = a := by
  cases a with
  | unc u => cases hm
  | com n =>
    simp only [stored, Option.map_eq_some_iff] at hm
    obtain ⟨c, hc, rfl⟩ := hm
    simp [Mixed.ofCon, Mixed.id, h.valid.ids n c hc]

/-- Without a removal nothing disappears. -/
theorem readSteps_some {a : CId} {L : List CDelta} {m : Mixed} {o : Option Mixed}
    (h : View.readSteps a (some m) L = .ok o) (hr : ∀ x, .direct (.remove x) ∉ L) :
    o.isSome := by
  induction L generalizing m with
  | nil => cases h; rfl
  | cons e L ih =>
    simp only [View.readSteps, Except.bind_eq_ok] at h
    obtain ⟨o1, h1, h2⟩ := h
    have hs : o1.isSome := by
      cases e with
      | indirect i =>
        simp only [View.readStep, Except.bind_eq_ok, Except.pure_eq_ok] at h1
        obtain ⟨m0, e0, m', e1, rfl⟩ := h1
        rfl
      | direct dd =>
        cases dd with
        | new nd => simp [View.readStep] at h1
        | compose c ch => simp [View.readStep] at h1
        | remove y => exact (hr y (by simp)).elim
        | reduce u ch =>
          simp only [View.readStep] at h1
          split at h1
          · simp only [Except.bind_eq_ok, Except.pure_eq_ok] at h1
            obtain ⟨m0, e0, m', e1, rfl⟩ := h1
            rfl
          · cases h1
    obtain ⟨m1, rfl⟩ := Option.isSome_iff_exists.1 hs
    exact ih h2 (fun x hx => hr x (by simp [hx]))

/-- What is read is what the replayed changes give. -/
theorem Sim.readSteps {s g : Snap} {d : Delta} (h : Sim s d g) {a : CId} {m : Mixed}
    (hm : (View.mk s (.base d)).read a = .ok m) :
    View.readSteps a (stored s a) (d.entries a) = .ok (some m) := by
  simp only [View.read, View.maybeRead, Nested.getConcept, getConcept_eq, Except.bind_eq_ok] at hm
  obtain ⟨o, h1, h2⟩ := hm
  have h1' : o = none ∧ stored s a = none ∨
      View.readSteps a (stored s a) (d.entries a) = .ok o ∨
      (d.entries a = [] ∧ o = none) := by
    cases hg : d.concept.get? a with
    | none => rw [hg] at h1; cases h1; exact .inr (.inr ⟨by simp [Delta.entries, hg], rfl⟩)
    | some ds =>
      rw [hg] at h1
      exact .inr (.inl (by simp only [Delta.entries, hg, Option.getD_some]; exact h1))
  cases o with
  | some x =>
    cases h2
    rcases h1' with ⟨e, _⟩ | h1 | ⟨_, e⟩
    · cases e
    · exact h1
    · cases e
  | none =>
    simp only at h2
    cases hs : stored s a with
    | none => rw [hs] at h2; cases h2
    | some m0 =>
      rw [hs] at h2
      cases h2
      rcases h1' with ⟨_, e⟩ | h1 | ⟨e, _⟩
      · rw [hs] at e; cases e
      · rw [hs] at h1
        have := readSteps_some h1 (h.noRemove a)
        cases this
      · rw [e]; rfl

/-- A concept that can be read is stored after the changes, with the same reduction, composition,
string and type. -/
theorem Sim.read {s g : Snap} {d : Delta} (h : Sim s d g) {a : CId} {m : Mixed}
    (hm : (View.mk s (.base d)).read a = .ok m) :
    ∃ i sp, Live s g a i ∧ specs g i = some sp ∧ Agree g m.core sp :=
  h.core a m (h.readSteps hm)

theorem Sim.read_id {s g : Snap} {d : Delta} (h : Sim s d g) (hs : RefsInv s) {a : CId} {m : Mixed}
    (hm : (View.mk s (.base d)).read a = .ok m) : m.id = a :=
  readSteps_id (h.readSteps hm) (fun _ hx => stored_id hs hx)

theorem Sim.read_sound {s g : Snap} {d : Delta} (h : Sim s d g) {a : CId} {m : Mixed}
    (hm : (View.mk s (.base d)).read a = .ok m) (n : Nat) (e : a = .com n) :
    n < s.concepts.length := by
  obtain ⟨i, sp, hl, _⟩ := h.read hm
  subst e
  exact hl.2

/-- What a command may add is sound. -/
theorem Emit.sound {s g : Snap} {d : Delta} (h : Sim s d g) (hs : RefsInv s) {dd : Direct CId}
    (he : Emit ⟨s, .base d⟩ dd) : dd.Sound s := by
  cases he with
  | str t => trivial
  | freeVariable => trivial
  | boundVariable => trivial
  | composition l r m hm hh => trivial
  | unreduce c r m hm hh => exact h.read_sound hm
  | reduce n c r m nf hnf hc hm hh => exact h.read_sound hm
  | compose n c l r m mc d hl hr hcl hcr hm hmc hh =>
    have hid := h.read_id hs hm
    have hsd := h.read_sound hm
    rw [hid] at hh
    unfold composeDelta at hh
    split at hh <;> first | (cases hh; done) | (cases hh; exact hsd)
  | remove c => trivial

theorem Nested.update_base {d : Delta} {d' : Nested} {dd : Direct CId} {id : CId}
    (h : (Nested.base d).update dd = .ok (d', id)) :
    ∃ o, d' = .base o ∧ id = dd.subject d.num ∧ Updated d o dd := by
  simp only [Nested.update, Except.bind_eq_ok, Except.pure_eq_ok] at h
  obtain ⟨⟨o, i⟩, h1, h2⟩ := h
  cases h2
  obtain ⟨e, hu⟩ := Delta.update_eq_ok h1
  exact ⟨o, rfl, e, hu⟩

theorem Nested.update_order {d d' : Nested} {dd : Direct CId} {id : CId}
    (h : d.update dd = .ok (d', id)) : d'.order = d.order ++ [(id, dd)] := by
  simp only [Nested.update, Except.bind_eq_ok, Except.pure_eq_ok] at h
  obtain ⟨⟨o', i'⟩, h1, h2⟩ := h
  cases h2
  obtain ⟨e, hu⟩ := Delta.update_eq_ok h1
  cases d with
  | base o => simp only [Nested.setOverlay, Nested.order, hu.order, Nested.overlay, e]
  | over i o =>
    simp only [Nested.setOverlay, Nested.order, hu.order, Nested.overlay, e, List.append_assoc]

/-- Replaying one change. -/
structure Replay (d d' : Delta) (g g' : Snap) (dd : Direct CId) : Prop where
  updated : Updated d d' dd
  applied : g.applyOne (dd.subject d.num, dd) = .ok g'

theorem applyAll_snoc {s g : Snap} {L : List (CId × Direct CId)} {p : CId × Direct CId} :
    s.applyAll (L ++ [p]) = .ok g ↔ ∃ g0, s.applyAll L = .ok g0 ∧ g0.applyOne p = .ok g := by
  rw [applyAll_append, Except.bind_eq_ok]
  simp [Snap.applyAll, Except.bind_eq_ok]

/-- Every pending change of the string table names a new concept. -/
def Strings (d : Delta) : Prop := ∀ p ∈ d.string, ∃ u, p.2 = .create (.unc u) ∧ u < d.num

theorem Strings.start : Strings (Delta.empty 0) := by
  intro p hp
  cases hp

theorem Strings.step {d d' : Delta} {dd : Direct CId} (h : Strings d) (hu : Updated d d' dd) :
    Strings d' := by
  have le : d.num ≤ d'.num := by rw [hu.num]; exact Nat.le_add_right _ _
  have old : ∀ p ∈ d.string, ∃ u, p.2 = .create (.unc u) ∧ u < d'.num := fun p hp => by
    obtain ⟨u, e, hl⟩ := h p hp
    exact ⟨u, e, Nat.lt_of_lt_of_le hl le⟩
  by_cases hs : ∃ t, dd = .new (.str t)
  · obtain ⟨t, rfl⟩ := hs
    have lt : d.num < d'.num := by rw [hu.num]; simp [Direct.uses]
    rcases hu.string.1 t rfl with ⟨_, e⟩ | ⟨b, hb, _⟩
    · intro p hp
      rw [e] at hp
      rcases mem_insert_or hp with rfl | hp
      · exact ⟨d.num, rfl, lt⟩
      · exact old p hp
    · obtain ⟨u, e, _⟩ := h _ (AMap.mem_of_get? _ _ _ hb)
      cases e
  · intro p hp
    rw [hu.string.2 (fun t e => hs ⟨t, e⟩)] at hp
    exact old p hp

/-- Induction over the changes of a command, replayed on the store. -/
theorem Trace.replay {s : Snap} (hs : RefsInv s) (hp : s.prev = [])
    {Q : Snap → CId × Direct CId → Prop} {P : Delta → Snap → Prop}
    (h0 : P (Delta.empty 0) s)
    (emit : ∀ d g d' g' dd, Sim s d g → P d g → Emit ⟨s, .base d⟩ dd → Q g (dd.subject d.num, dd) →
      Replay d d' g g' dd → Sim s d' g' → P d' g')
    (lab : ∀ [HashOrder] d g d1 g1 d2 g2 d3 g3 t l, Sim s d g → P d g →
      (View.mk s (.base d)).concreteId .label = .ok (some l) →
      Q g (.unc d.num, .new (.str t)) → Q g1 (.unc d1.num, .new (.reducesTo (.unc d.num))) →
      Q g2 (.unc d2.num, .new (.right (.unc d1.num) l none)) →
      Replay d d1 g g1 (.new (.str t)) → Sim s d1 g1 →
      Replay d1 d2 g1 g2 (.new (.reducesTo (.unc d.num))) → Sim s d2 g2 →
      Replay d2 d3 g2 g3 (.new (.right (.unc d1.num) l none)) → Sim s d3 g3 → P d3 g3)
    {d : Nested} (ht : Trace s Nested.default d) 
    (hQ : ∀ g p rest before, d.order = before ++ p :: rest → s.applyAll before = .ok g → Q g p) :
    ∃ o, d = .base o ∧ Strings o ∧ ∀ g, s.applyAll d.order = .ok g → Sim s o g ∧ P o g := by
  induction ht with
  | refl =>
    refine ⟨_, rfl, Strings.start, ?_⟩
    intro g hg
    cases hg
    exact ⟨Sim.start hs hp, h0⟩
  | tail _ hm ih =>
    cases hm with
    | emit dd he hd =>
      have ho := Nested.update_order hd
      obtain ⟨o, rfl, hst, ih⟩ := ih (fun g p rest before e hg =>
        hQ g p _ before (by rw [ho, e, List.append_assoc, List.cons_append]) hg)
      obtain ⟨o', rfl, rfl, hu⟩ := Nested.update_base hd
      refine ⟨o', rfl, hst.step hu, fun g' hg => ?_⟩
      rw [ho] at hg
      obtain ⟨g, hg, ha⟩ := applyAll_snoc.1 hg
      have hq := hQ g (dd.subject o.num, dd) [] _ ho hg
      obtain ⟨sim, hP⟩ := ih g hg
      have sim' := sim.step hu (he.sound sim hs) ha
      exact ⟨sim', emit _ _ _ _ _ sim hP he hq ⟨hu, ha⟩ sim'⟩
    | labelled t hl h1 h2 h3 =>
      have ho1 := Nested.update_order h1
      have ho2 := Nested.update_order h2
      have ho3 := Nested.update_order h3
      obtain ⟨o, rfl, hst, ih⟩ := ih (fun g p rest before e hg =>
        hQ g p _ before (by
          rw [ho3, ho2, ho1, e]
          simp only [List.append_assoc, List.cons_append]
          rfl) hg)
      obtain ⟨o1, rfl, rfl, hu1⟩ := Nested.update_base h1
      obtain ⟨o2, rfl, rfl, hu2⟩ := Nested.update_base h2
      obtain ⟨o3, rfl, rfl, hu3⟩ := Nested.update_base h3
      refine ⟨o3, rfl, ((hst.step hu1).step hu2).step hu3, fun g3 hg3 => ?_⟩
      rw [ho3] at hg3
      obtain ⟨g2, hg2, ha3⟩ := applyAll_snoc.1 hg3
      obtain ⟨g1, hg1, ha2⟩ := applyAll_snoc.1 (ho2 ▸ hg2)
      obtain ⟨g, hg, ha1⟩ := applyAll_snoc.1 (ho1 ▸ hg1)
      obtain ⟨sim, hP⟩ := ih g hg
      have sim1 := sim.step hu1 trivial ha1
      have sim2 := sim1.step hu2 trivial ha2
      have sim3 := sim2.step hu3 (by intro n e; cases e) ha3
      exact ⟨sim3, lab _ _ _ _ _ _ _ _ _ _ sim hP hl
        (hQ g _ _ _ (by
          rw [ho3, ho2, ho1, List.append_assoc, List.append_assoc, List.singleton_append]; rfl) hg)
        (hQ g1 _ _ _ (by rw [ho3, ho2, List.append_assoc, List.singleton_append]; rfl) hg1)
        (hQ g2 _ _ _ (by rw [ho3]; rfl) hg2)
        ⟨hu1, ha1⟩ sim1 ⟨hu2, ha2⟩ sim2 ⟨hu3, ha3⟩ sim3⟩

end Zia

import Verif.Lemmas.Run
import Verif.Lemmas.Links
import Verif.Spec.History
import Verif.Boot0

/-!
# Induction over histories
-/

namespace Zia

open Spec

/-- A lawful conversion of a pending id. -/
theorem convert_unc {s : Snap} {u i : Nat} (h : s.convert (.unc u) = .ok i) :
    s.prev.get? u = some i := by
  simp only [Snap.convert] at h
  cases hg : s.prev.get? u with
  | none => rw [hg] at h; cases h
  | some j => rw [hg] at h; cases h; rfl

/-- Applying the changes of the string table only changes the string table. -/
theorem applyStrings_only {g g' : Snap} {L : List (Str × VChange CId)}
    (h : g.applyStrings L = .ok g') : g' = { g with stringMap := g'.stringMap } := by
  induction L generalizing g with
  | nil => cases h; rfl
  | cons p L ih =>
    simp only [Snap.applyStrings, Except.bind_eq_ok] at h
    obtain ⟨g1, h1, h2⟩ := h
    have e := ih h2
    have e1 : g1 = { g with stringMap := g1.stringMap } := by
      unfold Snap.applyString at h1
      split at h1
      · simp only [Except.bind_eq_ok] at h1
        obtain ⟨a, _, b, _, h1⟩ := h1
        split at h1
        · cases h1; rfl
        · cases h1
      · simp only [Except.bind_eq_ok, Except.pure_eq_ok] at h1
        obtain ⟨a, _, rfl⟩ := h1
        rfl
      · simp only [Except.bind_eq_ok] at h1
        obtain ⟨b, _, h1⟩ := h1
        split at h1
        · cases h1; rfl
        · cases h1
    rw [e1] at e
    exact e

/-- New names keep the table within the store. -/
theorem applyStrings_refs {g g' : Snap} {L : List (Str × VChange CId)} (hg : RefsInv g)
    (hL : ∀ p ∈ L, ∃ u, p.2 = .create (.unc u)) (h : g.applyStrings L = .ok g') : RefsInv g' := by
  induction L generalizing g with
  | nil => cases h; exact hg
  | cons p L ih =>
    simp only [Snap.applyStrings, Except.bind_eq_ok] at h
    obtain ⟨g1, h1, h2⟩ := h
    refine ih ?_ (fun p hp => hL p (List.mem_cons_of_mem _ hp)) h2
    obtain ⟨u, e⟩ := hL p (by simp)
    unfold Snap.applyString at h1
    rw [e] at h1
    simp only [Except.bind_eq_ok, Except.pure_eq_ok] at h1
    obtain ⟨i, hi, rfl⟩ := h1
    obtain ⟨a, b, c, d⟩ := refsInv_iff.1 hg
    refine refsInv_iff.2 ⟨a, ?_, c, d⟩
    intro t j hj
    rcases mem_insert_or hj with hj | hj
    · cases hj; exact d _ _ (convert_unc hi)
    · exact b _ _ hj

/-- A decidable form of the validity of references. -/
def refsCheck (s : Snap) : Bool :=
  (List.range s.concepts.length).all (fun i => match s.concepts[i]? with
    | none => true
    | some c => decide (c.id = i) && (refs c).all (· < s.concepts.length)) &&
  s.stringMap.all (fun p => decide (p.2 < s.concepts.length)) &&
  s.concrete.all (fun p => decide (p.1 < s.concepts.length))

theorem refsValid_of_check {s : Snap} (h : refsCheck s = true) : RefsValid s := by
  simp only [refsCheck, Bool.and_eq_true, List.all_eq_true, List.mem_range, decide_eq_true_eq] at h
  obtain ⟨⟨h1, h2⟩, h3⟩ := h
  have key : ∀ i c, s.concepts[i]? = some c →
      c.id = i ∧ ∀ x ∈ refs c, x < s.concepts.length := by
    intro i c hi
    have := h1 i (List.getElem?_eq_some_iff.1 hi).1
    rw [hi] at this
    simpa [List.all_eq_true] using this
  exact ⟨fun i c hi => (key i c hi).1, fun i c hi => (key i c hi).2, fun t i hi => h2 _ hi,
    fun i t hi => h3 _ hi⟩

theorem boot0_refs : RefsInv boot0.snap := by
  refine ⟨refsValid_of_check (by decide +kernel), ?_⟩
  intro u n h
  have : boot0.snap.prev = [] := rfl
  rw [this] at h
  cases h

/-- What `commit` makes of a replayed trace. -/
theorem apply_base {s s' : Snap} {o : Delta} (h : s.apply (.base o) = .ok s') :
    ∃ g g', s.applyAll o.order = .ok g ∧ g.applyStrings o.string = .ok g' ∧
      s' = { g' with prev := [] } := by
  unfold Snap.apply at h
  split at h
  · cases h
  · simp only [Except.bind_eq_ok, Except.pure_eq_ok, Nested.iterString, Nested.order] at h
    obtain ⟨g, h1, L, h2, g', h3, rfl⟩ := h
    cases h2
    exact ⟨g, g', h1, h3, rfl⟩

/-- The command of a step. -/
theorem execute_command [HashOrder] {n : Nat} {c c' : Ctx} {s r : Str}
    (h : Context.execute n c s = .ok (r, c')) : ∃ x c1, Context.command n s c = .ok (x, c1) ∧
      Trace c.snap c.delta c1.delta ∧ c.snap.apply c1.delta = .ok c'.snap ∧
      c'.delta = Nested.default ∧ c'.vars = [] ∧ c'.bound = [] ∧
      r = (match x with | .ok a => a | .error e => e.message) := by
  simp only [Context.execute, Except.bind_eq_ok] at h
  obtain ⟨⟨x, c1⟩, h1, c2, h2, h3⟩ := h
  have ht := Context.command_traced n s c x c1 h1
  obtain ⟨e1, t⟩ := ht
  simp only [Context.commit, Except.bind_eq_ok, Except.pure_eq_ok] at h2
  obtain ⟨s2, h2, rfl⟩ := h2
  cases h3
  rw [e1] at h2
  exact ⟨x, c1, h1, t, h2, rfl, rfl, rfl, rfl⟩

/-- What every context of a history has. -/
structure Settled (c : Ctx) : Prop where
  refs : RefsInv c.snap
  prev : c.snap.prev = []
  delta : c.delta = Nested.default
  vars : c.vars = []
  bound : c.bound = []

theorem RefsInv.noPrev {g : Snap} (h : RefsInv g) : RefsInv { g with prev := [] } := by
  obtain ⟨a, b, c, _⟩ := refsInv_iff.1 h
  exact refsInv_iff.2 ⟨a, b, c, fun u n e => by cases e⟩

theorem History.settled {Q : Snap → CId × Direct CId → Prop} {c : Ctx} (h : History Q c) : Settled c := by
  induction h with
  | start h =>
    rw [boot0_eq] at h
    cases h
    exact ⟨boot0_refs, rfl, rfl, rfl, rfl⟩
  | shared ca _ ih => exact ⟨ih.refs, ih.prev, ih.delta, ih.vars, ih.bound⟩
  | step _ h _ ih =>
    obtain ⟨x, c1, _, ht, ha, hd, hv, hb, _⟩ := execute_command h
    rw [ih.delta] at ht
    obtain ⟨o, e, hst, hr⟩ := Trace.replay ih.refs ih.prev (Q := fun _ _ => True)
      (P := fun _ _ => True) trivial (fun _ _ _ _ _ _ _ _ _ _ _ => trivial)
      (fun _ _ _ _ _ _ _ _ _ _ _ _ _ _ _ _ _ _ _ _ _ _ => trivial) ht (fun _ _ _ _ _ _ => trivial)
    rw [e] at ha hr
    obtain ⟨g, g', h1, h2, e'⟩ := apply_base ha
    refine ⟨?_, by rw [e'], hd, hv, hb⟩
    rw [e']
    exact (applyStrings_refs (hr g h1).1.refs
      (fun p hp => (hst p hp).imp fun u hu => hu.1) h2).noPrev

/-- Induction over histories: `R` holds of the store between commands, `P s d g` while a command has
the pending changes `d`, which would make `g` of the store `s`. -/
theorem History.induct {Q : Snap → CId × Direct CId → Prop} {R : Snap → Prop}
    (P : Snap → Delta → Snap → Prop) (base : R boot0.snap)
    (init : ∀ s, RefsInv s → s.prev = [] → R s → P s (Delta.empty 0) s)
    (emit : ∀ s d g d' g' dd, RefsInv s → s.prev = [] → R s → Sim s d g → P s d g →
      Emit ⟨s, .base d⟩ dd → Q g (dd.subject d.num, dd) → Replay d d' g g' dd → Sim s d' g' →
      P s d' g')
    (lab : ∀ [HashOrder] s d g d1 g1 d2 g2 d3 g3 t l, RefsInv s → s.prev = [] → R s → Sim s d g → P s d g →
      (View.mk s (.base d)).concreteId .label = .ok (some l) →
      Q g (.unc d.num, .new (.str t)) → Q g1 (.unc d1.num, .new (.reducesTo (.unc d.num))) →
      Q g2 (.unc d2.num, .new (.right (.unc d1.num) l none)) →
      Replay d d1 g g1 (.new (.str t)) → Sim s d1 g1 →
      Replay d1 d2 g1 g2 (.new (.reducesTo (.unc d.num))) → Sim s d2 g2 →
      Replay d2 d3 g2 g3 (.new (.right (.unc d1.num) l none)) → Sim s d3 g3 → P s d3 g3)
    (done : ∀ s d g g', RefsInv s → s.prev = [] → R s → Sim s d g → Strings d → P s d g →
      g.applyStrings d.string = .ok g' → R { g' with prev := [] })
    {c : Ctx} (h : History Q c) : R c.snap := by
  induction h with
  | start h => rw [boot0_eq] at h; cases h; exact base
  | shared ca _ ih => exact ih
  | step hc h hQ ih =>
    obtain ⟨x, c1, hcmd, ht, ha, _⟩ := execute_command h
    have hs := History.settled hc
    rw [hs.delta] at ht
    obtain ⟨o, e, hst, hr⟩ := Trace.replay (Q := Q) (P := P _) hs.refs hs.prev
      (init _ hs.refs hs.prev ih) (fun _ _ _ _ _ => emit _ _ _ _ _ _ hs.refs hs.prev ih)
      (fun _ _ _ _ _ _ _ _ _ _ => lab _ _ _ _ _ _ _ _ _ _ _ hs.refs hs.prev ih) ht
      (hQ _ _ hcmd)
    rw [e] at ha hr
    obtain ⟨g, g', h1, h2, e'⟩ := apply_base ha
    obtain ⟨sim, hP⟩ := hr g h1
    rw [e']
    exact done _ _ _ _ hs.refs hs.prev ih sim hst hP h2

/-- Invariants that each single change keeps. -/
theorem History.invariant {Q : Snap → CId × Direct CId → Prop} {R : Snap → Prop} (base : R boot0.snap)
    (step : ∀ g g' p, RefsInv g → R g → Q g p → Step g p g' → R g')
    (rest : ∀ g m pr, R g → R { g with stringMap := m, prev := pr })
    {c : Ctx} (h : History Q c) : R c.snap := by
  refine History.induct (Q := Q) (fun _ _ g => R g) base (fun _ _ _ h => h) ?_ ?_ ?_ h
  · intro s d g d' g' dd _ _ _ sim hP _ hq re _
    exact step _ _ _ sim.refs hP hq (applyOne_step re.applied)
  · intro _ s d g d1 g1 d2 g2 d3 g3 t l _ _ _ sim hP _ q1 q2 q3 r1 s1 r2 s2 r3 s3
    exact step _ _ _ s2.refs (step _ _ _ s1.refs (step _ _ _ sim.refs hP q1
      (applyOne_step r1.applied)) q2 (applyOne_step r2.applied)) q3 (applyOne_step r3.applied)
  · intro s d g g' _ _ _ _ _ hP hst
    rw [applyStrings_only hst]
    exact rest g _ _ hP

/-- A new context is reachable. -/
theorem Reachable.new [HashOrder] {n : Nat} {c : Ctx} (h : Context.new n = .ok c) : Reachable c := by
  simp only [Context.new, Except.bind_eq_ok] at h
  obtain ⟨c0, h0, h⟩ := h
  have start : Reachable c0 := .start h0
  clear h0
  generalize Context.setupCommands = L at h
  induction L generalizing c0 with
  | nil => cases h; exact start
  | cons s L ih =>
    rw [List.foldlM_cons, Except.bind_eq_ok] at h
    obtain ⟨c1, h1, h2⟩ := h
    refine ih c1 ?_ h2
    simp only [Context.setupStep, Except.bind_eq_ok] at h1
    obtain ⟨⟨r, c2⟩, h1, h3⟩ := h1
    dsimp only at h3
    split at h3
    · cases h3; exact .step start h1 (fun _ _ _ _ _ _ _ _ _ => trivial)
    · cases h3

end Zia

import Verif.Lemmas.Labels
import Verif.Spec.Nature

/-!
# What a concept is does not change
-/

namespace Zia

open Spec

/-- The nature, of an own part. -/
def natOf : Specific Nat → Nature
  | .concrete t => .builtin t
  | .str t => .text t
  | .abst (.leaf .freeVariable) _ => .freeVariable
  | .abst (.leaf .boundVariable) _ => .boundVariable
  | .abst _ _ => .ordinary

theorem nature_eq (k : Con) : nature k = natOf k.spec := by
  unfold nature natOf
  split <;> simp_all

/-- A variable. -/
def VarSpec (sp : Specific Nat) : Prop := natOf sp = .freeVariable ∨ natOf sp = .boundVariable

/-- The concept whose parts a change sets. -/
def composed : CId × Direct CId → Option CId
  | (_, .compose c _) => some c
  | (_, .new (.left c _ _)) => some c
  | (_, .new (.right c _ _)) => some c
  | (_, .new (.double c _)) => some c
  | _ => none

@[grind =] theorem natOf_comp (a b : Nat) (f g : List Nat) (red : Option Nat) :
    natOf (.abst (.comp a b f g) red) = .ordinary := rfl

@[grind =] theorem natOf_constant (red : Option Nat) : natOf (.abst (.leaf .constant) red) = .ordinary := rfl

theorem natOf_red (mc : MComp Nat) (red red' : Option Nat) :
    natOf (.abst mc red) = natOf (.abst mc red') := by
  cases mc with
  | comp => rfl
  | leaf l => cases l <;> rfl

theorem natOf_abst {mc : MComp Nat} {red : Option Nat} (h : ¬ VarSpec (.abst mc red)) :
    natOf (.abst mc red) = .ordinary := by
  unfold VarSpec at h
  cases mc with
  | comp => rfl
  | leaf l => cases l <;> simp_all [natOf]

/-- Concepts keep their nature. -/
theorem Step.keepNature {s s' : Snap} {p : CId × Direct CId} (st : Step s p s') {i : Nat} {k : Con}
    (hk : s.concepts[i]? = some k)
    (hv : VarSpec k.spec → ∀ c, composed p = some c → s.convert c ≠ .ok i) :
    ∃ k', s'.concepts[i]? = some k' ∧ natOf k'.spec = natOf k.spec := by
  cases st with
  | left u comp r t ri k' cr ck red f b hr hk' hne hcr hck hs =>
    have := hv
    simp only [composed] at hv
    grind [natOf_abst]
  | right u comp r t ri k' cr ck red f b hr hk' hne hcr hck hs =>
    simp only [composed] at hv
    grind [natOf_abst]
  | double => simp only [composed] at hv; grind [natOf_abst]
  | composeCreate => simp only [composed, compOf] at hv ⊢; grind [natOf_abst]
  | composeUpdate => simp only [composed, compOf] at hv ⊢; grind [natOf_abst]
  | composeRemove => simp only [composed] at hv ⊢; grind [natOf_abst]
  | reduceCreate c r k ri ck cr mc red =>
    have := natOf_red mc red (some cr.id); grind
  | reduceUpdate c b a k bi ai ck cb ca mc red =>
    have := natOf_red mc red (some ca.id); grind
  | reduceRemove c b k bi ck cb mc red =>
    have := natOf_red mc red none; grind
  | _ => grind

/-! ## Within a command -/

/-- The stored concept that a read one changes. -/
def Mixed.under : Mixed → Option Con
  | .prev c _ _ _ _ _ => some c
  | .unc _ => none

theorem changeReduction_under {m m' : Mixed} {ch : VChange CId} (h : m.changeReduction ch = .ok m') :
    m'.under = m.under := by
  cases m with
  | prev c l r f u red => cases ch <;> (cases h; rfl)
  | unc c =>
    simp only [Mixed.changeReduction, Except.bind_eq_ok, Except.pure_eq_ok] at h
    obtain ⟨_, _, rfl⟩ := h
    rfl

theorem applyIndirect_under {m m' : Mixed} {i : Indirect CId} (h : m.applyIndirect i = .ok m') :
    m'.under = m.under := by
  cases m with
  | prev c l r f u red => cases i <;> (cases h; rfl)
  | unc c =>
    simp only [Mixed.applyIndirect, Except.bind_eq_ok, Except.pure_eq_ok] at h
    obtain ⟨_, _, rfl⟩ := h
    rfl

theorem readSteps_under {a : CId} {L : List CDelta} {m m' : Mixed}
    (h : View.readSteps a (some m) L = .ok (some m')) (hr : ∀ x, .direct (.remove x) ∉ L) :
    m'.under = m.under := by
  induction L generalizing m with
  | nil => cases h; rfl
  | cons e L ih =>
    simp only [View.readSteps, Except.bind_eq_ok] at h
    obtain ⟨o1, h1, h2⟩ := h
    have hs : ∃ m1, o1 = some m1 ∧ m1.under = m.under := by
      cases e with
      | indirect i =>
        simp only [View.readStep, Except.bind_eq_ok, Except.pure_eq_ok] at h1
        obtain ⟨m0, e0, m', e1, rfl⟩ := h1
        cases e0
        exact ⟨_, rfl, applyIndirect_under e1⟩
      | direct dd =>
        cases dd with
        | new nd => simp [View.readStep] at h1
        | compose c ch => simp [View.readStep] at h1
        | remove y => exact (hr y (by simp)).elim
        | reduce u ch =>
          simp only [View.readStep] at h1
          split at h1
          · simp only [Except.bind_eq_ok, Except.pure_eq_ok] at h1
            obtain ⟨m0, e0, m', e1, rfl⟩ := h1
            cases e0
            exact ⟨_, rfl, changeReduction_under e1⟩
          · cases h1
    obtain ⟨m1, rfl, hu⟩ := hs
    exact (ih h2 (fun x hx => hr x (by simp [hx]))).trans hu

/-- No parts are given to a stored variable. -/
theorem Emit.composed {s g : Snap} {d : Delta} (h : Sim s d g) (hs : RefsInv s) {dd : Direct CId}
    (he : Emit ⟨s, .base d⟩ dd) {i : Nat} {k : Con} (hk : s.concepts[i]? = some k)
    (hv : VarSpec k.spec) {c : CId} (hc : Zia.composed (dd.subject d.num, dd) = some c) :
    g.convert c ≠ .ok i := by
  intro hi
  have hic : c = .com i := by
    cases c with
    | com n => cases hi; rfl
    | unc u =>
      have := h.range u i (convert_unc hi)
      have := lt_of_get hk
      omega
  subst hic
  cases he with
  | compose n c l r m mc d' hl hr hcl hcr hm hmc hh =>
    have hid := h.read_id hs hm
    rw [hid] at hh
    have hcom : c = .com i := by
      unfold composeDelta at hh
      split at hh <;> (cases hh; try (simpa [Zia.composed] using hc))
    subst hcom
    have hst := h.readSteps hm
    have e : stored s (.com i) = some (Mixed.ofCon k) := by simp [stored, hk]
    rw [e] at hst
    have hu : m.under = some k := readSteps_under hst (h.noRemove _)
    cases m with
    | unc c => cases hu
    | prev c0 l r f u red =>
      obtain rfl : c0 = k := Option.some.inj hu
      have hl : ∃ x, c0.maybeComposition = some (.leaf x) ∧ x ≠ .constant := by
        unfold VarSpec natOf at hv
        unfold Concept.maybeComposition
        split at hv <;> simp_all
      obtain ⟨x, hx, hne⟩ := hl
      simp only [Mixed.maybeComposition, hx, Except.bind_eq_ok, Except.pure_eq_ok] at hmc
      obtain ⟨y, hy, rfl⟩ := hmc
      have : y = .leaf x := by
        unfold MComp.applyChange at hy
        split at hy <;> simp_all
      subst this
      unfold composeDelta at hh
      split at hh <;> simp_all
  | _ => cases hc

/-- The concepts of the store at the start of a command, after its changes. -/
def Natural (s g : Snap) : Prop := ∀ (i : Nat) (k : Con), s.concepts[i]? = some k →
  ∃ k' : Con, g.concepts[i]? = some k' ∧ natOf k'.spec = natOf k.spec

theorem Natural.step {s g g' : Snap} {p : CId × Direct CId} (h : Natural s g) (st : Step g p g')
    (hv : ∀ i k, s.concepts[i]? = some k → VarSpec k.spec → ∀ c, composed p = some c → g.convert c ≠ .ok i) :
    Natural s g' := by
  intro i k hk
  obtain ⟨k1, h1, e1⟩ := h i k hk
  obtain ⟨k2, h2, e2⟩ := st.keepNature h1 (fun hx => hv i k hk (by unfold VarSpec at hx ⊢; rwa [e1] at hx))
  exact ⟨k2, h2, e2.trans e1⟩

/-- A command keeps the nature of the concepts. -/
theorem execute_natural [HashOrder] {n : Nat} {c c' : Ctx} {s r : Str} (hs : Settled c)
    (h : Context.execute n c s = .ok (r, c')) : Natural c.snap c'.snap := by
  obtain ⟨x, c1, _, ht, ha, _⟩ := execute_command h
  rw [hs.delta] at ht
  obtain ⟨o, e, hst, hr⟩ := Trace.replay (Q := fun _ _ => True) (P := fun _ g => Natural c.snap g)
    hs.refs hs.prev (fun i k hk => ⟨k, hk, rfl⟩)
    (fun d g d' g' dd sim hP he _ re _ =>
      hP.step (applyOne_step re.applied) (fun i k hk hv cc => he.composed sim hs.refs hk hv))
    (fun d g d1 g1 d2 g2 d3 g3 t l sim hP _ _ _ _ r1 s1 r2 s2 r3 _ => by
      refine ((hP.step (applyOne_step r1.applied) ?_).step (applyOne_step r2.applied) ?_).step
        (applyOne_step r3.applied) ?_
      · intro i k hk hv cc hc; cases hc
      · intro i k hk hv cc hc; cases hc
      · intro i k hk hv cc hc hi
        cases hc
        have := s2.range _ i (convert_unc hi)
        have := lt_of_get hk
        omega) ht (fun _ _ _ _ _ _ => trivial)
  rw [e] at ha hr
  obtain ⟨g, g', h1, h2, e'⟩ := apply_base ha
  have := (hr g h1).2
  rw [e', applyStrings_only h2]
  exact this

end Zia

import Verif.Spec.Search
import Verif.Lemmas.Frames
import Verif.Lemmas.Fuel

/-!
# Chains of reductions
-/

namespace Zia

open Spec Relation

set_option linter.unusedSectionVars false

variable [HashOrder]

variable {e : Env}

theorem reduce_det {n m : Nat} {t : Syn} {ca : Cache} {p q : RR × Cache}
    (h : (search n).reduce e t ca = .ok p) (h' : (search m).reduce e t ca = .ok q) : p = q := by
  rcases Nat.le_total n m with hl | hl
  · have := ((search_le hl).reduce e t ca).ok h
    rw [h'] at this; cases this; rfl
  · have := ((search_le hl).reduce e t ca).ok h'
    rw [h] at this; cases this; rfl

theorem Spec.Reduces.unique {x y y' : Syn × Cache} (h : Reduces e x y) (h' : Reduces e x y') : y = y' := by
  obtain ⟨n, r, h⟩ := h
  obtain ⟨m, r', h'⟩ := h'
  have := reduce_det h h'
  cases y; cases y'
  simp only [Prod.mk.injEq, Option.some.injEq] at this
  obtain ⟨⟨rfl, _⟩, rfl⟩ := this
  rfl

theorem Spec.Reduces.not_stuck {x y : Syn × Cache} {ca : Cache} (h : Reduces e x y) (h' : Stuck e x ca) :
    False := by
  obtain ⟨n, r, h⟩ := h
  obtain ⟨m, h'⟩ := h'
  have := reduce_det h h'
  cases this

theorem Spec.Reaches.not_misses {k : Key} {x : Syn × Cache} {ca ca' : Cache} (h : Reaches e k x ca) :
    ¬ Misses e k x ca' := by
  induction h with
  | here h hk =>
    intro h'
    cases h' with
    | stuck h' => exact h.not_stuck h'
    | later h' hk' _ => rw [h.unique h'] at hk; exact hk' hk
  | later h hk _ ih =>
    intro h'
    cases h' with
    | stuck h' => exact h.not_stuck h'
    | later h' hk' h'' => rw [← h.unique h'] at h''; exact ih h''

theorem evidence_spec : ∀ (n : Nat) {l r : Syn} {ca ca' : Cache} {o : Option Reason},
    (search n).evidence e l r ca = .ok (o, ca') →
    match o with
    | some _ => Reaches e r.key (l, ca) ca'
    | none => Misses e r.key (l, ca) ca'
  | 0, l, r, ca, ca', o, h => by cases h
  | n + 1, l, r, ca, ca', o, h => by
    change (search n).evidenceF e l r ca = _ at h
    unfold Search.evidenceF at h
    simp only [SM.bind_ok] at h
    obtain ⟨x, ca1, h1, h⟩ := h
    cases x with
    | none =>
      obtain ⟨rfl, rfl⟩ := SM.pure_ok.1 h
      exact .stuck ⟨n, h1⟩
    | some p =>
      obtain ⟨rl, reason⟩ := p
      have hs : Reduces e (l, ca) (rl, ca1) := ⟨n, reason, h1⟩
      dsimp only at h
      split at h
      · rename_i hk
        obtain ⟨rfl, rfl⟩ := SM.pure_ok.1 h
        exact .here hs hk
      · rename_i hk
        simp only [SM.bind_ok] at h
        obtain ⟨o', ca2, h2, h⟩ := h
        have ih := evidence_spec n h2
        cases o' with
        | none =>
          obtain ⟨rfl, rfl⟩ := SM.pure_ok.1 h
          exact .later hs hk ih
        | some new =>
          obtain ⟨rfl, rfl⟩ := SM.pure_ok.1 h
          exact .later hs hk ih

theorem Spec.Reaches.evidence {r : Syn} {x : Syn × Cache} {ca : Cache} (h : Reaches e r.key x ca) :
    ∃ n o, (search n).evidence e x.1 r x.2 = .ok (some o, ca) := by
  generalize hk : r.key = k at h
  induction h with
  | @here x y h hy =>
    obtain ⟨n, reason, h⟩ := h
    refine ⟨n + 1, reason, ?_⟩
    change (search n).evidenceF e x.1 r x.2 = _
    unfold Search.evidenceF
    rw [SM.bind_ok]
    refine ⟨_, _, h, ?_⟩
    dsimp only
    rw [if_pos (hy.trans hk.symm)]
    rfl
  | @later x y ca h hy _ ih =>
    obtain ⟨n, reason, h⟩ := h
    obtain ⟨m, o, ih⟩ := ih
    have h := ((search_le (Nat.le_max_left n m)).reduce _ _ _).ok h
    have ih := ((search_le (Nat.le_max_right n m)).evidence _ _ _ _).ok ih
    refine ⟨max n m + 1, .recursive x.1 o reason, ?_⟩
    change (search (max n m)).evidenceF e x.1 r x.2 = _
    unfold Search.evidenceF
    rw [SM.bind_ok]
    refine ⟨_, _, h, ?_⟩
    dsimp only
    rw [if_neg (by rw [hk]; exact hy), SM.bind_ok]
    exact ⟨_, _, ih, rfl⟩

theorem Spec.Misses.evidence {r : Syn} {x : Syn × Cache} {ca : Cache} (h : Misses e r.key x ca) :
    ∃ n, (search n).evidence e x.1 r x.2 = .ok (none, ca) := by
  generalize hk : r.key = k at h
  induction h with
  | @stuck x ca h =>
    obtain ⟨n, h⟩ := h
    refine ⟨n + 1, ?_⟩
    change (search n).evidenceF e x.1 r x.2 = _
    unfold Search.evidenceF
    rw [SM.bind_ok]
    exact ⟨_, _, h, rfl⟩
  | @later x y ca h hy _ ih =>
    obtain ⟨n, reason, h⟩ := h
    obtain ⟨m, ih⟩ := ih
    have h := ((search_le (Nat.le_max_left n m)).reduce _ _ _).ok h
    have ih := ((search_le (Nat.le_max_right n m)).evidence _ _ _ _).ok ih
    refine ⟨max n m + 1, ?_⟩
    change (search (max n m)).evidenceF e x.1 r x.2 = _
    unfold Search.evidenceF
    rw [SM.bind_ok]
    refine ⟨_, _, h, ?_⟩
    dsimp only
    rw [if_neg (by rw [hk]; exact hy), SM.bind_ok]
    exact ⟨_, _, ih, rfl⟩

/-! ## Repeated reduction -/

theorem recReduce_chain : ∀ (n : Nat) {t t' : Syn} {r r' : Option Reason} {ca ca' : Cache},
    (search n).recReduce e t r ca = .ok ((t', r'), ca') →
    ∃ ca1, ReflTransGen (Reduces e) (t, ca) (t', ca1) ∧ Stuck e (t', ca1) ca'
  | 0, t, t', r, r', ca, ca', h => by cases h
  | n + 1, t, t', r, r', ca, ca', h => by
    change (search n).recReduceF e t r ca = _ at h
    unfold Search.recReduceF at h
    simp only [SM.bind_ok] at h
    obtain ⟨x, ca1, h1, h⟩ := h
    cases x with
    | none =>
      obtain ⟨hp, rfl⟩ := SM.pure_ok.1 h
      cases hp
      exact ⟨ca, .refl, n, h1⟩
    | some p =>
      obtain ⟨a, reason⟩ := p
      obtain ⟨ca2, hc, hs⟩ := recReduce_chain n h
      exact ⟨ca2, .head ⟨n, reason, h1⟩ hc, hs⟩

theorem recReduce_of_chain {x y : Syn × Cache} {ca : Cache} (h : ReflTransGen (Reduces e) x y)
    (hs : Stuck e y ca) : ∀ r, ∃ n r', (search n).recReduce e x.1 r x.2 = .ok ((y.1, r'), ca) := by
  induction h using ReflTransGen.head_induction_on with
  | refl =>
    intro r
    obtain ⟨n, hs⟩ := hs
    refine ⟨n + 1, r, ?_⟩
    change (search n).recReduceF e y.1 r y.2 = _
    unfold Search.recReduceF
    rw [SM.bind_ok]
    exact ⟨_, _, hs, rfl⟩
  | @head a b hab _ ih =>
    intro r
    obtain ⟨n, reason, h⟩ := hab
    obtain ⟨m, r', ih⟩ := ih (some (recursiveReason r reason a.1))
    have h := ((search_le (Nat.le_max_left n m)).reduce _ _ _).ok h
    have ih := ((search_le (Nat.le_max_right n m)).recReduce _ _ _ _).ok ih
    refine ⟨max n m + 1, r', ?_⟩
    change (search (max n m)).recReduceF e a.1 r a.2 = _
    unfold Search.recReduceF
    rw [SM.bind_ok]
    exact ⟨_, _, h, ih⟩

theorem Cache.reduction?_insertReduction_none (ca : Cache) (t : Syn) (hv : t.isVariable = false)
    (hf : ca.frames ≠ []) : (ca.insertReduction t none).reduction? t = some none := by
  obtain ⟨fs, infs⟩ := ca
  cases fs with
  | nil => exact absurd rfl hf
  | cons f fs =>
    simp [Cache.insertReduction, hv, Cache.reduction?, Cache.lookupIn, AMap.get?_insert]

/-- An expression without variables that could not be reduced cannot be reduced afterwards. -/
theorem reduce_none_again {n : Nat} {t : Syn} {ca ca' : Cache}
    (h : (search n).reduce e t ca = .ok (none, ca')) (hv : t.isVariable = false)
    (hf : ca.frames ≠ []) (m : Nat) : (search (m + 1)).reduce e t ca' = .ok (none, ca') := by
  cases n with
  | zero => cases h
  | succ n =>
    change (search n).reduceF e t ca = _ at h
    change (search m).reduceF e t ca' = _
    unfold Search.reduceF at h ⊢
    simp only [SM.bind_ok, SM.get_ok] at h ⊢
    obtain ⟨_, _, ⟨rfl, rfl⟩, h⟩ := h
    refine ⟨ca', ca', ⟨rfl, rfl⟩, ?_⟩
    cases hr : ca.reduction? t with
    | some r =>
      rw [hr] at h
      obtain ⟨rfl, rfl⟩ := SM.pure_ok.1 h
      rw [hr]
      rfl
    | none =>
      rw [hr] at h
      simp only [SM.bind_ok, SM.lift_ok] at h
      obtain ⟨c, _, ⟨hc, rfl⟩, h⟩ := h
      split at h
      · rename_i hs
        obtain ⟨_, rfl⟩ := SM.pure_ok.1 h
        rw [hr]
        simp only [SM.bind_ok, SM.lift_ok]
        refine ⟨c, ca, ⟨hc, rfl⟩, ?_⟩
        rw [if_pos hs]
        rfl
      · simp only [SM.bind_ok, SM.modify_ok] at h
        obtain ⟨r, ca1, h1, u, ca2, h2, h⟩ := h
        obtain ⟨rfl, rfl⟩ := SM.pure_ok.1 h
        have hl := (Search.reduceNow_frames (d := 0) (search_frames n) e t _ _ _ h1).1
        have hf1 : ca1.frames ≠ [] := by
          intro hn
          rw [hn] at hl
          exact hf (List.eq_nil_of_length_eq_zero hl.symm)
        rw [← h2, Cache.reduction?_insertReduction_none _ _ hv hf1]
        rfl

end Zia

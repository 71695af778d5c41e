import Verif.Lemmas.Chain
import Verif.Lemmas.Parse

/-!
# Comparing expressions
-/

namespace Zia

open Spec Relation

set_option linter.unusedSectionVars false

variable [HashOrder]

variable {e : Env}

theorem cmpTable_ok (x y : Option CCT) (c : Cmp) :
    Search.cmpTable x y = .ok c ↔ Known (truthOf x) (truthOf y) c := by
  rcases x with _ | x <;> rcases y with _ | y <;> cases c <;>
    (try cases x) <;> (try cases y) <;> simp [Search.cmpTable, Known, truthOf]

theorem cmpTable_fault (x y : Option CCT) (f : Fault) :
    Search.cmpTable x y = .error f ↔
      f = .panic .compareBoth ∧ truthOf x = some true ∧ truthOf y = some true := by
  rcases x with _ | x <;> rcases y with _ | y <;>
    (try cases x) <;> (try cases y) <;> simp [Search.cmpTable, truthOf, eq_comm]

theorem cctOfAst_truth {t : Syn} {k : Option CCT} (h : Search.cctOfAst e t = .ok k) :
    HasTruth e t (truthOf k) := by
  unfold Search.cctOfAst at h
  unfold HasTruth
  split at h
  · rename_i hc
    cases h
    rw [hc]
    rfl
  · rename_i c hc
    rw [hc]
    exact ⟨k, h, rfl⟩

theorem concreteAst_names {n : Nat} {k : CCT} {t : Syn} {ca ca' : Cache}
    (h : (search n).concreteAst e k ca = .ok (some t, ca')) : Names e k t := by
  unfold Search.concreteAst at h
  simp only [SM.bind_ok, SM.lift_ok] at h
  obtain ⟨o, _, ⟨ho, rfl⟩, h⟩ := h
  cases o with
  | none => cases h
  | some id =>
    simp only [SM.bind_ok] at h
    obtain ⟨s, ca1, h1, h⟩ := h
    obtain ⟨hs, rfl⟩ := SM.pure_ok.1 h
    cases hs
    exact ⟨id, n, _, _, ho, h1⟩

theorem concreteAst_none {n : Nat} {k : CCT} {ca ca' : Cache}
    (h : (search n).concreteAst e k ca = .ok (none, ca')) : e.view.concreteId k = .ok none := by
  unfold Search.concreteAst at h
  simp only [SM.bind_ok, SM.lift_ok] at h
  obtain ⟨o, _, ⟨ho, rfl⟩, h⟩ := h
  cases o with
  | none => exact ho
  | some id =>
    simp only [SM.bind_ok] at h
    obtain ⟨s, ca1, h1, h⟩ := h
    obtain ⟨hs, rfl⟩ := SM.pure_ok.1 h
    cases hs

theorem compareSide_judged {n : Nat} {red red' : AMap Key RR} {t : Syn} {x : Option CCT}
    {reason : Option Reason} {ca ca' : Cache}
    (h : (search n).compareSide e red t ca = .ok (((x, reason), red'), ca')) :
    Judged e t red ca (truthOf x) red' ca' := by
  unfold Search.compareSide at h
  split at h
  · rename_i hm
    have hm := List.contains_iff_mem.1 hm
    simp only [SM.bind_ok, SM.get_ok] at h
    obtain ⟨_, _, ⟨rfl, rfl⟩, h⟩ := h
    have unknown : ∀ {o : Option RR}, ca.reduction? t = o → (∀ p, o ≠ some (some p)) →
        (pure (((none : Option CCT), (none : Option Reason)), red) :
          SM ((Option CCT × Option Reason) × AMap Key RR)) ca = .ok (((x, reason), red'), ca') →
        Judged e t red ca (truthOf x) red' ca' := by
      intro o ho hn h
      obtain ⟨hp, rfl⟩ := SM.pure_ok.1 h
      cases hp
      exact .unknown hm (fun p hp => hn p (ho.symm.trans hp))
    cases hr : ca.reduction? t with
    | none =>
      rw [hr] at h
      exact unknown hr (by simp) h
    | some o =>
      cases o with
      | none =>
        rw [hr] at h
        exact unknown hr (by simp) h
      | some p =>
        obtain ⟨s, reason'⟩ := p
        rw [hr] at h
        simp only [SM.bind_ok, SM.pure_ok] at h
        obtain ⟨_, _, ⟨rfl, rfl⟩, h⟩ := h
        simp only [SM.bind_ok, SM.lift_ok] at h
        obtain ⟨k, _, ⟨hk, rfl⟩, h⟩ := h
        obtain ⟨hp, rfl⟩ := SM.pure_ok.1 h
        cases hp
        exact .remembered hm hr (cctOfAst_truth hk)
  · rename_i hm
    have hm : t.key ∉ e.evaluating := fun h => hm (List.contains_iff_mem.2 h)
    rw [SM.bind_ok] at h
    obtain ⟨⟨⟨nf, reason'⟩, red2⟩, ca2, h2, h⟩ := h
    simp only [SM.bind_ok, SM.pure_ok] at h
    obtain ⟨_, _, ⟨rfl, rfl⟩, h⟩ := h
    simp only [SM.bind_ok, SM.lift_ok] at h
    obtain ⟨k, _, ⟨hk, rfl⟩, h⟩ := h
    obtain ⟨hp, rfl⟩ := SM.pure_ok.1 h
    cases hp
    unfold SM.spawn at h2
    simp only [Except.bind_eq_ok] at h2
    obtain ⟨⟨p, ca3⟩, h3, h2⟩ := h2
    have hl := ((search_frames n).recReduce (d := 0) _ _ _ _ _ _ h3).1
    obtain ⟨fs, infs⟩ := ca3
    cases fs with
    | nil => simp at hl
    | cons f fs =>
      cases h2
      obtain ⟨ca4, hc, hs⟩ := recReduce_chain n h3
      exact .computed hm hc hs (cctOfAst_truth hk)

theorem compare_spec {n : Nat} {a b : Syn} {c : Cmp} {r : CmpReason} {ca ca' : Cache}
    (h : (search n).compare e a b ca = .ok ((c, r), ca')) :
    (a.key = b.key ∧ c = .equalTo) ∨
    (a.key ≠ b.key ∧ e.view.concreteId .greaterThan = .ok none ∧ c = .incomparable) ∨
    (a.key ≠ b.key ∧ ∃ ab ba x y ca1 red ca2 red', Asks e a b ab ∧ Asks e b a ba ∧
      Judged e ab [] ca1 x red ca2 ∧ Judged e ba red ca2 y red' ca' ∧ Known x y c) := by
  unfold Search.compare at h
  split at h
  · rename_i hk
    obtain ⟨hp, rfl⟩ := SM.pure_ok.1 h
    cases hp
    exact .inl ⟨hk, rfl⟩
  · rename_i hk
    simp only [SM.bind_ok, SM.lift_ok] at h
    obtain ⟨o, _, ⟨ho, rfl⟩, h⟩ := h
    cases o with
    | none =>
      obtain ⟨hp, rfl⟩ := SM.pure_ok.1 h
      cases hp
      exact .inr (.inl ⟨hk, ho, rfl⟩)
    | some g =>
      refine .inr (.inr ⟨hk, ?_⟩)
      simp only [SM.bind_ok, SM.lift_ok] at h
      obtain ⟨gt, ca1, hgt, gb, ca2, hgb, ab, ca3, hab, ga, ca4, hga, ba, ca5, hba,
        ⟨⟨x, reason⟩, red⟩, ca6, hx, ⟨⟨y, rev⟩, red'⟩, ca7, hy, c', _, ⟨hc, rfl⟩, _, _, ⟨_, rfl⟩, h⟩ := h
      obtain ⟨hp, rfl⟩ := SM.pure_ok.1 h
      cases hp
      exact ⟨ab, ba, truthOf x, truthOf y, ca5, red, ca6, red',
        ⟨gt, gb, ⟨g, n, _, _, ho, hgt⟩, combine_expansion hgb, combine_expansion hab⟩,
        ⟨gt, ga, ⟨g, n, _, _, ho, hgt⟩, combine_expansion hga, combine_expansion hba⟩,
        compareSide_judged hx, compareSide_judged hy, (cmpTable_ok _ _ _).1 hc⟩

end Zia

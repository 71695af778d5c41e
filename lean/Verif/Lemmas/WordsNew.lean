import Verif.Lemmas.WordsContext
import Verif.Lemmas.WordsNames

/-!
# Renaming and sessions
-/

set_option linter.unusedSectionVars false

namespace Zia

open Spec

namespace Context

variable [HashOrder]

theorem outcomes_cons (n : Nat) (c : Ctx) (s : Str) (ss : List Str) :
    outcomes n c (s :: ss) = (do
      let (r, c) ← respond n c s
      let (rs, c) ← outcomes n c ss
      return (r :: rs, c)) := rfl

/-- What a user sees of the outcome of a command. -/
theorem execute_respond (n : Nat) (c : Ctx) (s : Str) :
    execute n c s = (respond n c s).map (fun p => (shown p.1, p.2)) := by
  unfold execute respond
  cases command n s c with
  | error e => rfl
  | ok p =>
    obtain ⟨r, c1⟩ := p
    show (do let c ← commit c1; _) = Except.map _ (do let c ← commit c1; _)
    cases commit c1 with
    | error e => rfl
    | ok c2 => cases r <;> rfl

/-- What a user sees of the outcomes of a session. -/
theorem run_outcomes (n : Nat) (c : Ctx) (ss : List Str) :
    run n c ss = (outcomes n c ss).map (fun p => (p.1.map shown, p.2)) := by
  induction ss generalizing c with
  | nil => rfl
  | cons s ss ih =>
    rw [outcomes_cons]
    unfold run
    rw [execute_respond]
    cases respond n c s with
    | error e => rfl
    | ok p =>
      obtain ⟨r, c1⟩ := p
      show (run n c1 ss >>= _) = Except.map _ (outcomes n c1 ss >>= _)
      rw [ih]
      cases outcomes n c1 ss with
      | error e => rfl
      | ok q => rfl

variable [Keyed] {w : Words}

theorem ren_outcomes_ok {n : Nat} {ss : List Str} {c c1 c1' : Ctx} {rs rs' : List (Except ZiaError Str)}
    (h : outcomes n c ss = .ok (rs, c1)) (h' : outcomes n (ren w c) (ss.map (ren w)) = .ok (rs', c1')) :
    rs' = rs.map (ren w) ∧ c1' = ren w c1 := by
  induction ss generalizing c rs rs' with
  | nil => cases h; cases h'; exact ⟨rfl, rfl⟩
  | cons s ss ih =>
    rw [List.map_cons, outcomes_cons] at h'
    rw [outcomes_cons] at h
    cases hr : respond n c s with
    | error e => rw [hr] at h; cases h
    | ok p =>
      obtain ⟨r, c2⟩ := p
      cases hr' : respond n (ren w c) (ren w s) with
      | error e => rw [hr'] at h'; cases h'
      | ok p' =>
        have key := ren_respond (w := w) n c s (reads_of_respond hr) (reads_of_respond hr')
        rw [hr, hr'] at key
        have : p' = (ren w r, ren w c2) := Except.ok.inj key
        subst this
        rw [hr] at h
        rw [hr'] at h'
        change (outcomes n c2 ss >>= fun q => pure (r :: q.1, q.2)) = _ at h
        change (outcomes n (ren w c2) (ss.map (ren w)) >>= fun q => pure (ren w r :: q.1, q.2)) = _ at h'
        cases ho : outcomes n c2 ss with
        | error e => rw [ho] at h; cases h
        | ok q =>
          cases ho' : outcomes n (ren w c2) (ss.map (ren w)) with
          | error e => rw [ho'] at h'; cases h'
          | ok q' =>
            obtain ⟨q1, q2⟩ := q
            obtain ⟨q1', q2'⟩ := q'
            rw [ho] at h
            rw [ho'] at h'
            cases h
            cases h'
            obtain ⟨e1, e2⟩ := ih ho ho'
            exact ⟨by rw [e1]; rfl, e2⟩

theorem ren_outcomes_clear {n : Nat} {ss : List Str} {c : Ctx} (hc : ClearAll n c ss) :
    outcomes n (ren w c) (ss.map (ren w)) = (outcomes n c ss).map (fun p => (p.1.map (ren w), ren w p.2)) := by
  induction ss generalizing c with
  | nil => rfl
  | cons s ss ih =>
    rw [List.map_cons, outcomes_cons, outcomes_cons]
    have key : respond n (ren w c) (ren w s) = ren w <$> respond n c s :=
      ren_respond n c s (reads_of_clear hc.1 s) (reads_of_clear (ren_clear hc.1) _)
    rw [key]
    cases hr : respond n c s with
    | error e => rfl
    | ok p =>
      obtain ⟨r, c2⟩ := p
      have := ih (hc.2 r c2 hr)
      show (outcomes n (ren w c2) (ss.map (ren w)) >>= _) = Except.map _ (outcomes n c2 ss >>= _)
      rw [this]
      cases outcomes n c2 ss with
      | error e => rfl
      | ok q => rfl

/-! ## A new context -/

theorem ren_labelAll (l : CId) (ps : List (Str × CCT)) (hp : ∀ p ∈ ps, ren w p.1 = p.1) :
    RenC w (labelAll l ps) (labelAll l ps) := by
  induction ps with
  | nil => exact RenC.pure rfl
  | cons p ps ih =>
    have := Updater.ren_newLabelledConcept (w := w) p.1 (some p.2) (some l)
    rw [hp p (by simp)] at this
    exact this.bind (fun _ => ih (fun q hq => hp q (by simp [hq])))

variable (hw : ∀ p ∈ programWords, w.to p = p)

include hw

theorem ren_builtIns : ∀ p ∈ builtIns, ren w p.1 = p.1 := by
  intro p hp
  refine ren_fixed w (fun x hx => hw x ?_)
  have : ∀ p ∈ builtIns, ∀ x ∈ wordsOf p.1, x ∈ programWords := by decide
  exact this p hp x hx

theorem ren_setupCommands : ∀ s ∈ setupCommands, ren w s = s := by
  intro s hs
  refine ren_fixed w (fun x hx => hw x ?_)
  have : ∀ s ∈ setupCommands, ∀ x ∈ wordsOf s, x ∈ programWords := by decide
  exact this s hs x hx

theorem ren_labelled {c : Ctx} (h : labelled = .ok c) : ren w c = c := by
  have hl : RenC w labelConcrete labelConcrete := by
    refine RenC.exclusive.bind (fun _ => ?_)
    have := Updater.ren_newLabelledConcept (w := w) (str% "label_of") (some .label) none
    rw [ren_fixed w (s := str% "label_of") (fun x hx => hw x (by
      have : ∀ x ∈ wordsOf (str% "label_of"), x ∈ programWords := by decide
      exact this x hx))] at this
    exact this.bind (fun l => ren_labelAll l _ (ren_builtIns hw))
  have key : RenE w labelled labelled :=
    (hl blank).bind (fun p => ren_commit p.2)
  rw [h] at key
  exact (Except.ok.inj key).symm

theorem ren_new {n : Nat} {c : Ctx} (h : new n = .ok c) : ren w c = c := by
  unfold new at h
  cases hl : labelled with
  | error e => rw [hl] at h; cases h
  | ok c0 =>
    rw [hl] at h
    have h0 := ren_labelled hw hl
    change setupCommands.foldlM (setupStep n) c0 = .ok c at h
    have key : ∀ (ss : List Str), (∀ s ∈ ss, ren w s = s) → ∀ c0 : Ctx, ren w c0 = c0 →
        ss.foldlM (setupStep n) c0 = .ok c → ren w c = c := by
      intro ss
      induction ss with
      | nil => intro _ c0 h0 h; cases h; exact h0
      | cons s ss ih =>
        intro hs c0 h0 h
        rw [List.foldlM_cons] at h
        cases hx : setupStep n c0 s with
        | error e => rw [hx] at h; cases h
        | ok c1 =>
          rw [hx] at h
          refine ih (fun s' hs' => hs s' (by simp [hs'])) c1 ?_ h
          unfold setupStep at hx
          rw [execute_respond] at hx
          cases hr : respond n c0 s with
          | error e => rw [hr] at hx; cases hx
          | ok p =>
            obtain ⟨r, c2⟩ := p
            rw [hr] at hx
            have hc : c2 = c1 := by
              change (if shown r = [] then pure c2 else _) = _ at hx
              split at hx
              · exact Except.ok.inj hx
              · cases hx
            subst hc
            have hs0 := hs s (by simp)
            have hr' : respond n (ren w c0) (ren w s) = .ok (r, c2) := by rw [h0, hs0]; exact hr
            have key := ren_respond (w := w) n c0 s (reads_of_respond hr) (reads_of_respond hr')
            rw [hr, hr'] at key
            exact (congrArg Prod.snd (Except.ok.inj key)).symm
    exact key _ (ren_setupCommands hw) c0 h0 h

end Context

end Zia

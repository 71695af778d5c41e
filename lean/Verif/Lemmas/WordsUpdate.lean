import Verif.Lemmas.WordsSearch
import Verif.Lemmas.Monad

/-!
# Renaming and changing the context
-/

set_option linter.unusedSectionVars false

namespace Zia

open Spec HashOrder

variable [HashOrder] {w : Words}

/-- The second computation is the first one on a renamed context, with a renamed result. -/
def RenC {α : Type} [Ren α] (w : Words) (m m' : CM α) : Prop := ∀ c, RenE w (m c) (m' (ren w c))

@[simp] theorem ren_ctx_snap (c : Ctx) : (ren w c).snap = ren w c.snap := rfl
@[simp] theorem ren_ctx_delta (c : Ctx) : (ren w c).delta = ren w c.delta := rfl
@[simp] theorem ren_ctx_cache (c : Ctx) : (ren w c).cache = ren w c.cache := rfl
@[simp] theorem ren_ctx_vars (c : Ctx) : (ren w c).vars = ren w c.vars := rfl
@[simp] theorem ren_ctx_bound (c : Ctx) : (ren w c).bound = ren w c.bound := rfl
@[simp] theorem ren_ctx_pinned (c : Ctx) : (ren w c).pinned = c.pinned := rfl
@[simp] theorem ren_ok {α : Type} [Ren α] (a : α) : ren w (Except.ok a : Except ZiaError α) = .ok (ren w a) := rfl
@[simp] theorem ren_err {α : Type} [Ren α] (e : ZiaError) :
    ren w (Except.error e : Except ZiaError α) = .error (ren w e) := rfl

namespace RenC

variable {α β : Type} [Ren α] [Ren β]

theorem pure {a a' : α} (h : a' = ren w a) : RenC w (Pure.pure a) (Pure.pure a') := by
  rw [h]; exact fun _ => rfl

theorem fault (f : Fault) : RenC w (CM.fault f : CM α) (CM.fault f) := fun _ => rfl

theorem throw {e e' : ZiaError} (h : e' = ren w e) : RenC w (MonadExcept.throw e : CM α) (MonadExcept.throw e') := by
  rw [h]; exact fun _ => rfl

theorem bind {m m' : CM α} {f f' : α → CM β} (h : RenC w m m')
    (hf : ∀ a, RenC w (f a) (f' (ren w a))) : RenC w (m >>= f) (m' >>= f') := by
  intro c
  rw [CM.bind_apply, CM.bind_apply]
  refine (h c).bind (fun p => ?_)
  obtain ⟨r, c⟩ := p
  cases r with
  | ok a => exact hf a c
  | error e => rfl

theorem ofE {x x' : Except Fault α} (h : RenE w x x') : RenC w (CM.ofE x) (CM.ofE x') :=
  fun _ => h.bind (fun _ => rfl)

theorem ofR {x x' : Except ZiaError α} (h : x' = ren w x) : RenC w (CM.ofR x) (CM.ofR x') := by
  rw [h]; exact fun _ => rfl

theorem get : RenC w (MonadState.get : CM Ctx) MonadState.get := fun _ => rfl

theorem view : RenC w CM.view CM.view := fun _ => rfl

theorem modify {f f' : Ctx → Ctx} (h : ∀ c, f' (ren w c) = ren w (f c)) :
    RenC w (modify f : CM Unit) (modify f') := by
  intro c
  show Except.ok (_, f' (ren w c)) = _
  rw [h]; rfl

theorem reading {f f' : View → Except Fault α} (h : ∀ v, RenE w (f v) (f' (ren w v))) :
    RenC w (CM.reading f) (CM.reading f') :=
  view.bind (fun v => ofE (h v))

theorem reading_rigid [Rigid α] {f f' : View → Except Fault α} (h : ∀ v, f' (ren w v) = f v) :
    RenC w (CM.reading f) (CM.reading f') :=
  reading (fun v => RenE.of_eq (h v))

theorem searching {f f' : Env → SM α} (h : ∀ e, RenS w (f e) (f' (ren w e))) :
    RenC w (CM.searching f) (CM.searching f') :=
  fun c => (h (CM.env c) c.cache).bind (fun _ => rfl)

theorem exclusive : RenC w CM.exclusive CM.exclusive := by
  refine get.bind (fun c => ?_)
  rw [ren_ctx_pinned]
  split
  · exact throw rfl
  · exact pure rfl

theorem update {d d' : Direct CId} (h : d' = ren w d) : RenC w (CM.update d) (CM.update d') := by
  subst h
  exact fun c => (ren_nested_update w c.delta d).bind (fun _ => rfl)

theorem tryCatch {m m' : CM α} {f f' : ZiaError → CM α} (h : RenC w m m')
    (hf : ∀ e, RenC w (f e) (f' (ren w e))) :
    RenC w (MonadExcept.tryCatch m f) (MonadExcept.tryCatch m' f') := by
  intro c
  rw [CM.tryCatch_apply, CM.tryCatch_apply]
  refine (h c).bind (fun p => ?_)
  obtain ⟨r, c⟩ := p
  cases r with
  | ok a => rfl
  | error e => exact hf e c

end RenC

theorem ren_rread (id : CId) : RenC w (CM.reading (·.read id)) (CM.reading (·.read id)) :=
  RenC.reading (fun v => ren_read w v id)

namespace Updater

open CM

theorem ren_newLabelledConcept (s : Str) (t : Option CCT) (l : Option CId) :
    RenC w (newLabelledConcept s t l) (newLabelledConcept (ren w s) t l) := by
  unfold newLabelledConcept
  split
  · refine (RenC.update rfl).bind (fun str => (RenC.update rfl).bind (fun comp => RenC.update ?_))
    cases l <;> rfl
  · exact RenC.fault _

theorem ren_deleteReduction (c : CId) (s : Str) :
    RenC w (deleteReduction c s) (deleteReduction c (ren w s)) := by
  refine (ren_rread c).bind (fun m => ?_)
  rw [ren_mixed_reduction]
  cases m.reduction with
  | none => exact RenC.throw rfl
  | some r => exact (RenC.update rfl).bind (fun _ => RenC.pure rfl)

variable [Keyed]

theorem ren_rconceptOfLabel (c : CId) :
    RenC w (CM.reading (·.conceptOfLabel c)) (CM.reading (·.conceptOfLabel c)) :=
  RenC.reading_rigid (fun v => ren_conceptOfLabel w Keyed.byKeys v c)

theorem ren_rconcreteId (t : CCT) :
    RenC w (CM.reading (·.concreteId t)) (CM.reading (·.concreteId t)) :=
  RenC.reading_rigid (fun v => ren_dir_concreteId v t)

theorem ren_rconceptFromLabel (n : Nat) (s : Str) :
    RenC w (CM.reading (·.conceptFromLabel n s)) (CM.reading (·.conceptFromLabel n (ren w s))) :=
  RenC.reading_rigid (fun v => ren_conceptFromLabel w v n s)

theorem ren_unlabel (c : CId) (s : Str) : RenC w (unlabel c s) (unlabel c (ren w s)) := by
  refine (ren_rconceptOfLabel c).bind (fun x => ?_)
  cases x with
  | none => exact RenC.fault _
  | some l =>
    have := ren_deleteReduction (w := w) l (str% "label_of " ++ s)
    rw [ren_label_of] at this
    exact this

theorem ren_findOrInsertComposition (l r : CId) :
    RenC w (findOrInsertComposition l r) (findOrInsertComposition l r) := by
  refine (ren_rread l).bind (fun m => ?_)
  rw [ren_mixed_findAsHand]
  cases m.findAsHand r .left with
  | some c => exact RenC.pure rfl
  | none => exact RenC.update rfl

theorem ren_updateReduction (n : Nat) (c : CId) (s : Str) (r : CId) :
    RenC w (updateReduction n c s r) (updateReduction n c (ren w s) r) := by
  unfold updateReduction
  refine (RenC.reading_rigid (fun v => ren_normalForm w v n r)).bind (fun nf => ?_)
  rw [ren_rigid]
  split
  · exact RenC.throw rfl
  · refine (ren_rread c).bind (fun m => ?_)
    rw [ren_mixed_reduction]
    split
    · exact RenC.throw rfl
    · refine (RenC.reading_rigid (fun v => (ren_reductionBoth w v n).1 c)).bind (fun x => ?_)
      rw [ren_rigid]
      split
      · refine RenC.throw ?_
        show _ = ZiaError.redundantReduction (ren w c.display)
        rw [ren_display]
      · exact (RenC.update rfl).bind (fun _ => RenC.pure rfl)

theorem ren_ulabel (n : Nat) (c : CId) (s t : Str) :
    RenC w (label n c s t) (label n c (ren w s) (ren w t)) := by
  unfold label
  refine (ren_rconcreteId .label).bind (fun x => ?_)
  cases x with
  | none => exact RenC.throw rfl
  | some l =>
    refine (ren_findOrInsertComposition l c).bind (fun comp => RenC.get.bind (fun ca => ?_))
    have fin : ∀ str : CId, RenC w (updateReduction n comp (str% "label_of " ++ s) str)
        (updateReduction n comp (str% "label_of " ++ ren w s) str) := by
      intro str
      rw [← ren_label_of]
      exact ren_updateReduction n comp _ str
    rw [ren_ctx_delta, ren_getString]
    refine (RenC.ofE (RenE.of_eq rfl)).bind (fun x => ?_)
    rw [ren_rigid]
    rcases x with _ | (_ | _ | _)
    · exact (RenC.update rfl).bind fin
    · exact fin _
    · exact (RenC.update rfl).bind fin
    · exact (RenC.update rfl).bind fin

theorem ren_relabel (n : Nat) (c : CId) (s t : Str) :
    RenC w (relabel n c s t) (relabel n c (ren w s) (ren w t)) :=
  (ren_unlabel c s).bind (fun _ => ren_ulabel n c s t)

theorem ren_conceptFromAst (n : Nat) (t : Syn) : RenC w (conceptFromAst n t) (conceptFromAst n (ren w t)) := by
  induction t with
  | leaf s c l =>
    have hd := ren_syn_display w (.leaf s c l)
    rw [ren_leaf] at hd ⊢
    unfold conceptFromAst
    cases c with
    | some c => exact RenC.pure rfl
    | none =>
      refine (RenC.ofE hd).bind (fun s => (ren_rconceptFromLabel n s).bind (fun x => ?_))
      cases x with
      | some c => exact RenC.pure rfl
      | none =>
        refine (ren_rconcreteId .label).bind (fun x => ?_)
        cases x with
        | none => exact RenC.throw rfl
        | some l => exact ren_newLabelledConcept s none (some l)
  | branch s c l r f b ihl ihr =>
    have hd := ren_syn_display w (.branch s c l r f b)
    rw [ren_branch] at hd ⊢
    unfold conceptFromAst
    cases c with
    | some c => exact RenC.pure rfl
    | none =>
      refine (RenC.ofE hd).bind (fun s => (ren_rconceptFromLabel n s).bind (fun x => ?_))
      cases x with
      | some c => exact RenC.pure rfl
      | none =>
        refine ihl.bind (fun lc => ihr.bind (fun rc => (ren_findOrInsertComposition lc rc).bind (fun c => ?_)))
        rw [ren_contains w sep_space]
        dsimp only
        by_cases hc : (!s.contains ' ') = true
        · rw [if_pos hc, if_pos hc]
          exact (ren_ulabel n c s s).bind (fun _ => RenC.pure rfl)
        · rw [if_neg hc, if_neg hc]
          exact RenC.pure rfl

theorem ren_insertComposition (n : Nat) (c l r : CId) :
    RenC w (insertComposition n c l r) (insertComposition n c l r) := by
  unfold insertComposition
  refine (RenC.reading_rigid (fun v => ren_view_contains w v n l c)).bind (fun b => ?_)
  rw [ren_rigid]
  split
  · exact RenC.throw rfl
  · refine (RenC.reading_rigid (fun v => ren_view_contains w v n r c)).bind (fun b => ?_)
    rw [ren_rigid]
    split
    · exact RenC.throw rfl
    · refine (RenC.reading (fun v => ren_checkReductions w v n c l)).bind (fun x => (RenC.ofR rfl).bind (fun _ => ?_))
      refine (RenC.reading (fun v => ren_checkReductions w v n c r)).bind (fun x => (RenC.ofR rfl).bind (fun _ => ?_))
      refine (ren_rread c).bind (fun m => ?_)
      rw [ren_mixed_maybe, ren_mixed_id]
      have : RenE w (do composeDelta m.id (← m.maybeComposition) l r)
          (do composeDelta m.id (← m.maybeComposition) l r) := by
        cases m.maybeComposition with
        | error e => rfl
        | ok x =>
          cases x with
          | none => rfl
          | some x => cases x with
            | leaf l => cases l <;> rfl
            | comp _ _ => rfl
      refine (RenC.ofE this).bind (fun x => ?_)
      cases x with
      | error e => exact RenC.throw rfl
      | ok d => exact (RenC.update rfl).bind (fun _ => RenC.pure rfl)

theorem ren_redefine (n : Nat) (c : CId) (l r : Syn) :
    RenC w (redefine n c l r) (redefine n c (ren w l) (ren w r)) :=
  (ren_conceptFromAst n l).bind (fun lc => (ren_conceptFromAst n r).bind (fun rc => ren_insertComposition n c lc rc))

theorem ren_redefineComposition (n : Nat) (c : CId) (l r : Syn) (a b : Str) :
    RenC w (redefineComposition n c l r a b) (redefineComposition n c (ren w l) (ren w r) (ren w a) (ren w b)) := by
  refine (ren_rread c).bind (fun m => ?_)
  rw [ren_mixed_composition]
  rcases m.composition with _ | ⟨lc, rc⟩
  · exact ren_redefine n c l r
  · exact (RenC.ofE (ren_syn_display w l)).bind (fun s => (ren_relabel n lc a s).bind (fun _ =>
      (RenC.ofE (ren_syn_display w r)).bind (fun s => ren_relabel n rc b s)))

theorem ren_defineNewSyntax (n : Nat) (s : Str) (l r : Syn) :
    RenC w (defineNewSyntax n s l r) (defineNewSyntax n (ren w s) (ren w l) (ren w r)) := by
  have fin : ∀ t : Syn, RenC w (do let _ ← conceptFromAst n (t.bindPair l r))
      (do let _ ← conceptFromAst n ((ren w t).bindPair (ren w l) (ren w r))) := by
    intro t
    rw [ren_bindPair]
    exact (ren_conceptFromAst n _).bind (fun _ => RenC.pure rfl)
  have mid : ∀ x : Option CId, RenC w
      (do
        let t ← match x with
          | some c => reading (·.bindConceptToSyntax (Syn.ofStr s) c)
          | none => pure (Syn.ofStr s)
        let _ ← conceptFromAst n (t.bindPair l r))
      (do
        let t ← match x with
          | some c => reading (·.bindConceptToSyntax (Syn.ofStr (ren w s)) c)
          | none => pure (Syn.ofStr (ren w s))
        let _ ← conceptFromAst n (t.bindPair (ren w l) (ren w r))) := by
    intro x
    rw [ren_ofStr]
    cases x with
    | none => exact fin _
    | some c => exact (RenC.reading (fun v => ren_bindConceptToSyntax w v _ c)).bind fin
  unfold defineNewSyntax
  rw [ren_concept, ren_concept]
  cases l.concept with
  | none => exact mid none
  | some lc =>
    cases r.concept with
    | none => exact mid none
    | some rc =>
      refine (ren_rread lc).bind (fun m => ?_)
      rw [ren_mixed_findAsHand]
      exact mid _

theorem ren_blindlyRemove (c : CId) : RenC w (blindlyRemove c) (blindlyRemove c) :=
  (RenC.update rfl).bind (fun _ => RenC.pure rfl)

theorem ren_removeString (s : Str) : RenC w (removeString s) (removeString (ren w s)) := by
  refine RenC.get.bind (fun ca => ?_)
  rw [ren_ctx_delta, ren_getString]
  refine (RenC.ofE (RenE.of_eq rfl)).bind (fun x => ?_)
  rw [ren_rigid]
  rcases x with _ | (_ | _ | _)
  · exact RenC.fault _
  · exact ren_blindlyRemove _
  · exact ren_blindlyRemove _
  · exact RenC.fault _

theorem ren_removeConcept (c : CId) : RenC w (removeConcept c) (removeConcept c) := by
  refine (ren_rread c).bind (fun m => ?_)
  rw [ren_mixed_string]
  cases m.string with
  | none => exact ren_blindlyRemove c
  | some s => exact (ren_removeString s).bind (fun _ => ren_blindlyRemove c)

theorem ren_tryDeleteConcept (c : CId) (s : Str) :
    RenC w (tryDeleteConcept c s) (tryDeleteConcept c (ren w s)) := by
  refine (RenC.reading_rigid (fun v => ren_isDisconnected w Keyed.byKeys v c)).bind (fun b => ?_)
  rw [ren_rigid]
  split
  · exact (ren_unlabel c s).bind (fun _ => ren_removeConcept c)
  · exact RenC.pure rfl

end Updater

end Zia

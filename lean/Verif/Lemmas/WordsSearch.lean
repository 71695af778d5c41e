import Verif.Lemmas.WordsReason

/-!
# Renaming and searching
-/

set_option linter.unusedSectionVars false

namespace Zia

open Spec HashOrder

variable [HashOrder] {w : Words}

/-- The order of hash tables depends on their keys only. -/
class Keyed : Prop where
  byKeys : ByKeys

/-- The second computation is the first one on a renamed cache, with a renamed result. -/
def RenS {α : Type} [Ren α] (w : Words) (m m' : SM α) : Prop := ∀ ca, RenE w (m ca) (m' (ren w ca))

namespace RenS

variable {α β : Type} [Ren α] [Ren β]

theorem pure {a a' : α} (h : a' = ren w a) : RenS w (Pure.pure a) (Pure.pure a') := by
  rw [h]; exact fun _ => rfl

theorem fault (f : Fault) : RenS w (SM.fault f : SM α) (SM.fault f) := fun _ => rfl

theorem bind {m m' : SM α} {f f' : α → SM β} (h : RenS w m m')
    (hf : ∀ a, RenS w (f a) (f' (ren w a))) : RenS w (m >>= f) (m' >>= f') :=
  fun ca => (h ca).bind (fun p => hf p.1 p.2)

theorem lift {x x' : Except Fault α} (h : RenE w x x') : RenS w (liftM x : SM α) (liftM x') :=
  fun _ => h.bind (fun _ => rfl)

theorem lift_rigid [Rigid α] {x : Except Fault α} : RenS w (liftM x : SM α) (liftM x) :=
  lift (RenE.of_eq rfl)

theorem get : RenS w (MonadState.get : SM Cache) MonadState.get := fun _ => rfl

theorem modify {f f' : Cache → Cache} (h : ∀ ca, f' (ren w ca) = ren w (f ca)) :
    RenS w (modify f : SM PUnit) (modify f') := by
  intro ca
  show Except.ok (_, f' (ren w ca)) = _
  rw [h]; rfl

theorem spawn {red red' : AMap Key RR} {m m' : SM α} (hr : red' = ren w red) (h : RenS w m m') :
    RenS w (SM.spawn red m) (SM.spawn red' m') := by
  subst hr
  intro ca
  refine (h { ca with frames := ⟨red, []⟩ :: ca.frames }).bind (fun p => ?_)
  obtain ⟨a, ⟨fs, infs⟩⟩ := p
  cases fs <;> rfl

theorem asParent {m m' : SM α} (h : RenS w m m') : RenS w (SM.asParent m) (SM.asParent m') := by
  intro ca
  obtain ⟨fs, infs⟩ := ca
  cases fs with
  | nil => exact h _
  | cons f fs => exact (h ⟨fs, infs⟩).bind (fun p => rfl)

end RenS

@[simp] theorem ren_env_view (e : Env) : (ren w e).view = ren w e.view := rfl
@[simp] theorem ren_env_mask (e : Env) : (ren w e).mask = ren w e.mask := rfl
@[simp] theorem ren_env_evaluating (e : Env) : (ren w e).evaluating = ren w e.evaluating := rfl
@[simp] theorem ren_env_inferring (e : Env) : (ren w e).inferring = e.inferring := rfl
@[simp] theorem ren_env_bound (e : Env) : (ren w e).bound = ren w e.bound := rfl

theorem ren_dir_concreteId [Keyed] (v : View) (cc : CCT) : (ren w v).concreteId cc = v.concreteId cc :=
  ren_concreteId w Keyed.byKeys v cc

theorem ren_keys_contains (l : List Key) (t : Syn) : (ren w l).contains (ren w t).key = l.contains t.key := by
  rw [ren_key, ren_lcontains]

namespace Search

theorem ren_cctOfAst (e : Env) (t : Syn) : cctOfAst (ren w e) (ren w t) = cctOfAst e t := by
  simp only [cctOfAst, ren_concept, ren_env_view, ren_view_cct]

theorem ren_isFreeVariable (e : Env) (c : CId) : isFreeVariable (ren w e) c = isFreeVariable e c := by
  refine ren_read_rigid w e.view c _ _ (fun m => ?_)
  simp only [ren_mixed_isFree, ren_env_mask, ren_masks_tail]
  cases e.mask.tail? with
  | none => rfl
  | some t => simp only [ren_some, ren_masks_get, ren_isNone]

theorem ren_isLeafVariable (e : Env) (c : CId) : isLeafVariable (ren w e) c = isLeafVariable e c := by
  simp only [isLeafVariable, ren_isFreeVariable]
  congr 1
  funext x
  exact ren_read_rigid w e.view c _ _ (fun m => by simp only [ren_mixed_composition])

theorem ren_boundLeaf (e : Env) (c : Option CId) :
    (match c with
      | none => pure false
      | some c => do return (← (ren w e).view.read c).isBound : Except Fault Bool) =
    (match c with
      | none => pure false
      | some c => do return (← e.view.read c).isBound) := by
  cases c with
  | none => rfl
  | some c => exact ren_read_rigid w e.view c _ _ (fun m => by simp only [ren_mixed_isBound])

theorem ren_containsBound (e : Env) (t : Syn) : containsBound (ren w e) (ren w t) = containsBound e t := by
  induction t with
  | leaf s c l =>
    have hk := ren_keys_contains (w := w) e.bound (.leaf s c l)
    rw [ren_leaf] at hk ⊢
    simp only [containsBound, ren_env_bound, hk]
    have := ren_boundLeaf (w := w) e c
    cases c with
    | none => rfl
    | some c => simp only at this; simp only [this]
  | branch s c l r f b ihl ihr =>
    have hk := ren_keys_contains (w := w) e.bound (.branch s c l r f b)
    rw [ren_branch] at hk ⊢
    simp only [containsBound, ren_env_bound, hk, ihl, ihr]
    have := ren_boundLeaf (w := w) e c
    cases c with
    | none => rfl
    | some c => simp only at this; simp only [this]

theorem ren_pairConcept (e : Env) (l r : Syn) : pairConcept (ren w e) (ren w l) (ren w r) = pairConcept e l r := by
  simp only [pairConcept, ren_concept]
  cases l.concept with
  | none => rfl
  | some l =>
    cases r.concept with
    | none => rfl
    | some r => exact ren_read_rigid w e.view l _ _ (fun m => by simp only [ren_mixed_findAsHand])

theorem ren_compositionsOf (v : View) (h : Hand) (acc cs : List CId) :
    compositionsOf (ren w v) h acc cs = compositionsOf v h acc cs := by
  induction cs generalizing acc with
  | nil => rfl
  | cons c cs ih => exact ren_read_rigid w v c _ _ (fun m => by simp only [ren_mixed_iterHandOf, ih])

theorem ren_findGeneralisations (v : View) (t : Syn) :
    findGeneralisations (ren w v) (ren w t) = findGeneralisations v t := by
  induction t with
  | leaf => rfl
  | branch s c l r f b ihl ihr =>
    simp only [ren_branch, findGeneralisations, ren_compositionsOf, ren_concept, ihl, ihr]

theorem ren_canGeneralise (e : Env) (t : Syn) (g : CId) :
    canGeneralise (ren w e) (ren w t) g = canGeneralise e t g := by
  simp only [canGeneralise, ren_isFreeVariable, ren_env_bound, ren_keys_contains, ren_concept]
  cases t.concept with
  | none => rfl
  | some c =>
    have : (do return !(← (ren w e).view.read c).isBound : Except Fault Bool) =
        (do return !(← e.view.read c).isBound) :=
      ren_read_rigid w e.view c _ _ (fun m => by simp only [ren_mixed_isBound])
    simp only [this]

theorem ren_checkGeneralisation (e : Env) (t : Syn) (g : CId) :
    RenE w (checkGeneralisation e t g) (checkGeneralisation (ren w e) (ren w t) g) := by
  induction t generalizing g with
  | leaf s c l =>
    have := ren_canGeneralise (w := w) e (.leaf s c l) g
    rw [ren_leaf] at this ⊢
    simp only [checkGeneralisation, this]
    refine RenE.bind_rigid (fun b => ?_)
    cases b with
    | false => rfl
    | true =>
      refine (ren_read w e.view g).bind (fun m => ?_)
      rw [ren_mixed_composition]
      cases m.composition <;> rfl
  | branch s c l r f b ihl ihr =>
    have := ren_canGeneralise (w := w) e (.branch s c l r f b) g
    rw [ren_branch] at this ⊢
    simp only [checkGeneralisation, this, ren_isFreeVariable, ren_concept]
    refine RenE.bind_rigid (fun b => ?_)
    cases b with
    | false => rfl
    | true =>
      refine (ren_read w e.view g).bind (fun m => ?_)
      rw [ren_mixed_composition]
      cases m.composition with
      | none => rfl
      | some p =>
        obtain ⟨gl, gr⟩ := p
        refine RenE.bind_rigid (fun x => RenE.bind_rigid (fun y => ?_))
        cases x <;> cases y
        · dsimp only; split <;> rfl
        · dsimp only
          split
          · exact ihr gr
          · rfl
        · dsimp only
          split
          · exact ihl gl
          · rfl
        · refine (ihl gl).bind (fun lm => (ihr gr).bind (fun rm => ?_))
          cases lm with
          | none => rfl
          | some lm =>
            cases rm with
            | none => rfl
            | some rm => exact RenE.pure (ren_mergeInto w rm lm)

/-- Each recursive call commutes with renaming. -/
structure _root_.Zia.RenSearch (w : Words) (S : Search) : Prop where
  reduce : ∀ e t, RenS w (S.reduce e t) (S.reduce (ren w e) (ren w t))
  toAst : ∀ e c, RenS w (S.toAst e c) (S.toAst (ren w e) c)
  getAssoc : ∀ e t, RenS w (S.getAssoc e t) (S.getAssoc (ren w e) (ren w t))
  recReduce : ∀ e t r, RenS w (S.recReduce e t r) (S.recReduce (ren w e) (ren w t) (ren w r))
  findEx : ∀ e g set k k', (∀ x, RenS w (k x) (k' (ren w x))) →
    RenS w (S.findEx e g set k) (S.findEx (ren w e) (ren w g) set k')
  evidence : ∀ e l r, RenS w (S.evidence e l r) (S.evidence (ren w e) (ren w l) (ren w r))
  expand : ∀ e t, RenS w (S.expand e t) (S.expand (ren w e) (ren w t))

variable [Keyed] {S : Search} (h : RenSearch w S)

include h

theorem ren_concreteAst (e : Env) (t : CCT) : RenS w (S.concreteAst e t) (S.concreteAst (ren w e) t) := by
  simp only [concreteAst, ren_env_view, ren_dir_concreteId]
  refine RenS.lift_rigid.bind (fun x => ?_)
  rw [ren_rigid]
  cases x with
  | none => exact RenS.pure rfl
  | some c => exact (h.toAst e c).bind (fun t => RenS.pure rfl)

theorem ren_displayJoint (e : Env) (l r : Syn) :
    RenS w (S.displayJoint e l r) (S.displayJoint (ren w e) (ren w l) (ren w r)) := by
  unfold displayJoint
  have fin : ∀ ls rs : Str, RenS w (pure (ls ++ ' ' :: rs)) (pure (ren w ls ++ ' ' :: ren w rs)) :=
    fun ls rs => RenS.pure (ren_append_sep w sep_space ls rs).symm
  have right : ∀ ls : Str, RenS w
      (do
        let rs ← r.display
        let rs ← if rs.any isWs then
            match r.expansion with
            | none => pure rs
            | some (l, r) => do
              pure ((← S.getAssoc e l).displayJointRight (← l.display) (← r.display))
          else pure rs
        return ls ++ ' ' :: rs)
      (do
        let rs ← (ren w r).display
        let rs ← if rs.any isWs then
            match (ren w r).expansion with
            | none => pure rs
            | some (l, r) => do
              pure ((← S.getAssoc (ren w e) l).displayJointRight (← l.display) (← r.display))
          else pure rs
        return ren w ls ++ ' ' :: rs) := by
    intro ls
    refine (RenS.lift (ren_syn_display w r)).bind (fun rs => ?_)
    rw [ren_any_ws, ren_expansion]
    split
    · cases r.expansion with
      | none => exact fin ls rs
      | some p =>
        obtain ⟨a, b⟩ := p
        exact (h.getAssoc e a).bind (fun s => (RenS.lift (ren_syn_display w a)).bind (fun x =>
          (RenS.lift (ren_syn_display w b)).bind (fun y =>
            (RenS.pure (ren_displayJointRight w s x y)).bind (fun rs => fin ls rs))))
    · exact fin ls rs
  refine (RenS.lift (ren_syn_display w l)).bind (fun ls => ?_)
  dsimp only
  by_cases hws : ls.any isWs = true
  · rw [if_pos hws, if_pos (by rw [ren_any_ws]; exact hws), ren_expansion w l]
    cases l.expansion with
    | none => exact right ls
    | some p =>
      obtain ⟨a, b⟩ := p
      exact (h.getAssoc e b).bind (fun s => (RenS.lift (ren_syn_display w a)).bind (fun x =>
        (RenS.lift (ren_syn_display w b)).bind (fun y =>
          (RenS.pure (ren_displayJointLeft w s x y)).bind (fun ls => right ls))))
  · rw [if_neg hws, if_neg (by rw [ren_any_ws]; exact hws)]
    exact right ls

theorem ren_join (e : Env) (l r : Syn) : RenS w (S.join e l r) (S.join (ren w e) (ren w l) (ren w r)) :=
  (ren_displayJoint h e l r).bind (fun s => RenS.pure (by rw [ren_ofStr, ren_bindPair]))

theorem ren_combine (e : Env) (l r : Syn) : RenS w (S.combine e l r) (S.combine (ren w e) (ren w l) (ren w r)) := by
  simp only [combine, ren_pairConcept]
  refine RenS.lift_rigid.bind (fun x => ?_)
  rw [ren_rigid]
  cases x with
  | none => exact ren_join h e l r
  | some c => exact (ren_join h e l r).bind (fun t => RenS.lift (ren_bindConceptToSyntax w e.view t c))

theorem ren_contractPair (e : Env) (l r : Syn) :
    RenS w (S.contractPair e l r) (S.contractPair (ren w e) (ren w l) (ren w r)) := by
  simp only [contractPair, ren_pairConcept]
  refine RenS.lift_rigid.bind (fun x => ?_)
  rw [ren_rigid]
  cases x with
  | none => exact ren_join h e l r
  | some c =>
    have fin : ∀ s : Str, RenS w
        (do return (← e.view.bindConceptToSyntax (Syn.ofStr s) c).bindPair l r)
        (do return (← (ren w e).view.bindConceptToSyntax (Syn.ofStr (ren w s)) c).bindPair (ren w l) (ren w r)) := by
      intro s
      rw [ren_ofStr]
      exact (RenS.lift (ren_bindConceptToSyntax w e.view _ c)).bind (fun t => RenS.pure (ren_bindPair w t l r))
    refine (RenS.lift (ren_label w Keyed.byKeys e.view S.fuel c)).bind (fun x => ?_)
    cases x with
    | none => exact (ren_displayJoint h e l r).bind fin
    | some s => exact fin s

theorem ren_getAssocF (e : Env) (t : Syn) : RenS w (S.getAssocF e t) (S.getAssocF (ren w e) (ren w t)) := by
  simp only [getAssocF, ren_env_view, ren_dir_concreteId]
  refine RenS.lift_rigid.bind (fun x => ?_)
  rw [ren_rigid]
  cases x with
  | none => exact RenS.pure rfl
  | some c =>
    refine (h.toAst e c).bind (fun a => (ren_combine h e a t).bind (fun s => (h.reduce e s).bind (fun y => ?_)))
    cases y with
    | none => exact RenS.pure rfl
    | some p =>
      obtain ⟨r, _⟩ := p
      simp only [ren_some, ren_pair, ren_cctOfAst]
      refine RenS.lift_rigid.bind (fun x => ?_)
      rw [ren_rigid]
      split <;> exact RenS.pure rfl

theorem ren_buildAst (e : Env) (id : CId) (c : Mixed) :
    RenS w (S.buildAst e id c) (S.buildAst (ren w e) id (ren w c)) := by
  have fin : ∀ s : Option Str, RenS w
      (match s with
        | some s => liftM (e.view.bindConceptToSyntax (Syn.ofStr s) id)
        | none => match c.composition with
          | some (l, r) => do S.combine e (← S.toAst e l) (← S.toAst e r)
          | none => return View.newSyntaxFromConcept c)
      (match ren w s with
        | some s => liftM ((ren w e).view.bindConceptToSyntax (Syn.ofStr s) id)
        | none => match (ren w c).composition with
          | some (l, r) => do S.combine (ren w e) (← S.toAst (ren w e) l) (← S.toAst (ren w e) r)
          | none => return View.newSyntaxFromConcept (ren w c)) := by
    intro s
    cases s with
    | some s =>
      simp only [ren_some, ren_ofStr]
      exact RenS.lift (ren_bindConceptToSyntax w e.view _ id)
    | none =>
      simp only [ren_none, ren_mixed_composition]
      cases c.composition with
      | none => exact RenS.pure (ren_newSyntax w c)
      | some p =>
        obtain ⟨l, r⟩ := p
        exact (h.toAst e l).bind (fun a => (h.toAst e r).bind (fun b => ren_combine h e a b))
  unfold buildAst
  simp only [ren_mixed_string]
  cases c.string with
  | some s =>
    have := fin (some (formatString s))
    rw [show ren w (some (formatString s)) = some (formatString (ren w s)) from
      congrArg some (ren_quoted w (by decide) s).symm] at this
    exact this
  | none => exact (RenS.lift (ren_label w Keyed.byKeys e.view S.fuel id)).bind fin

theorem ren_toAstF (e : Env) (id : CId) : RenS w (S.toAstF e id) (S.toAstF (ren w e) id) := by
  simp only [toAstF, ren_env_mask, ren_masks_get]
  cases e.mask.get id with
  | some s => exact RenS.pure rfl
  | none =>
    refine RenS.get.bind (fun ca => ?_)
    rw [ren_syntaxTree?]
    cases ca.syntaxTree? id with
    | some s => exact RenS.pure rfl
    | none =>
      refine (RenS.lift (ren_read w e.view id)).bind (fun c => (ren_buildAst h e id c).bind (fun s => ?_))
      exact (RenS.modify (fun ca => ren_insertSyntaxTree ca c s)).bind (fun _ => RenS.pure rfl)

omit h in
theorem ren_bind_get? (m : Mask) (c : Option CId) :
    c.bind (ren w m).get? = ren w (c.bind m.get?) := by
  cases c with
  | none => rfl
  | some c => exact ren_get?_id w m c

theorem ren_substitute (e : Env) (m : Mask) (t : Syn) :
    RenS w (S.substitute e m t) (S.substitute (ren w e) (ren w m) (ren w t)) := by
  induction t with
  | leaf s c l =>
    rw [ren_leaf]
    simp only [substitute, ren_bind_get?]
    cases c.bind m.get? <;> exact RenS.pure rfl
  | branch s c l r f b ihl ihr =>
    rw [ren_branch]
    simp only [substitute, ren_bind_get?]
    cases c.bind m.get? with
    | some v => exact RenS.pure rfl
    | none => exact ihl.bind (fun l => ihr.bind (fun r => ren_contractPair h e l r))

theorem ren_rightMatch (e : Env) (right : Syn) (er : CId) (le : ExSubst) :
    RenS w (S.rightMatch e right er le) (S.rightMatch (ren w e) (ren w right) er (ren w le)) := by
  simp only [rightMatch, ren_gen, ren_exam, Zia.ren_substitute]
  refine (ren_substitute h e le.exam _).bind (fun sr => (RenS.lift (ren_read w e.view er)).bind (fun c => ?_))
  simp only [ren_mixed_reducesFrom, ren_containsBound]
  refine RenS.lift_rigid.bind (fun b => ?_)
  rw [ren_rigid]
  split
  · exact h.findEx e sr _ _ _ (fun x => RenS.pure (ren_merge w x le))
  · refine (h.recReduce e sr none).bind (fun p => ?_)
    obtain ⟨nf, _⟩ := p
    simp only [ren_pair, ren_concept]
    cases nf.concept with
    | none => exact RenS.pure rfl
    | some c =>
      dsimp only
      split <;> exact RenS.pure rfl

theorem ren_findExample (e : Env) (g : Syn) (set : List CId) :
    RenS w (S.findExample e g set) (S.findExample (ren w e) (ren w g) set) :=
  h.findEx e g set _ _ (fun _ => RenS.pure rfl)

theorem ren_halfStep (e : Env) (gen non : Syn) (hand : Hand) (id : CId) :
    RenS w (S.halfStep e gen non hand id) (S.halfStep (ren w e) (ren w gen) (ren w non) hand id) := by
  unfold halfStep
  refine (RenS.lift (ren_read w e.view id)).bind (fun m => ?_)
  rw [ren_mixed_composition]
  cases m.composition with
  | none => exact RenS.pure rfl
  | some p =>
    obtain ⟨l, r⟩ := p
    have fin : ∀ ng g : CId, RenS w
        (if some ng ≠ non.concept then do
          if (← e.view.read ng).isFree then do
            match ← S.findExample e gen [g] with
            | none => return none
            | some subs => return subs.merge ⟨[], [(ng, non)]⟩
          else return none
        else do
          match ← S.findExample e gen [g] with
          | some x => return some x
          | none => do
            let s ← S.toAst e g
            match checkExample s gen with
            | some x => return some x
            | none => do S.findExample e gen (g :: (← e.view.read g).reducesFrom))
        (if some ng ≠ (ren w non).concept then do
          if (← (ren w e).view.read ng).isFree then do
            match ← S.findExample (ren w e) (ren w gen) [g] with
            | none => return none
            | some subs => return subs.merge ⟨[], [(ng, ren w non)]⟩
          else return none
        else do
          match ← S.findExample (ren w e) (ren w gen) [g] with
          | some x => return some x
          | none => do
            let s ← S.toAst (ren w e) g
            match checkExample s (ren w gen) with
            | some x => return some x
            | none => do S.findExample (ren w e) (ren w gen) (g :: (← (ren w e).view.read g).reducesFrom)) := by
      intro ng g
      rw [ren_concept]
      split
      · refine (RenS.lift (ren_read w e.view ng)).bind (fun c => ?_)
        rw [ren_mixed_isFree]
        split
        · refine (ren_findExample h e gen [g]).bind (fun x => ?_)
          cases x with
          | none => exact RenS.pure rfl
          | some x => exact RenS.pure (ren_merge w x ⟨[], [(ng, non)]⟩)
        · exact RenS.pure rfl
      · refine (ren_findExample h e gen [g]).bind (fun x => ?_)
        cases x with
        | some x => exact RenS.pure rfl
        | none =>
          refine (h.toAst e g).bind (fun s => ?_)
          rw [ren_checkExample]
          cases checkExample s gen with
          | some x => exact RenS.pure rfl
          | none =>
            refine (RenS.lift (ren_read w e.view g)).bind (fun c => ?_)
            rw [ren_mixed_reducesFrom]
            exact ren_findExample h e gen _
    cases hand <;> exact fin _ _

omit h in
theorem ren_findMap {α β : Type} [Ren β] {f f' : α → SM (Option β)} (hf : ∀ a, RenS w (f a) (f' a))
    (l : List α) : RenS w (findMap f l) (findMap f' l) := by
  induction l with
  | nil => exact RenS.pure rfl
  | cons a l ih =>
    refine (hf a).bind (fun x => ?_)
    cases x with
    | none => exact ih
    | some b => exact RenS.pure rfl

theorem ren_findExamples {β : Type} [Ren β] (e : Env) (gen : Syn) (set : List CId)
    {k k' : ExSubst → SM (Option β)} (hk : ∀ x, RenS w (k x) (k' (ren w x))) :
    RenS w (S.findExamples e gen set k) (S.findExamples (ren w e) (ren w gen) set k') := by
  unfold findExamples
  rw [ren_expansion]
  cases gen.expansion with
  | none =>
    simp only [ren_none, ren_containsBound]
    refine RenS.lift_rigid.bind (fun b => ?_)
    rw [ren_rigid]
    split
    · refine ren_findMap (fun c => (h.toAst e c).bind (fun t => ?_)) set
      have := hk ⟨[(gen.key, t)], []⟩
      rw [show ren w (ExSubst.mk [(gen.key, t)] []) = ⟨[((ren w gen).key, ren w t)], []⟩ by
        rw [ren_key]; rfl] at this
      exact this
    · exact RenS.fault _
  | some p =>
    obtain ⟨left, right⟩ := p
    simp only [ren_some, ren_pair, ren_containsBound]
    refine RenS.lift_rigid.bind (fun b => RenS.lift_rigid.bind (fun b' => ?_))
    rw [ren_rigid, ren_rigid]
    have half : ∀ g n hand, RenS w
        (do
          match ← findMap (S.halfStep e g n hand) set with
          | none => return none
          | some ex => k ex)
        (do
          match ← findMap (S.halfStep (ren w e) (ren w g) (ren w n) hand) set with
          | none => return none
          | some ex => k' ex) := by
      intro g n hand
      refine (ren_findMap (fun c => ren_halfStep h e g n hand c) set).bind (fun x => ?_)
      cases x with
      | none => exact RenS.pure rfl
      | some x => exact hk x
    cases b <;> cases b'
    · exact RenS.pure rfl
    · exact half right left .left
    · exact half left right .right
    · refine ren_findMap (fun c => (RenS.lift (ren_read w e.view c)).bind (fun m => ?_)) set
      rw [ren_mixed_composition]
      cases m.composition with
      | none => exact RenS.pure rfl
      | some p =>
        obtain ⟨el, er⟩ := p
        refine (RenS.lift (ren_read w e.view el)).bind (fun m => ?_)
        rw [ren_mixed_reducesFrom]
        refine (h.findEx e left _ _ _ (fun x => ren_rightMatch h e right er x)).bind (fun x => ?_)
        cases x with
        | none => exact RenS.pure rfl
        | some x => exact hk x

omit h in
theorem ren_implicationRule (a b c d e : Syn) :
    implicationRule (ren w a) (ren w b) (ren w c) (ren w d) (ren w e) = ren w (implicationRule a b c d e) := by
  simp only [implicationRule, ren_newPair]

theorem ren_inferFrom (e e' : Env) (imp op t cond red : Syn) (subs : ExSubst) :
    RenS w (S.inferFrom e e' imp op t cond red subs)
      (S.inferFrom (ren w e) (ren w e') (ren w imp) (ren w op) (ren w t) (ren w cond) (ren w red) (ren w subs)) := by
  unfold inferFrom
  rw [ren_gen, ren_key, ren_get?]
  cases subs.gen.get? cond.key with
  | none => exact RenS.pure rfl
  | some c =>
    refine (RenS.asParent (ren_substitute h e subs.exam c)).bind (fun sc => (h.recReduce e' sc none).bind (fun p => ?_))
    obtain ⟨nf, reason⟩ := p
    simp only [ren_pair, ren_concept, ren_env_view, ren_view_cct]
    cases nf.concept with
    | none => exact RenS.pure rfl
    | some x =>
      refine RenS.lift_rigid.bind (fun b => ?_)
      rw [ren_rigid]
      split
      · rw [ren_key, ren_get?]
        cases subs.gen.get? red.key with
        | none => exact RenS.pure rfl
        | some res =>
          refine (RenS.asParent (ren_substitute h e subs.exam res)).bind (fun t' => RenS.pure ?_)
          have := ren_implicationRule (w := w) imp op c t res
          simp only [this, ren_some, ren_pair, ren_inference]
          cases reason <;> rfl
      · exact RenS.pure rfl

theorem ren_findInferred (e : Env) (t : Syn) : RenS w (S.findInferred e t) (S.findInferred (ren w e) (ren w t)) := by
  unfold findInferred
  simp only [ren_env_view, ren_dir_concreteId]
  refine RenS.lift_rigid.bind (fun x => ?_)
  rw [ren_rigid]
  cases x with
  | none => exact RenS.pure rfl
  | some imp =>
    refine (ren_concreteAst h e .reduction).bind (fun x => ?_)
    cases x with
    | none => exact RenS.pure rfl
    | some op =>
      dsimp only [ren_some]
      rw [ren_view_delta, ren_spawn]
      refine (RenS.lift (ren_nested_insertNew w _ .boundVariable)).bind (fun p => ?_)
      obtain ⟨d, vr⟩ := p
      refine (RenS.lift (ren_nested_insertNew w d .boundVariable)).bind (fun p => ?_)
      obtain ⟨d, vc⟩ := p
      refine (RenS.lift (ren_nested_insertNew w d .boundVariable)).bind (fun p => ?_)
      obtain ⟨d, _⟩ := p
      have fin : ∀ e' : Env, RenS w
          (do
            let (r, _) ← SM.spawn [] (do
              let impSyn ← S.toAst e' imp
              match ← e'.view.concreteId .tru with
              | none => SM.fault (.panic .unwrapNone)
              | some tru => do
                let truths := (← e.view.read tru).reducesFrom ++ [tru]
                S.findExamples e'
                  (implicationRule impSyn op (View.newVariable vc) t (View.newVariable vr)) truths
                  (S.inferFrom e e' impSyn op t (View.newVariable vc) (View.newVariable vr)))
            return r)
          (do
            let (r, _) ← SM.spawn [] (do
              let impSyn ← S.toAst (ren w e') imp
              match ← (ren w e').view.concreteId .tru with
              | none => SM.fault (.panic .unwrapNone)
              | some tru => do
                let truths := (← (ren w e).view.read tru).reducesFrom ++ [tru]
                S.findExamples (ren w e')
                  (implicationRule impSyn (ren w op) (View.newVariable vc) (ren w t) (View.newVariable vr)) truths
                  (S.inferFrom (ren w e) (ren w e') impSyn (ren w op) (ren w t) (View.newVariable vc) (View.newVariable vr)))
            return r) := by
        intro e'
        refine (RenS.spawn rfl ((h.toAst e' imp).bind (fun impSyn => ?_))).bind (fun p => RenS.pure rfl)
        rw [ren_env_view, ren_dir_concreteId]
        refine RenS.lift_rigid.bind (fun x => ?_)
        rw [ren_rigid]
        cases x with
        | none => exact RenS.fault _
        | some tru =>
          refine (RenS.lift (ren_read w e.view tru)).bind (fun m => ?_)
          rw [ren_mixed_reducesFrom]
          have := ren_findExamples h e' (implicationRule impSyn op (View.newVariable vc) t (View.newVariable vr))
            (m.reducesFrom ++ [tru])
            (fun x => ren_inferFrom h e e' impSyn op t (View.newVariable vc) (View.newVariable vr) x)
          rw [← ren_implicationRule, ren_newVariable, ren_newVariable] at this
          exact this
      dsimp only [ren_pair]
      rw [ren_concept]
      exact fin { e with view := { e.view with delta := d }, inferring := match t.concept with
          | some c => setInsert e.inferring c
          | none => e.inferring }

theorem ren_inferStep (e : Env) (p : CId × CId) : RenS w (S.inferStep e p) (S.inferStep (ren w e) p) := by
  refine (h.toAst e p.1).bind (fun c => (h.reduce e c).bind (fun x => ?_))
  rcases x with _ | ⟨rc, reason⟩
  · exact RenS.pure rfl
  · simp only [ren_some, ren_pair, ren_concept]
    cases rc.concept with
    | none => exact RenS.pure rfl
    | some x =>
      simp only [ren_env_view, ren_view_cct]
      refine RenS.lift_rigid.bind (fun b => ?_)
      rw [ren_rigid]
      split
      · exact (h.toAst e x).bind (fun a => (h.toAst e p.2).bind (fun b => RenS.pure rfl))
      · exact RenS.pure rfl

theorem ren_inferReduction (e : Env) (c : Mixed) :
    RenS w (S.inferReduction e c) (S.inferReduction (ren w e) (ren w c)) := by
  unfold inferReduction
  simp only [ren_env_view, ren_dir_concreteId, ren_mixed_findAsHand]
  refine RenS.lift_rigid.bind (fun x => ?_)
  rw [ren_rigid]
  cases x with
  | none => exact RenS.pure rfl
  | some imp =>
    have fin : ∀ r : RR, RenS w
        (match r with
          | some r => return some r
          | none => do
            match (← get).inference? c.id with
            | some r => return r
            | none => do
              let t ← S.toAst e c.id
              let r ← S.findInferred e t
              modify (fun ca => ca.insertInference c.id r)
              return r)
        (match ren w r with
          | some r => return some r
          | none => do
            match (← get).inference? (ren w c).id with
            | some r => return r
            | none => do
              let t ← S.toAst (ren w e) (ren w c).id
              let r ← S.findInferred (ren w e) t
              modify (fun ca => ca.insertInference (ren w c).id r)
              return r) := by
      intro r
      rw [ren_mixed_id]
      cases r with
      | some r => exact RenS.pure rfl
      | none =>
        refine RenS.get.bind (fun ca => ?_)
        rw [ren_inference?]
        cases ca.inference? c.id with
        | some r => exact RenS.pure rfl
        | none =>
          refine (h.toAst e c.id).bind (fun t => (ren_findInferred h e t).bind (fun r => ?_))
          exact (RenS.modify (fun ca => ren_insertInference ca c.id r)).bind (fun _ => RenS.pure rfl)
    dsimp only
    cases c.findAsHand imp .right with
    | none => exact fin none
    | some comp =>
      refine (RenS.lift (ren_read w e.view comp)).bind (fun m => ?_)
      rw [ren_mixed_iterHandOf]
      exact (ren_findMap (fun p => ren_inferStep h e p) _).bind fin

theorem ren_reduceConcept (e : Env) (id : CId) : RenS w (S.reduceConcept e id) (S.reduceConcept (ren w e) id) := by
  refine (RenS.lift (ren_read w e.view id)).bind (fun c => ?_)
  have fin : ∀ r : RR, RenS w
      (match r with
        | some r => return some r
        | none =>
          match c.reduction with
          | none => return none
          | some n => do
            if ← isLeafVariable e n then return (e.mask.get n).map (fun s => (s, .explicit))
            else return some (← S.toAst e n, .explicit))
      (match ren w r with
        | some r => return some r
        | none =>
          match (ren w c).reduction with
          | none => return none
          | some n => do
            if ← isLeafVariable (ren w e) n then return ((ren w e).mask.get n).map (fun s => (s, .explicit))
            else return some (← S.toAst (ren w e) n, .explicit)) := by
    intro r
    cases r with
    | some r => exact RenS.pure rfl
    | none =>
      simp only [ren_none, ren_mixed_reduction]
      cases c.reduction with
      | none => exact RenS.pure rfl
      | some n =>
        simp only [ren_isLeafVariable]
        refine RenS.lift_rigid.bind (fun b => ?_)
        rw [ren_rigid]
        split
        · refine RenS.pure ?_
          rw [ren_env_mask, ren_masks_get]
          cases e.mask.get n <;> rfl
        · exact (h.toAst e n).bind (fun t => RenS.pure rfl)
  rw [ren_env_inferring]
  dsimp only
  by_cases hi : e.inferring.contains id = true
  · rw [if_pos hi, if_pos hi]
    exact fin none
  · rw [if_neg hi, if_neg hi]
    exact (ren_inferReduction h e c).bind fin

theorem ren_genLoop (e : Env) (t : Syn) (red : AMap Key RR) (gs : List CId) :
    RenS w (S.genLoop e t red gs) (S.genLoop (ren w e) (ren w t) (ren w red) gs) := by
  induction gs generalizing red with
  | nil => exact RenS.pure rfl
  | cons g gs ih =>
    refine (RenS.lift (ren_checkGeneralisation e t g)).bind (fun x => ?_)
    cases x with
    | none => exact ih red
    | some vm =>
      dsimp only [ren_some]
      rw [ren_isEmpty]
      split
      · exact ih red
      · rw [ren_env_mask, ren_masks_push]
        cases e.mask.push vm with
        | none => exact ih red
        | some ml =>
          have body : RenS w
              (do
                match ← S.reduceConcept { e with mask := ml } g with
                | none => return none
                | some (a, reason) => return some (← S.substitute { e with mask := ml } vm a, reason))
              (do
                match ← S.reduceConcept { ren w e with mask := ren w ml } g with
                | none => return none
                | some (a, reason) => return some (← S.substitute { ren w e with mask := ren w ml } (ren w vm) a, reason)) := by
            refine (ren_reduceConcept h { e with mask := ml } g).bind (fun x => ?_)
            rcases x with _ | ⟨a, reason⟩
            · exact RenS.pure rfl
            · exact (ren_substitute h { e with mask := ml } vm a).bind (fun s => RenS.pure rfl)
          refine (RenS.spawn (red := red) rfl body).bind (fun p => ?_)
          obtain ⟨r, red⟩ := p
          rcases r with _ | ⟨s, reason⟩
          · exact ih red
          · exact (h.toAst e g).bind (fun t => RenS.pure rfl)

omit h in
theorem ren_masked (e : Env) (t : Syn) :
    (((ren w t).concept.bind (ren w e).mask.get).getD (ren w t)) = ren w ((t.concept.bind e.mask.get).getD t) := by
  rw [ren_concept]
  cases t.concept with
  | none => rfl
  | some c =>
    simp only [Option.bind_some, ren_env_mask, ren_masks_get]
    cases e.mask.get c <;> rfl

theorem ren_recursivelyReducePair (e : Env) (l r : Syn) :
    RenS w (S.recursivelyReducePair e l r) (S.recursivelyReducePair (ren w e) (ren w l) (ren w r)) := by
  refine (h.reduce e l).bind (fun lr => (h.reduce e r).bind (fun rr => ?_))
  rcases lr with _ | ⟨la, lreason⟩ <;> rcases rr with _ | ⟨ra, rreason⟩
  · refine (ren_contractPair h e l r).bind (fun t => ?_)
    simp only [ren_env_view, ren_findGeneralisations]
    refine RenS.lift_rigid.bind (fun x => ?_)
    rw [ren_rigid w x]
    exact ren_genLoop h e t [] _
  · dsimp only [ren_some, ren_none, ren_pair]
    rw [ren_masked]
    refine (ren_contractPair h e _ ra).bind (fun s => RenS.pure ?_)
    have := ren_partialReason w [(r.key, ra, rreason)] .nil
    rw [ren_key]
    exact congrArg some (congrArg (Prod.mk _) this)
  · dsimp only [ren_some, ren_none, ren_pair]
    rw [ren_masked]
    refine (ren_contractPair h e la _).bind (fun s => RenS.pure ?_)
    have := ren_partialReason w [(l.key, la, lreason)] .nil
    rw [ren_key]
    exact congrArg some (congrArg (Prod.mk _) this)
  · refine (ren_contractPair h e la ra).bind (fun s => RenS.pure ?_)
    refine congrArg some (congrArg (Prod.mk _) ?_)
    have := ren_partialReason w (if l.key = r.key then [(r.key, ra, rreason)]
        else [(l.key, la, lreason), (r.key, ra, rreason)]) .nil
    show _ = ren w (partialReason _ _)
    rw [← this]
    congr 1
    simp only [ren_skey_inj]
    split <;> simp

theorem ren_compareSide (e : Env) (red : AMap Key RR) (t : Syn) :
    RenS w (S.compareSide e red t) (S.compareSide (ren w e) (ren w red) (ren w t)) := by
  unfold compareSide
  have fin : ∀ x : Option (Syn × Option Reason) × AMap Key RR, RenS w
      (match x.1 with
        | none => return ((none, none), x.2)
        | some (s, reason) => do return ((← cctOfAst e s, reason), x.2))
      (match (ren w x).1 with
        | none => return ((none, none), (ren w x).2)
        | some (s, reason) => do return ((← cctOfAst (ren w e) s, reason), (ren w x).2)) := by
    rintro ⟨_ | ⟨s, reason⟩, red⟩
    · exact RenS.pure rfl
    · simp only [ren_pair, ren_some, ren_cctOfAst]
      exact RenS.lift_rigid.bind (fun c => RenS.pure rfl)
  rw [ren_env_evaluating, ren_keys_contains]
  split
  · refine RenS.get.bind (fun ca => ?_)
    rw [ren_reduction?]
    rcases ca.reduction? t with _ | _ | ⟨s, reason⟩
    · exact fin (none, red)
    · exact fin (none, red)
    · exact fin (some (s, some reason), red)
  · have := h.recReduce { e with evaluating := setInsert e.evaluating t.key } t none
    have e1 : ren w { e with evaluating := setInsert e.evaluating t.key } =
        { ren w e with evaluating := setInsert (ren w e.evaluating) (ren w t).key } := by
      rw [ren_key, ren_setInsert]; rfl
    rw [e1] at this
    exact (RenS.spawn rfl this).bind (fun p => fin (some p.1, p.2))

theorem ren_compare (e : Env) (a b : Syn) : RenS w (S.compare e a b) (S.compare (ren w e) (ren w a) (ren w b)) := by
  unfold compare
  simp only [ren_skey_inj, ren_env_view, ren_dir_concreteId]
  split
  · exact RenS.pure rfl
  · refine RenS.lift_rigid.bind (fun x => ?_)
    rw [ren_rigid]
    cases x with
    | none => exact RenS.pure rfl
    | some g =>
      refine (h.toAst e g).bind (fun gt => ?_)
      refine (ren_combine h e gt b).bind (fun x => (ren_combine h e a x).bind (fun ab => ?_))
      refine (ren_combine h e gt a).bind (fun x => (ren_combine h e b x).bind (fun ba => ?_))
      refine (ren_compareSide h e [] ab).bind (fun p => ?_)
      obtain ⟨⟨x, reason⟩, red⟩ := p
      refine (ren_compareSide h e red ba).bind (fun p => ?_)
      obtain ⟨⟨y, reversed⟩, _⟩ := p
      dsimp only [ren_pair]
      rw [ren_rigid, ren_rigid]
      refine RenS.lift_rigid.bind (fun c => ?_)
      exact (RenS.lift (ren_simplifyReasoning w reason reversed)).bind (fun r => RenS.pure rfl)

theorem ren_evidenceF (e : Env) (l r : Syn) :
    RenS w (S.evidenceF e l r) (S.evidenceF (ren w e) (ren w l) (ren w r)) := by
  refine (h.reduce e l).bind (fun x => ?_)
  rcases x with _ | ⟨rl, reason⟩
  · exact RenS.pure rfl
  · simp only [ren_some, ren_pair, ren_skey_inj]
    split
    · exact RenS.pure rfl
    · refine (h.evidence e rl r).bind (fun x => ?_)
      cases x <;> exact RenS.pure rfl

theorem ren_reductionTruth (e : Env) (l r : Syn) :
    RenS w (S.reductionTruth e l r) (S.reductionTruth (ren w e) (ren w l) (ren w r)) := by
  unfold reductionTruth
  simp only [ren_skey_inj]
  split
  · exact RenS.pure rfl
  · refine (h.evidence e l r).bind (fun x => (h.evidence e r l).bind (fun y => ?_))
    cases x <;> cases y
    · exact RenS.pure rfl
    · exact RenS.pure rfl
    · exact RenS.pure rfl
    · exact RenS.fault _

theorem ren_reduceByRight (e : Env) (left rl rr : Syn) :
    RenS w (S.reduceByRight e left rl rr) (S.reduceByRight (ren w e) (ren w left) (ren w rl) (ren w rr)) := by
  unfold reduceByRight
  rw [ren_cctOfAst]
  refine RenS.lift_rigid.bind (fun x => ?_)
  rw [ren_rigid]
  have fin : ∀ (reason : Reason) (t : Option Syn),
      RenS w (pure (t.map (fun s => (s, reason)))) (pure ((ren w t).map (fun s => (s, ren w reason)))) := by
    intro reason t
    cases t <;> exact RenS.pure rfl
  split
  · refine (ren_compare h e left rr).bind (fun p => ?_)
    obtain ⟨c, reason⟩ := p
    cases c
    · exact (ren_concreteAst h e .tru).bind (fin _)
    · exact (ren_concreteAst h e .fls).bind (fin _)
    · exact fin (.comparison reason) none
    · exact (ren_concreteAst h e .fls).bind (fin _)
    · exact fin (.comparison reason) none
    · exact (ren_concreteAst h e .fls).bind (fin _)
  · refine (ren_reductionTruth h e left rr).bind (fun x => ?_)
    rcases x with _ | ⟨x, reason⟩
    · exact RenS.pure rfl
    · exact (ren_concreteAst h e _).bind (fin _)
  · exact RenS.pure rfl

theorem ren_reduceByLeft (e : Env) (ll lr right : Syn) :
    RenS w (S.reduceByLeft e ll lr right) (S.reduceByLeft (ren w e) (ren w ll) (ren w lr) (ren w right)) := by
  unfold reduceByLeft
  simp only [ren_cctOfAst, Zia.ren_isLeafVariable, ren_env_view, ren_dir_concreteId]
  refine RenS.lift_rigid.bind (fun x => ?_)
  rw [ren_rigid]
  split
  · split
    · refine RenS.lift_rigid.bind (fun x => ?_)
      rw [ren_rigid]
      cases x with
      | none => exact RenS.fault _
      | some tru =>
        refine (RenS.lift (ren_read w e.view tru)).bind (fun m => ?_)
        rw [ren_mixed_reducesFrom]
        refine (ren_findExample h e right _).bind (fun x => ?_)
        cases x with
        | none => exact RenS.pure rfl
        | some subs => exact (h.toAst e tru).bind (fun t => RenS.pure rfl)
    · exact RenS.pure rfl
  · exact RenS.pure rfl

theorem ren_reducePair (e : Env) (l r : Syn) :
    RenS w (S.reducePair e l r) (S.reducePair (ren w e) (ren w l) (ren w r)) := by
  have fin2 : ∀ y : RR, RenS w
      (match y with
        | some y => pure (some y)
        | none => S.recursivelyReducePair e l r)
      (match ren w y with
        | some y => pure (some y)
        | none => S.recursivelyReducePair (ren w e) (ren w l) (ren w r)) := by
    intro y
    cases y with
    | some y => exact RenS.pure rfl
    | none => exact ren_recursivelyReducePair h e l r
  have fin1 : ∀ x : RR, RenS w
      (match x with
        | some x => pure (some x)
        | none => do
          let y ← match l.expansion with
            | none => pure none
            | some (ll, lr) => S.reduceByLeft e ll lr r
          match y with
          | some y => return some y
          | none => S.recursivelyReducePair e l r)
      (match ren w x with
        | some x => pure (some x)
        | none => do
          let y ← match (ren w l).expansion with
            | none => pure none
            | some (ll, lr) => S.reduceByLeft (ren w e) ll lr (ren w r)
          match y with
          | some y => return some y
          | none => S.recursivelyReducePair (ren w e) (ren w l) (ren w r)) := by
    intro x
    rw [ren_expansion]
    cases x with
    | some x => exact RenS.pure rfl
    | none =>
      rcases l.expansion with _ | ⟨ll, lr⟩
      · exact fin2 none
      · exact (ren_reduceByLeft h e ll lr r).bind fin2
  unfold reducePair
  rw [ren_expansion w r]
  rcases r.expansion with _ | ⟨rl, rr⟩
  · exact fin1 none
  · exact (ren_reduceByRight h e l rl rr).bind fin1

theorem ren_reduceNow (e : Env) (t : Syn) : RenS w (S.reduceNow e t) (S.reduceNow (ren w e) (ren w t)) := by
  have fin : ∀ x : RR, RenS w
      (match x with
        | some x => pure (some x)
        | none =>
          match t.expansion with
          | none => pure none
          | some (l, r) => S.reducePair e l r)
      (match ren w x with
        | some x => pure (some x)
        | none =>
          match (ren w t).expansion with
          | none => pure none
          | some (l, r) => S.reducePair (ren w e) l r) := by
    intro x
    rw [ren_expansion]
    cases x with
    | some x => exact RenS.pure rfl
    | none =>
      rcases t.expansion with _ | ⟨l, r⟩
      · exact RenS.pure rfl
      · exact ren_reducePair h e l r
  unfold reduceNow
  rw [ren_concept]
  cases t.concept with
  | none => exact fin none
  | some c => exact (ren_reduceConcept h e c).bind fin

theorem ren_reduceF (e : Env) (t : Syn) : RenS w (S.reduceF e t) (S.reduceF (ren w e) (ren w t)) := by
  refine RenS.get.bind (fun ca => ?_)
  rw [ren_reduction?]
  cases ca.reduction? t with
  | some r => exact RenS.pure rfl
  | none =>
    dsimp only [ren_none]
    rw [ren_cctOfAst]
    refine RenS.lift_rigid.bind (fun x => ?_)
    rw [ren_rigid]
    split
    · exact RenS.pure rfl
    · exact (ren_reduceNow h e t).bind (fun r =>
        (RenS.modify (fun ca => ren_insertReduction ca t r)).bind (fun _ => RenS.pure rfl))

theorem ren_recReduceF (e : Env) (t : Syn) (reason : Option Reason) :
    RenS w (S.recReduceF e t reason) (S.recReduceF (ren w e) (ren w t) (ren w reason)) := by
  refine (h.reduce e t).bind (fun x => ?_)
  rcases x with _ | ⟨a, r⟩
  · exact RenS.pure rfl
  · dsimp only [ren_some, ren_pair]
    rw [ren_recursiveReason]
    exact h.recReduce e a (some (recursiveReason reason r t))

theorem ren_expandF (e : Env) (t : Syn) : RenS w (S.expandF e t) (S.expandF (ren w e) (ren w t)) := by
  unfold expandF
  rw [ren_concept, ren_expansion]
  cases t.concept with
  | none =>
    rcases t.expansion with _ | ⟨l, r⟩
    · exact RenS.pure rfl
    · exact (h.expand e l).bind (fun a => (h.expand e r).bind (fun b => ren_combine h e a b))
  | some c =>
    refine (RenS.lift (ren_read w e.view c)).bind (fun m => ?_)
    rw [ren_mixed_composition]
    rcases m.composition with _ | ⟨l, r⟩
    · exact h.toAst e c
    · exact (h.toAst e l).bind (fun tl => (h.expand e tl).bind (fun a =>
        (h.toAst e r).bind (fun tr => (h.expand e tr).bind (fun b => ren_combine h e a b))))

theorem ren_step : RenSearch w S.step where
  reduce := ren_reduceF h
  toAst := ren_toAstF h
  getAssoc := ren_getAssocF h
  recReduce := ren_recReduceF h
  findEx e g set _ _ hk := ren_findExamples h e g set hk
  evidence := ren_evidenceF h
  expand := ren_expandF h

omit h in
theorem ren_bottom : RenSearch w Search.bottom where
  reduce _ _ := RenS.fault _
  toAst _ _ := RenS.fault _
  getAssoc _ _ := RenS.fault _
  recReduce _ _ _ := RenS.fault _
  findEx _ _ _ _ _ _ := RenS.fault _
  evidence _ _ _ := RenS.fault _
  expand _ _ := RenS.fault _

end Search

theorem ren_search [Keyed] (n : Nat) : RenSearch w (search n) := by
  induction n with
  | zero => exact Search.ren_bottom
  | succ n ih => exact Search.ren_step ih

end Zia

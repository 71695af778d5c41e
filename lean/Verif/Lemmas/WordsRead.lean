import Verif.Lemmas.WordsStore

/-!
# Renaming and reading
-/

set_option linter.unusedSectionVars false

namespace Zia

open Spec HashOrder

variable (w : Words)

/-! ### Concepts under a change set -/

theorem ren_ofCon (c : Con) : Mixed.ofCon (ren w c) = ren w (Mixed.ofCon c) := by
  simp only [Mixed.ofCon, ren_con_composition, ren_con_reduction]; rfl

@[simp] theorem ren_mixed_id (m : Mixed) : (ren w m).id = m.id := by cases m <;> rfl
@[simp] theorem ren_mixed_isFree (m : Mixed) : (ren w m).isFree = m.isFree := by
  cases m <;> exact ren_con_isFree w _
@[simp] theorem ren_mixed_isBound (m : Mixed) : (ren w m).isBound = m.isBound := by
  cases m <;> exact ren_con_isBound w _
@[simp] theorem ren_mixed_isAnonymous (m : Mixed) : (ren w m).isAnonymous = m.isAnonymous := by
  cases m <;> exact ren_con_isAnonymous w _
@[simp] theorem ren_mixed_reducesFrom [HashOrder] (m : Mixed) : (ren w m).reducesFrom = m.reducesFrom := by
  cases m <;> rfl
@[simp] theorem ren_mixed_string (m : Mixed) : (ren w m).string = ren w m.string := by
  cases m <;> exact ren_con_string w _
@[simp] theorem ren_mixed_iterHandOf [HashOrder] (m : Mixed) (h : Hand) : (ren w m).iterHandOf h = m.iterHandOf h := by
  cases m <;> cases h <;> rfl
@[simp] theorem ren_mixed_reduction (m : Mixed) : (ren w m).reduction = m.reduction := by
  cases m with
  | prev => rfl
  | unc c => exact ren_con_reduction w c
@[simp] theorem ren_mixed_composition (m : Mixed) : (ren w m).composition = m.composition := by
  cases m with
  | prev => rfl
  | unc c => exact ren_con_composition w c
@[simp] theorem ren_mixed_findAsHand (m : Mixed) (o : CId) (h : Hand) :
    (ren w m).findAsHand o h = m.findAsHand o h := by
  cases m with
  | prev c l r f u red =>
    show Mixed.findAsHand (.prev (ren w c) l r f u red) o h = _
    simp only [Mixed.findAsHand, ren_con_findAsHand]
  | unc c => exact ren_con_findAsHand w c o h
@[simp] theorem ren_mixed_cct (m : Mixed) : (ren w m).cct = m.cct := by
  cases m <;> exact ren_con_cct w _

@[simp] theorem ren_mixed_maybe (m : Mixed) : (ren w m).maybeComposition = m.maybeComposition := by
  cases m with
  | prev c l r f u red =>
    show Mixed.maybeComposition (.prev (ren w c) l r f u red) = _
    simp only [Mixed.maybeComposition, ren_con_maybe]
  | unc c =>
    show Mixed.maybeComposition (.unc (ren w c)) = _
    simp only [Mixed.maybeComposition, ren_con_maybe]

theorem ren_mixed_changeReduction (m : Mixed) (ch : VChange CId) :
    RenE w (m.changeReduction ch) ((ren w m).changeReduction ch) := by
  cases m with
  | prev => cases ch <;> rfl
  | unc c =>
    have : RenE w (c.changeReduction ch >>= fun c => pure (Mixed.unc c))
        ((ren w c).changeReduction ch >>= fun c => pure (Mixed.unc c)) :=
      (ren_con_changeReduction w c ch).bind (fun c => rfl)
    cases ch <;> exact this

theorem ren_mixed_applyIndirect (m : Mixed) (d : Indirect CId) :
    RenE w (m.applyIndirect d) ((ren w m).applyIndirect d) := by
  cases m with
  | prev => cases d <;> rfl
  | unc c =>
    have : RenE w (c.applyIndirect d >>= fun c => pure (Mixed.unc c))
        ((ren w c).applyIndirect d >>= fun c => pure (Mixed.unc c)) :=
      (ren_con_applyIndirect w c d).bind (fun c => rfl)
    cases d <;> exact this

/-! ### Views -/

@[simp] theorem ren_view_snap (v : View) : (ren w v).snap = ren w v.snap := rfl
@[simp] theorem ren_view_delta (v : View) : (ren w v).delta = ren w v.delta := rfl

theorem ren_orPanic {α : Type} [Ren α] (p : Panic) (x : Option α) :
    RenE w (orPanic p x) (orPanic p (ren w x)) := by cases x <;> rfl

variable [HashOrder]

@[simp] theorem ren_view_getConcept (v : View) (id : CId) :
    (ren w v).getConcept id = ren w (v.getConcept id) := by
  cases id with
  | com n =>
    show ((ren w v.snap.concepts)[n]?).map Mixed.ofCon = ren w ((v.snap.concepts[n]?).map Mixed.ofCon)
    rw [ren_getElem?]
    cases v.snap.concepts[n]? with
    | none => rfl
    | some c => simp [ren_ofCon]
  | unc => rfl

theorem ren_readStep (id : CId) (c : Option Mixed) (d : CDelta) :
    RenE w (View.readStep id c d) (View.readStep id (ren w c) (ren w d)) := by
  cases d with
  | indirect d =>
    exact (ren_orPanic w _ c).bind (fun m => (ren_mixed_applyIndirect w m d).bind (fun m => rfl))
  | direct d =>
    cases d with
    | new d =>
      cases c with
      | some => rfl
      | none => exact RenE.ok (by rw [ren_ofNew]; rfl)
    | compose => rfl
    | reduce u ch =>
      show RenE w (ite _ _ _) (ite (u = id) _ _)
      split
      · exact (ren_orPanic w _ c).bind (fun m => (ren_mixed_changeReduction w m ch).bind (fun m => rfl))
      · rfl
    | remove x =>
      show RenE w (ite _ _ _) (ite (x = id ∧ (ren w c).isSome) _ _)
      rw [ren_isSome]
      split <;> rfl

theorem ren_readSteps (id : CId) (c : Option Mixed) (ds : List CDelta) :
    RenE w (View.readSteps id c ds) (View.readSteps id (ren w c) (ren w ds)) := by
  induction ds generalizing c with
  | nil => rfl
  | cons d ds ih => exact (ren_readStep w id c d).bind (fun c => ih c)

theorem ren_maybeRead (v : View) (id : CId) : RenE w (v.maybeRead id) ((ren w v).maybeRead id) := by
  simp only [View.maybeRead, ren_view_delta, ren_nested_getConcept]
  cases v.delta.getConcept id with
  | none => rfl
  | some ds =>
    simp only [ren_some, ren_view_getConcept]
    exact ren_readSteps w id _ ds

theorem ren_read (v : View) (id : CId) : RenE w (v.read id) ((ren w v).read id) := by
  refine (ren_maybeRead w v id).bind ?_
  rintro (_ | c)
  · rw [ren_view_getConcept]; exact ren_orPanic w _ _
  · rfl

/-- A reading of a concept that renaming does not touch. -/
theorem ren_read_rigid {α : Type} [Ren α] [Rigid α] (v : View) (id : CId) (f f' : Mixed → Except Fault α)
    (h : ∀ m, f' (ren w m) = f m) : (ren w v).read id >>= f' = v.read id >>= f :=
  ((ren_read w v id).bind (fun m => RenE.of_eq (h m))).eq

@[simp] theorem ren_maybeCct (v : View) (id : CId) : (ren w v).maybeCct id = v.maybeCct id :=
  RenE.eq (w := w) ((ren_maybeRead w v id).bind (fun m => RenE.pure (by
    cases m with
    | none => rfl
    | some m => simp [Option.bind])))

@[simp] theorem ren_view_cct (v : View) (id : CId) : (ren w v).cct id = v.cct id :=
  ren_read_rigid w v id _ _ (fun m => by simp)

theorem ren_concreteStep (id : CId) (acc : Option (Option CId)) (ds : List CDelta) :
    View.concreteStep id acc (ren w ds) = View.concreteStep id acc ds := by
  induction ds generalizing acc with
  | nil => rfl
  | cons d ds ih =>
    rcases d with (_ | _ | _ | x) | _
    · exact ih _
    · exact ih _
    · exact ih _
    · show (ite (some (some x) = acc) _ _) = ite (some (some x) = acc) _ _
      split
      · exact ih _
      · rfl
    · exact ih _

theorem ren_concreteLoop (v : View) (cc : CCT) (acc : Option (Option CId)) (l : List (CId × List CDelta)) :
    View.concreteLoop (ren w v) cc acc (ren w l) = View.concreteLoop v cc acc l := by
  induction l generalizing acc with
  | nil => rfl
  | cons p l ih =>
    obtain ⟨id, ds⟩ := p
    simp only [ren_list_cons, ren_pair, ren_rigid, View.concreteLoop, ren_maybeCct, ren_concreteStep, ih]

variable (hO : ByKeys)

include hO

theorem ren_concreteId (v : View) (cc : CCT) : (ren w v).concreteId cc = v.concreteId cc := by
  simp only [View.concreteId, ren_view_delta, ren_iterConcepts, ren_view_snap, ren_snap_concrete]
  have : order (ren w v.delta.iterConcepts) = ren w (order v.delta.iterConcepts) :=
    hO (ren w) v.delta.iterConcepts
  rw [this, ren_concreteLoop]

omit hO

theorem ren_stringConcept (v : View) (s : Str) : (ren w v).stringConcept (ren w s) = v.stringConcept s := by
  simp only [View.stringConcept, ren_view_snap, ren_view_delta, ren_snap_stringMap, ren_get?, ren_getString,
    ren_rigid]

theorem ren_labelleeLoop (v : View) (n : Nat) (cs : List CId) :
    View.labelleeLoop (ren w v) n cs = View.labelleeLoop v n cs := by
  induction n generalizing cs with
  | zero => rfl
  | succ n ih =>
    cases cs with
    | nil => rfl
    | cons c cs =>
      refine ren_read_rigid w v c _ _ (fun m => ?_)
      simp only [ren_mixed_composition, ren_mixed_reducesFrom, ren_view_cct, ih]

theorem ren_labellee (v : View) (n : Nat) (c : CId) : (ren w v).labellee n c = v.labellee n c :=
  ren_read_rigid w v c _ _ (fun m => by simp only [ren_mixed_reducesFrom, ren_labelleeLoop])

theorem ren_conceptFromLabel (v : View) (n : Nat) (s : Str) :
    (ren w v).conceptFromLabel n (ren w s) = v.conceptFromLabel n s := by
  simp only [View.conceptFromLabel, ren_stringConcept, ren_labellee]

theorem ren_normalForm (v : View) (n : Nat) (c : CId) : (ren w v).normalForm n c = v.normalForm n c := by
  induction n generalizing c with
  | zero => rfl
  | succ n ih =>
    exact ren_read_rigid w v c _ _ (fun m => by simp only [ren_mixed_reduction, ih])

include hO in
theorem ren_conceptOfLabel (v : View) (c : CId) : (ren w v).conceptOfLabel c = v.conceptOfLabel c := by
  simp only [View.conceptOfLabel, ren_concreteId w hO]
  congr 1
  funext x
  cases x with
  | none => rfl
  | some l => exact ren_read_rigid w v c _ _ (fun m => by simp only [ren_mixed_findAsHand])

include hO in
theorem ren_label (v : View) (n : Nat) (c : CId) : RenE w (v.label n c) ((ren w v).label n c) := by
  induction n generalizing c with
  | zero => rfl
  | succ n ih =>
    simp only [View.label, ren_conceptOfLabel w hO, ren_normalForm]
    refine RenE.bind_rigid (fun x => ?_)
    cases x with
    | none =>
      refine (ren_read w v c).bind (fun m => ?_)
      simp only [ren_mixed_reduction]
      cases m.reduction with
      | none => rfl
      | some r => exact ih r
    | some d =>
      refine RenE.bind_rigid (fun y => ?_)
      cases y with
      | none => rfl
      | some x => exact (ren_read w v x).bind (fun m => RenE.pure (by rw [ren_mixed_string]))

theorem ren_view_contains (v : View) (n : Nat) (a b : CId) :
    (ren w v).contains n a b = v.contains n a b := by
  induction n generalizing a with
  | zero => rfl
  | succ n ih => exact ren_read_rigid w v a _ _ (fun m => by simp only [ren_mixed_composition, ih])

theorem ren_checkReductions (v : View) (n : Nat) (a b : CId) :
    RenE w (v.checkReductions n a b) ((ren w v).checkReductions n a b) := by
  induction n generalizing b with
  | zero => rfl
  | succ n ih =>
    refine (ren_read w v b).bind (fun m => ?_)
    rw [ren_mixed_reduction]
    cases m.reduction with
    | none => rfl
    | some r =>
      simp only [ren_view_contains]
      split
      · rfl
      · refine RenE.bind_rigid (fun b => ?_)
        split
        · rfl
        · exact ih r

theorem ren_reductionBoth (v : View) (n : Nat) :
    (∀ c, (ren w v).reductionOfComposition n c = v.reductionOfComposition n c) ∧
    ∀ c, RenE w (v.reductionOrComposition n c) ((ren w v).reductionOrComposition n c) := by
  induction n with
  | zero => exact ⟨fun _ => rfl, fun _ => rfl⟩
  | succ n ih =>
    constructor
    · intro c
      refine ren_read_rigid w v c _ _ (fun m => ?_)
      simp only [ren_mixed_composition]
      cases m.composition with
      | none => rfl
      | some p =>
        obtain ⟨l, r⟩ := p
        refine RenE.eq (w := w) ?_
        refine (ih.2 l).bind (fun cl => (ih.2 r).bind (fun cr => RenE.pure ?_))
        simp only [ren_mixed_findAsHand, ren_mixed_id, ren_rigid]
    · intro c
      refine (ren_read w v c).bind (fun m => ?_)
      simp only [ren_mixed_reduction]
      cases m.reduction with
      | none =>
        simp only [ih.1 c]
        exact RenE.bind_rigid (fun x => ren_read w v x)
      | some r => exact ren_read w v r

include hO in
theorem ren_rightOfWithout (v : View) (c : CId) :
    (ren w v).rightOfWithoutLabelIsEmpty c = v.rightOfWithoutLabelIsEmpty c := by
  simp only [View.rightOfWithoutLabelIsEmpty, ren_concreteId w hO]
  congr 1
  funext x
  cases x with
  | none => rfl
  | some l => exact ren_read_rigid w v c _ _ (fun m => by simp only [ren_mixed_findAsHand])

include hO in
theorem ren_isDisconnected (v : View) (c : CId) : (ren w v).isDisconnected c = v.isDisconnected c := by
  refine ren_read_rigid w v c _ _ (fun m => ?_)
  simp only [ren_mixed_reduction, ren_mixed_composition, ren_mixed_iterHandOf, ren_mixed_reducesFrom,
    ren_rightOfWithout w hO]

theorem ren_bindQuantifierConcept (t : Syn) (c : CId) :
    RenE w (t.bindQuantifierConcept c) ((ren w t).bindQuantifierConcept c) := by
  cases t with
  | leaf s k l => cases l <;> rfl
  | branch => rfl

theorem ren_bindConceptToSyntax (v : View) (t : Syn) (c : CId) :
    RenE w (v.bindConceptToSyntax t c) ((ren w v).bindConceptToSyntax (ren w t) c) := by
  simp only [View.bindConceptToSyntax, ren_view_cct]
  refine RenE.bind_rigid (fun x => ?_)
  split
  · exact ren_bindQuantifierConcept w t c
  · exact RenE.pure (by rw [ren_bindConcept])

theorem ren_astFromSymbol (v : View) (n : Nat) (s : Str) :
    RenE w (v.astFromSymbol n s) ((ren w v).astFromSymbol n (ren w s)) := by
  simp only [View.astFromSymbol, ren_conceptFromLabel, ren_ofStr]
  refine RenE.bind_rigid (fun x => ?_)
  cases x with
  | none => rfl
  | some c => exact ren_bindConceptToSyntax w v _ c

theorem ren_newSyntax (m : Mixed) : View.newSyntaxFromConcept (ren w m) = ren w (View.newSyntaxFromConcept m) := by
  have h : ∀ (p : Str) (c : CId), Reserved p → p ++ ' ' :: c.display = ren w (p ++ ' ' :: c.display) := by
    intro p c hp
    rw [ren_append_sep w sep_space, ren_display, ren_word w (reserved_word hp), w.keeps p hp]
  simp only [View.newSyntaxFromConcept, ren_mixed_cct, ren_mixed_isAnonymous, ren_mixed_id]
  split
  · show Syn.leaf (some (str% "quantifier" ++ ' ' :: m.id.display)) _ _ =
      Syn.leaf (some (ren w (str% "quantifier" ++ ' ' :: m.id.display))) _ _
    rw [← h _ _ (.inl (by decide))]
  · split
    · show Syn.leaf (some (str% "variable" ++ ' ' :: m.id.display)) _ _ =
        Syn.leaf (some (ren w (str% "variable" ++ ' ' :: m.id.display))) _ _
      rw [← h _ _ (.inl (by decide))]
    · show Syn.leaf (some (str% "constant" ++ ' ' :: m.id.display)) _ _ =
        Syn.leaf (some (ren w (str% "constant" ++ ' ' :: m.id.display))) _ _
      rw [← h _ _ (.inl (by decide))]

theorem ren_newVariable (c : CId) : ren w (View.newVariable c) = View.newVariable c := by
  show Syn.leaf (some (ren w (str% "variable" ++ ' ' :: c.display))) _ _ = _
  rw [ren_append_sep w sep_space, ren_display, ren_word w (by decide), w.keeps _ (.inl (by decide))]
  rfl

theorem ren_syn_display (t : Syn) : RenE w t.display (ren w t).display := by
  induction t with
  | leaf s c l => cases s <;> rfl
  | branch s c l r f b ihl ihr =>
    cases s with
    | some s => rfl
    | none =>
      exact ihl.bind (fun a => ihr.bind (fun b => RenE.pure (ren_append_sep w sep_space a b).symm))

end Zia

import Verif.Lemmas.WordsData

/-!
# Renaming and the store

Concepts, change sets, the committed store and reading commute with renaming.
-/

namespace Zia

open Spec HashOrder

/-- The second result is the first one renamed. -/
def RenE {α : Type} [Ren α] (w : Words) (x x' : Except Fault α) : Prop := x' = ren w <$> x

instance {Id : Type} : Ren (MComp Id) := ⟨fun _ x => x⟩
instance {Id : Type} : Rigid (MComp Id) := ⟨fun _ _ => rfl⟩

namespace RenE

variable {α β : Type} [Ren α] [Ren β] {w : Words}

theorem pure {a a' : α} (h : a' = ren w a) : RenE w (Pure.pure a) (Pure.pure a') := by rw [h]; rfl

theorem ok {a a' : α} (h : a' = ren w a) : RenE w (.ok a) (.ok a') := by rw [h]; rfl

theorem error (e : Fault) : RenE w (.error e : Except Fault α) (.error e) := rfl

theorem bind {x x' : Except Fault α} {f f' : α → Except Fault β} (h : RenE w x x')
    (hf : ∀ a, RenE w (f a) (f' (ren w a))) : RenE w (x >>= f) (x' >>= f') := by
  cases h
  cases x with
  | error e => rfl
  | ok a => exact hf a

theorem of_eq [Rigid α] {x x' : Except Fault α} (h : x' = x) : RenE w x x' := by
  subst h
  cases x' with
  | error e => rfl
  | ok a => show _ = Except.ok (ren w a); rw [ren_rigid]

theorem eq [Rigid α] {x x' : Except Fault α} (h : RenE w x x') : x' = x := by
  cases h
  cases x with
  | error e => rfl
  | ok a => show Except.ok (ren w a) = _; rw [ren_rigid]

theorem bind_rigid [Rigid α] {x : Except Fault α} {f f' : α → Except Fault β}
    (hf : ∀ a, RenE w (f a) (f' a)) : RenE w (x >>= f) (x >>= f') := by
  cases x with
  | error e => rfl
  | ok a => exact hf a

end RenE

/-! ### Concepts -/

section

variable {Id : Type} [DecidableEq Id] (w : Words)

omit [DecidableEq Id]

@[simp] theorem ren_con_id (c : Concept Id) : (ren w c).id = c.id := rfl
@[simp] theorem ren_con_leftOf (c : Concept Id) : (ren w c).leftOf = c.leftOf := rfl
@[simp] theorem ren_con_rightOf (c : Concept Id) : (ren w c).rightOf = c.rightOf := rfl
@[simp] theorem ren_con_redFrom (c : Concept Id) : (ren w c).redFrom = c.redFrom := rfl
@[simp] theorem ren_con_spec (c : Concept Id) : (ren w c).spec = ren w c.spec := rfl

/-- Take a concept apart, by its specific part. -/
local macro "con" c:ident : tactic =>
  `(tactic| (obtain ⟨id, lo, ro, rf, spec⟩ := $c:ident; cases spec <;> rfl))

@[simp] theorem ren_con_maybe (c : Concept Id) : (ren w c).maybeComposition = c.maybeComposition := by
  con c
@[simp] theorem ren_con_reduction (c : Concept Id) : (ren w c).reduction = c.reduction := by con c
@[simp] theorem ren_con_composition (c : Concept Id) : (ren w c).composition = c.composition := by con c
@[simp] theorem ren_con_string (c : Concept Id) : (ren w c).string = ren w c.string := by con c
@[simp] theorem ren_con_cct (c : Concept Id) : (ren w c).cct = c.cct := by con c
@[simp] theorem ren_con_isFree (c : Concept Id) : (ren w c).isFree = c.isFree := by con c
@[simp] theorem ren_con_isBound (c : Concept Id) : (ren w c).isBound = c.isBound := by con c
@[simp] theorem ren_con_isAnonymous (c : Concept Id) : (ren w c).isAnonymous = c.isAnonymous := by con c
@[simp] theorem ren_con_handOf (c : Concept Id) (h : Hand) : (ren w c).handOf h = c.handOf h := by
  cases h <;> rfl

variable [DecidableEq Id]

@[simp] theorem ren_con_findAsHand (c : Concept Id) (o : Id) (h : Hand) :
    (ren w c).findAsHand o h = c.findAsHand o h := by
  simp only [Concept.findAsHand, ren_con_handOf]

theorem ren_makeReduceTo (c o : Concept Id) :
    RenE w (c.makeReduceTo o) ((ren w c).makeReduceTo (ren w o)) := by con c

theorem ren_makeNoLongerReduceTo (c o : Concept Id) :
    RenE w (c.makeNoLongerReduceTo o) ((ren w c).makeNoLongerReduceTo (ren w o)) := by con c

theorem ren_compositionVars (l r : Concept Id) :
    compositionVars (ren w l) (ren w r) = compositionVars l r := by
  obtain ⟨id, lo, ro, rf, spec⟩ := l
  obtain ⟨id', lo', ro', rf', spec'⟩ := r
  cases spec <;> cases spec' <;> rfl

theorem ren_compositionOf (k : Id) (l r : Concept Id) :
    RenE w (compositionOf k l r) (compositionOf k (ren w l) (ren w r)) := by
  simp only [compositionOf, ren_compositionVars, ren_con_leftOf, ren_con_rightOf, ren_con_id]
  cases insertInto l.leftOf r.id k with
  | error e => rfl
  | ok a => cases insertInto r.rightOf l.id k <;> rfl

theorem ren_leafOrConcrete (t : Option CCT) : ren w (leafOrConcrete t : Specific Id) = leafOrConcrete t := by
  cases t <;> rfl

theorem ren_lefthandOf (id : Id) (r k : Concept Id) (t : Option CCT) :
    RenE w (lefthandOf id r k t) (lefthandOf id (ren w r) (ren w k) t) := by
  obtain ⟨kid, lo, ro, rf, spec⟩ := k
  rcases spec with x | ⟨_ | (_ | _ | _), red⟩ | x <;> try rfl
  simp only [lefthandOf, ren_con_rightOf, ren_con_cct, ren_con_id]
  show RenE w _ (insertInto r.rightOf id kid >>= _)
  cases insertInto r.rightOf id kid with
  | error e => rfl
  | ok a =>
    obtain ⟨id', lo', ro', rf', spec'⟩ := r
    cases spec' <;> cases t <;> rfl

theorem ren_righthandOf (id : Id) (l k : Concept Id) (t : Option CCT) :
    RenE w (righthandOf id l k t) (righthandOf id (ren w l) (ren w k) t) := by
  obtain ⟨kid, lo, ro, rf, spec⟩ := k
  rcases spec with x | ⟨_ | (_ | _ | _), red⟩ | x <;> try rfl
  simp only [righthandOf, ren_con_leftOf, ren_con_id]
  show RenE w _ (insertInto l.leftOf id kid >>= _)
  cases insertInto l.leftOf id kid with
  | error e => rfl
  | ok a =>
    obtain ⟨id', lo', ro', rf', spec'⟩ := l
    cases spec' <;> cases t <;> rfl

theorem ren_doubleOf (id : Id) (k : Concept Id) (t : Option CCT) :
    RenE w (doubleOf id k t) (doubleOf id (ren w k) t) := by
  obtain ⟨kid, lo, ro, rf, spec⟩ := k
  cases spec <;> first | rfl | (cases t <;> rfl)

theorem ren_reductionTo (id : Id) (r : Concept Id) :
    reductionTo id (ren w r) = ren w (reductionTo id r) := rfl

theorem ren_composeCreate (c l r : Concept Id) :
    RenE w (c.composeCreate l r) ((ren w c).composeCreate (ren w l) (ren w r)) := by
  obtain ⟨id, lo, ro, rf, spec⟩ := c
  cases spec with
  | abst mc red =>
    exact (ren_compositionOf w id l r).bind (fun ⟨mc, l, r⟩ => rfl)
  | concrete => rfl
  | str => rfl

theorem ren_forgetHands (c l r : Concept Id) :
    (ren w c).forgetHands (ren w l) (ren w r) = ren w (c.forgetHands l r) := rfl

theorem ren_composeRemove (c l r : Concept Id) :
    RenE w (c.composeRemove l r) ((ren w c).composeRemove (ren w l) (ren w r)) := by con c

theorem ren_con_changeReduction (c : Concept Id) (ch : VChange Id) :
    RenE w (c.changeReduction ch) ((ren w c).changeReduction ch) := by
  obtain ⟨id, lo, ro, rf, spec⟩ := c
  cases spec <;> cases ch <;> try rfl
  show RenE w (ite _ _ _) (ite _ _ _)
  split <;> rfl

theorem ren_con_applyIndirect (c : Concept Id) (d : Indirect Id) :
    RenE w (c.applyIndirect d) ((ren w c).applyIndirect d) := by
  obtain ⟨id, lo, ro, rf, spec⟩ := c
  cases d <;> try rfl
  · show RenE w (insertInto lo _ _ >>= _) (insertInto lo _ _ >>= _)
    cases insertInto lo _ _ <;> rfl
  · show RenE w (insertInto ro _ _ >>= _) (insertInto ro _ _ >>= _)
    cases insertInto ro _ _ <;> rfl
  · cases spec <;> rfl

omit [DecidableEq Id] in
theorem ren_ofNew (id : Id) (d : NewDelta Id) : Concept.ofNew id (ren w d) = ren w (Concept.ofNew id d) := by
  cases d with
  | left k r t => cases t <;> rfl
  | right k r t => cases t <;> rfl
  | double k t => cases t <;> rfl
  | _ => rfl

end

/-! ### Change sets -/

section

variable (w : Words)

@[simp] theorem ren_delta_string (d : Delta) : (ren w d).string = ren w d.string := rfl
@[simp] theorem ren_delta_num (d : Delta) : (ren w d).num = d.num := rfl
@[simp] theorem ren_delta_order (d : Delta) : (ren w d).order = ren w d.order := rfl
@[simp] theorem ren_delta_concept (d : Delta) : (ren w d).concept = ren w d.concept := rfl

theorem ren_insertExisting (d : Delta) (id : CId) (cd : CDelta) :
    RenE w (d.insertExisting id cd) ((ren w d).insertExisting id (ren w cd)) := by
  simp only [Delta.insertExisting, ren_delta_concept, ren_get?_id]
  cases AMap.get? d.concept id with
  | none =>
    refine RenE.ok ?_
    have := ren_insert_id w d.concept id [cd]
    rw [ren_list_cons, ren_list_nil] at this
    rw [this]; rfl
  | some v =>
    simp only [ren_some, ren_getLast?]
    have hok : RenE w (.ok ({ d with concept := d.concept.insert id (v ++ [cd]) } : Delta))
        (.ok ({ ren w d with concept := (ren w d.concept).insert id (ren w v ++ [ren w cd]) } : Delta)) := by
      refine RenE.ok ?_
      have := ren_insert_id w d.concept id (v ++ [cd])
      rw [ren_append, ren_list_cons, ren_list_nil] at this
      rw [this]; rfl
    rcases v.getLast? with _ | ⟨_ | _ | _ | _⟩ | _
    · rfl
    all_goals first | exact hok | rfl

theorem ren_insertExisting' (d : Delta) (id : CId) (i : Indirect CId) :
    RenE w (d.insertExisting id (.indirect i)) ((ren w d).insertExisting id (.indirect i)) :=
  ren_insertExisting w d id (.indirect i)

theorem ren_insertNew (d : Delta) (nd : NewDelta CId) :
    RenE w (d.insertNew nd) ((ren w d).insertNew (ren w nd)) := by
  simp only [Delta.insertNew, ren_delta_concept, ren_delta_num, ren_get?_id]
  cases AMap.get? d.concept (.unc d.num) with
  | none =>
    refine RenE.ok ?_
    have := ren_insert_id w d.concept (.unc d.num) [.direct (.new nd)]
    rw [ren_list_cons, ren_list_nil] at this
    show (({ ren w d with num := d.num + 1, concept := (ren w d.concept).insert (.unc d.num) [ren w (CDelta.direct (.new nd))] } : Delta), _) = _
    rw [this]; rfl
  | some v =>
    simp only [ren_some, ren_getLast?]
    have hok : RenE w (.ok (({ d with num := d.num + 1, concept := d.concept.insert (.unc d.num) (v ++ [.direct (.new nd)]) } : Delta), CId.unc d.num))
        (.ok (({ ren w d with num := d.num + 1, concept := (ren w d.concept).insert (.unc d.num) (ren w v ++ [.direct (.new (ren w nd))]) } : Delta),
          CId.unc d.num)) := by
      refine RenE.ok ?_
      have := ren_insert_id w d.concept (.unc d.num) (v ++ [.direct (.new nd)])
      rw [ren_append, ren_list_cons, ren_list_nil] at this
      show (({ ren w d with num := d.num + 1, concept := (ren w d.concept).insert (.unc d.num) (ren w v ++ [ren w (CDelta.direct (.new nd))]) } : Delta), _) = _
      rw [this]; rfl
    rcases v.getLast? with _ | ⟨_ | _ | _ | _⟩ | _
    · rfl
    all_goals first | exact hok | rfl

theorem ren_insertString (d : Delta) (s : Str) (id : CId) :
    RenE w (d.insertString s id) ((ren w d).insertString (ren w s) id) := by
  simp only [Delta.insertString, ren_delta_string, ren_get?, ren_rigid]
  rcases AMap.get? d.string s with _ | (_ | _ | b)
  · refine RenE.ok ?_
    have := ren_insert w d.string s (.create id)
    rw [ren_rigid w (VChange.create id)] at this
    rw [this]; rfl
  · rfl
  · rfl
  · refine RenE.ok ?_
    have := ren_insert w d.string s (.update b id)
    rw [ren_rigid w (VChange.update b id)] at this
    rw [this]; rfl

theorem ren_updateNew (d : Delta) (nd : NewDelta CId) :
    RenE w (d.updateNew nd) ((ren w d).updateNew (ren w nd)) := by
  refine (ren_insertNew w d nd).bind ?_
  rintro ⟨d, id⟩
  cases nd with
  | freeVariable => rfl
  | boundVariable => rfl
  | str s => exact (ren_insertString w d s id).bind (fun d => rfl)
  | composition p =>
    exact (ren_insertExisting' w d _ _).bind (fun d => (ren_insertExisting' w d _ _).bind (fun d => rfl))
  | left k r t =>
    exact (ren_insertExisting' w d _ _).bind (fun d => (ren_insertExisting' w d _ _).bind (fun d => rfl))
  | right k r t =>
    exact (ren_insertExisting' w d _ _).bind (fun d => (ren_insertExisting' w d _ _).bind (fun d => rfl))
  | double k t => exact (ren_insertExisting' w d _ _).bind (fun d => rfl)
  | reducesTo r => exact (ren_insertExisting' w d _ _).bind (fun d => rfl)

theorem ren_unlinkHands (d : Delta) (p : CompPair CId) :
    RenE w (d.unlinkHands p) ((ren w d).unlinkHands p) :=
  (ren_insertExisting' w d _ _).bind (fun d => ren_insertExisting' w d _ _)

theorem ren_linkHands (d : Delta) (k : CId) (p : CompPair CId) :
    RenE w (d.linkHands k p) ((ren w d).linkHands k p) :=
  (ren_insertExisting' w d _ _).bind (fun d => ren_insertExisting' w d _ _)

theorem ren_update (d : Delta) (dd : Direct CId) :
    RenE w (d.update dd) ((ren w d).update (ren w dd)) := by
  have fin : ∀ p : Delta × CId, RenE w
      (pure ({ p.1 with order := p.1.order ++ [(p.2, dd)] }, p.2) : Except Fault (Delta × CId))
      (pure ({ (ren w p).1 with order := (ren w p).1.order ++ [((ren w p).2, ren w dd)] }, (ren w p).2)) := by
    rintro ⟨d, id⟩
    refine RenE.pure ?_
    show (({ ren w d with order := ren w d.order ++ ren w [(id, dd)] } : Delta), id) = _
    rw [← ren_append]; rfl
  cases dd with
  | new nd => exact (ren_updateNew w d nd).bind (fun p => fin p)
  | compose k ch =>
    refine (ren_insertExisting w d k (.direct (.compose k ch))).bind (fun d => ?_)
    cases ch with
    | create a => exact (ren_linkHands w d k a).bind (fun d => fin (d, k))
    | update b a =>
      exact (ren_unlinkHands w d b).bind (fun d => (ren_linkHands w d k a).bind (fun d => fin (d, k)))
    | remove b => exact (ren_unlinkHands w d b).bind (fun d => fin (d, k))
  | reduce u ch =>
    refine (ren_insertExisting w d u (.direct (.reduce u ch))).bind (fun d => ?_)
    cases ch with
    | create a => exact (ren_insertExisting' w d _ _).bind (fun d => fin (d, u))
    | update b a =>
      exact (ren_insertExisting' w d _ _).bind
        (fun d => (ren_insertExisting' w d _ _).bind (fun d => fin (d, u)))
    | remove b => exact (ren_insertExisting' w d _ _).bind (fun d => fin (d, u))
  | remove id => exact (ren_insertExisting w d id (.direct (.remove id))).bind (fun d => fin (d, id))

@[simp] theorem ren_overlay (n : Nested) : (ren w n).overlay = ren w n.overlay := by cases n <;> rfl
@[simp] theorem ren_setOverlay (n : Nested) (d : Delta) :
    (ren w n).setOverlay (ren w d) = ren w (n.setOverlay d) := by cases n <;> rfl
@[simp] theorem ren_spawn (n : Nested) : (ren w n).spawn = ren w n.spawn := by
  show Nested.over (ren w n) (Delta.empty (ren w n).overlay.num) = _
  rw [ren_overlay]; rfl

theorem ren_nested_update (n : Nested) (dd : Direct CId) :
    RenE w (n.update dd) ((ren w n).update (ren w dd)) := by
  simp only [Nested.update, ren_overlay]
  refine (ren_update w n.overlay dd).bind ?_
  rintro ⟨d, id⟩
  exact RenE.pure (by simp [ren_setOverlay])

theorem ren_nested_insertNew (n : Nested) (nd : NewDelta CId) :
    RenE w (n.insertNew nd) ((ren w n).insertNew (ren w nd)) := by
  simp only [Nested.insertNew, ren_overlay]
  refine (ren_insertNew w n.overlay nd).bind ?_
  rintro ⟨d, id⟩
  exact RenE.pure (by simp [ren_setOverlay])

theorem ren_getString (n : Nested) (s : Str) : (ren w n).getString (ren w s) = n.getString s := by
  induction n with
  | base o =>
    show combineString none (AMap.get? (ren w o).string (ren w s)) = _
    rw [ren_delta_string, ren_get?, ren_rigid]; rfl
  | over i o ih =>
    show ((ren w i).getString (ren w s) >>= fun x => combineString x (AMap.get? (ren w o).string (ren w s))) = _
    rw [ih, ren_delta_string, ren_get?, ren_rigid]; rfl

theorem ren_mapM {α β : Type} [Ren α] [Ren β] {f f' : α → Except Fault β} (l : List α)
    (h : ∀ a, RenE w (f a) (f' (ren w a))) : RenE w (l.mapM f) ((ren w l).mapM f') := by
  induction l with
  | nil => rfl
  | cons a l ih =>
    rw [ren_list_cons, List.mapM_cons, List.mapM_cons]
    exact (h a).bind (fun b => ih.bind (fun bs => rfl))

theorem ren_iterString (n : Nested) : RenE w n.iterString (ren w n).iterString := by
  induction n with
  | base o => rfl
  | over i o ih =>
    show RenE w ((Nested.over i o).iterString) ((Nested.over (ren w i) (ren w o)).iterString)
    simp only [Nested.iterString, ren_delta_string]
    refine ih.bind (fun inner => ?_)
    refine (ren_mapM w o.string ?_).bind ?_
    · rintro ⟨s, v⟩
      show RenE w ((Nested.over i o).getString s >>= _)
        ((ren w (Nested.over i o)).getString (ren w s) >>= _)
      rw [ren_getString]
      cases (Nested.over i o).getString s with
      | error e => rfl
      | ok a => exact RenE.ok (by simp)
    · intro outer
      refine RenE.pure ?_
      rw [ren_append]
      congr 1
      · exact ren_filter w _ _ (fun p => by rw [ren_fst, ren_get?, ren_isNone]) inner
      · induction outer with
        | nil => rfl
        | cons p outer ihp =>
          obtain ⟨s, v⟩ := p
          cases v with
          | none => simpa using ihp
          | some v => simpa using ihp

@[simp] theorem ren_nested_getConcept (n : Nested) (id : CId) :
    (ren w n).getConcept id = ren w (n.getConcept id) := by
  induction n with
  | base o =>
    show AMap.get? (ren w o.concept) id = _
    rw [ren_get?_id]; rfl
  | over i o ih =>
    show (match (ren w i).getConcept id, AMap.get? (ren w o.concept) id with
      | none, none => none
      | some v, none => some v
      | none, some v => some v
      | some v, some w => some (v ++ w)) = _
    rw [ih, ren_get?_id]
    simp only [Nested.getConcept]
    cases i.getConcept id <;> cases AMap.get? o.concept id <;> simp

theorem ren_iterConcepts (n : Nested) : (ren w n).iterConcepts = ren w n.iterConcepts := by
  induction n with
  | base o => rfl
  | over i o ih =>
    show (ren w i).iterConcepts.filter (fun p => (AMap.get? (ren w o.concept) p.1).isNone) ++
      (ren w o.concept).map (fun p => (p.1, ((ren w i).getConcept p.1).getD [] ++ p.2)) = _
    rw [ih]
    show _ = ren w (i.iterConcepts.filter (fun p => (AMap.get? o.concept p.1).isNone) ++
      o.concept.map (fun p => (p.1, (i.getConcept p.1).getD [] ++ p.2)))
    rw [ren_append]
    congr 1
    · exact ren_filter w _ _ (fun p => by simp) _
    · show (o.concept.map (ren w)).map _ = (o.concept.map _).map (ren w)
      rw [List.map_map, List.map_map]
      congr 1
      funext p
      obtain ⟨k, v⟩ := p
      simp only [Function.comp, ren_pair, ren_rigid, ren_nested_getConcept]
      cases i.getConcept k <;> simp

theorem ren_nested_order (n : Nested) : (ren w n).order = ren w n.order := by
  induction n with
  | base o => rfl
  | over i o ih =>
    show (ren w i).order ++ ren w o.order = ren w (i.order ++ o.order)
    rw [ih, ren_append]

/-! ### The committed store -/

@[simp] theorem ren_snap_stringMap (s : Snap) : (ren w s).stringMap = ren w s.stringMap := rfl
@[simp] theorem ren_snap_concepts (s : Snap) : (ren w s).concepts = ren w s.concepts := rfl
@[simp] theorem ren_snap_concrete (s : Snap) : (ren w s).concrete = s.concrete := rfl
@[simp] theorem ren_snap_prev (s : Snap) : (ren w s).prev = s.prev := rfl

theorem ren_get2 (cs : List Con) (i j : Nat) : get2 (ren w cs) i j = ren w (get2 cs i j) := by
  simp only [get2, ren_getElem?]
  split
  · rfl
  · cases cs[i]? <;> cases cs[j]? <;> rfl

theorem ren_get3 (cs : List Con) (i j k : Nat) : get3 (ren w cs) i j k = ren w (get3 cs i j k) := by
  simp only [get3, ren_getElem?]
  split
  · rfl
  · cases cs[i]? <;> cases cs[j]? <;> cases cs[k]? <;> rfl

theorem ren_get5 (cs : List Con) (i j k l m : Nat) :
    get5 (ren w cs) i j k l m = ren w (get5 cs i j k l m) := by
  simp only [get5, ren_getElem?]
  split
  · cases cs[i]? <;> cases cs[j]? <;> cases cs[k]? <;> cases cs[l]? <;> cases cs[m]? <;> rfl
  · rfl

theorem ren_orDisjoint {α : Type} [Ren α] (x : Option α) : RenE w (orDisjoint x) (orDisjoint (ren w x)) := by
  cases x <;> rfl

@[simp] theorem ren_convert (s : Snap) (c : CId) : (ren w s).convert c = s.convert c := by
  cases c <;> rfl

theorem ren_pushNew (s : Snap) (u : Nat) (cs : List Con) (c : Con) :
    (ren w s).pushNew u (ren w cs) (ren w c) = ren w (s.pushNew u cs c) := by
  simp only [Snap.pushNew, ren_snap_concepts, ren_length]
  show Snap.mk (ren w s.stringMap) _ _ _ = Snap.mk (ren w s.stringMap) (ren w (cs ++ [c])) _ _
  rw [ren_append]; rfl

theorem ren_registerConcrete (s : Snap) (i : Nat) (t : Option CCT) :
    (ren w s).registerConcrete i t = ren w (s.registerConcrete i t) := by
  cases t <;> rfl

theorem ren_applyNew (s : Snap) (u : Nat) (d : NewDelta CId) :
    RenE w (s.applyNew u d) ((ren w s).applyNew u (ren w d)) := by
  cases d with
  | freeVariable =>
    exact RenE.pure (by rw [← ren_pushNew]; simp; rfl)
  | boundVariable =>
    exact RenE.pure (by rw [← ren_pushNew]; simp; rfl)
  | str t =>
    refine RenE.pure ?_
    have e : (ren w s).pushNew u (ren w s).concepts (Concept.mk' (ren w s).concepts.length (.str (ren w t))) =
        ren w (s.pushNew u s.concepts (Concept.mk' s.concepts.length (.str t))) := by
      rw [← ren_pushNew]; simp; rfl
    simp only [e]
    have := ren_insert w (s.pushNew u s.concepts (Concept.mk' s.concepts.length (.str t))).stringMap t
      s.concepts.length
    rw [ren_rigid w s.concepts.length] at this
    show Snap.mk (AMap.insert (ren w (s.pushNew u s.concepts (Concept.mk' s.concepts.length (.str t))).stringMap)
      (ren w t) (ren w s).concepts.length) _ _ _ = _
    rw [ren_snap_concepts, ren_length, this]; rfl
  | composition p =>
    simp only [Snap.applyNew]
    show RenE w _ ((ren w s).convert p.left >>= _)
    rw [ren_convert]
    refine RenE.bind_rigid (fun l => ?_)
    rw [ren_convert]
    refine RenE.bind_rigid (fun r => ?_)
    rw [ren_snap_concepts, ren_get2]
    refine (ren_orDisjoint w _).bind ?_
    rintro ⟨cl, cr⟩
    simp only [ren_length, ren_pair]
    refine (ren_compositionOf w _ cl cr).bind ?_
    rintro ⟨mc, cl', cr'⟩
    refine RenE.pure ?_
    simp only [ren_pair, ren_set]
    rw [← ren_pushNew]; rfl
  | left k r t =>
    simp only [Snap.applyNew]
    show RenE w _ ((ren w s).convert r >>= _)
    rw [ren_convert]
    refine RenE.bind_rigid (fun r => ?_)
    rw [ren_convert]
    refine RenE.bind_rigid (fun k => ?_)
    rw [ren_snap_concepts, ren_get2]
    refine (ren_orDisjoint w _).bind ?_
    rintro ⟨cr, ck⟩
    simp only [ren_length, ren_pair]
    refine (ren_lefthandOf w _ cr ck t).bind ?_
    rintro ⟨c, cr', ck'⟩
    refine RenE.pure ?_
    simp only [ren_pair, ren_set, ren_pushNew, ren_registerConcrete]
  | right k l t =>
    simp only [Snap.applyNew]
    show RenE w _ ((ren w s).convert l >>= _)
    rw [ren_convert]
    refine RenE.bind_rigid (fun l => ?_)
    rw [ren_convert]
    refine RenE.bind_rigid (fun k => ?_)
    rw [ren_snap_concepts, ren_get2]
    refine (ren_orDisjoint w _).bind ?_
    rintro ⟨cl, ck⟩
    simp only [ren_length, ren_pair]
    refine (ren_righthandOf w _ cl ck t).bind ?_
    rintro ⟨c, cl', ck'⟩
    refine RenE.pure ?_
    simp only [ren_pair, ren_set, ren_pushNew, ren_registerConcrete]
  | double k t =>
    simp only [Snap.applyNew]
    show RenE w _ ((ren w s).convert k >>= _)
    rw [ren_convert]
    refine RenE.bind_rigid (fun k => ?_)
    rw [ren_snap_concepts, ren_getElem?]
    refine (ren_orDisjoint w _).bind (fun ck => ?_)
    simp only [ren_length]
    refine (ren_doubleOf w _ ck t).bind ?_
    rintro ⟨c, ck'⟩
    refine RenE.pure ?_
    simp only [ren_pair, ren_set, ren_pushNew, ren_registerConcrete]
  | reducesTo r =>
    simp only [Snap.applyNew]
    show RenE w _ ((ren w s).convert r >>= _)
    rw [ren_convert]
    refine RenE.bind_rigid (fun r => ?_)
    rw [ren_snap_concepts, ren_getElem?]
    refine (ren_orDisjoint w _).bind (fun cr => ?_)
    refine RenE.pure ?_
    simp only [ren_length, ren_reductionTo, ren_fst, ren_snd, ren_set, ren_pushNew]

/-- A store with other concepts. -/
theorem ren_withConcepts (s : Snap) (cs : List Con) :
    ({ ren w s with concepts := ren w cs } : Snap) = ren w { s with concepts := cs } := rfl

theorem ren_applyCompose (s : Snap) (k : CId) (ch : VChange (CompPair CId)) :
    RenE w (s.applyCompose k ch) ((ren w s).applyCompose k ch) := by
  cases ch with
  | create p =>
    simp only [Snap.applyCompose, ren_convert]
    refine RenE.bind_rigid (fun k => RenE.bind_rigid (fun l => RenE.bind_rigid (fun r => ?_)))
    rw [ren_snap_concepts, ren_get3]
    refine (ren_orDisjoint w _).bind ?_
    rintro ⟨ck, cl, cr⟩
    refine (ren_composeCreate w ck cl cr).bind ?_
    rintro ⟨ck', cl', cr'⟩
    exact RenE.pure (by simp only [ren_pair, ren_set]; rfl)
  | update b a =>
    simp only [Snap.applyCompose, ren_convert]
    refine RenE.bind_rigid (fun k => RenE.bind_rigid (fun l => RenE.bind_rigid (fun r =>
      RenE.bind_rigid (fun l' => RenE.bind_rigid (fun r' => ?_)))))
    rw [ren_snap_concepts, ren_get5]
    refine (ren_orDisjoint w _).bind ?_
    rintro ⟨ck, cbl, cbr, cal, car⟩
    refine (ren_composeCreate w ck cal car).bind ?_
    rintro ⟨ck', cl', cr'⟩
    refine RenE.pure ?_
    simp only [ren_pair, ren_forgetHands, ren_fst, ren_snd, ren_set]; rfl
  | remove p =>
    simp only [Snap.applyCompose, ren_convert]
    refine RenE.bind_rigid (fun k => RenE.bind_rigid (fun l => RenE.bind_rigid (fun r => ?_)))
    rw [ren_snap_concepts, ren_get3]
    refine (ren_orDisjoint w _).bind ?_
    rintro ⟨ck, cl, cr⟩
    refine (ren_composeRemove w ck cl cr).bind ?_
    rintro ⟨ck', cl', cr'⟩
    exact RenE.pure (by simp only [ren_pair, ren_set]; rfl)

theorem ren_applyReduce (s : Snap) (u : CId) (ch : VChange CId) :
    RenE w (s.applyReduce u ch) ((ren w s).applyReduce u ch) := by
  cases ch with
  | create r =>
    simp only [Snap.applyReduce, ren_convert]
    refine RenE.bind_rigid (fun k => RenE.bind_rigid (fun r => ?_))
    rw [ren_snap_concepts, ren_get2]
    refine (ren_orDisjoint w _).bind ?_
    rintro ⟨ck, cr⟩
    refine (ren_makeReduceTo w ck cr).bind ?_
    rintro ⟨ck', cr'⟩
    exact RenE.pure (by simp only [ren_pair, ren_set]; rfl)
  | update b a =>
    simp only [Snap.applyReduce, ren_convert]
    refine RenE.bind_rigid (fun k => RenE.bind_rigid (fun b => RenE.bind_rigid (fun a => ?_)))
    rw [ren_snap_concepts, ren_get3]
    refine (ren_orDisjoint w _).bind ?_
    rintro ⟨ck, cb, ca⟩
    refine (ren_makeNoLongerReduceTo w ck cb).bind ?_
    rintro ⟨ck', cb'⟩
    refine (ren_makeReduceTo w ck' ca).bind ?_
    rintro ⟨ck'', ca'⟩
    exact RenE.pure (by simp only [ren_pair, ren_set]; rfl)
  | remove r =>
    simp only [Snap.applyReduce, ren_convert]
    refine RenE.bind_rigid (fun k => RenE.bind_rigid (fun r => ?_))
    rw [ren_snap_concepts, ren_get2]
    refine (ren_orDisjoint w _).bind ?_
    rintro ⟨ck, cr⟩
    refine (ren_makeNoLongerReduceTo w ck cr).bind ?_
    rintro ⟨ck', cr'⟩
    exact RenE.pure (by simp only [ren_pair, ren_set]; rfl)

theorem ren_applyOne (s : Snap) (p : CId × Direct CId) :
    RenE w (s.applyOne p) ((ren w s).applyOne (ren w p)) := by
  obtain ⟨id, d⟩ := p
  cases d with
  | new d =>
    cases id with
    | com n => rfl
    | unc u => exact ren_applyNew w s u d
  | compose k ch =>
    show RenE w (ite _ _ _) (ite (id = k) _ _)
    split
    · exact ren_applyCompose w s k ch
    · rfl
  | reduce k ch =>
    show RenE w (ite _ _ _) (ite (id = k) _ _)
    split
    · exact ren_applyReduce w s k ch
    · rfl
  | remove => rfl

theorem ren_applyAll (s : Snap) (ps : List (CId × Direct CId)) :
    RenE w (s.applyAll ps) ((ren w s).applyAll (ren w ps)) := by
  induction ps generalizing s with
  | nil => rfl
  | cons p ps ih => exact (ren_applyOne w s p).bind (fun s => ih s)

theorem ren_applyString (s : Snap) (p : Str × VChange CId) :
    RenE w (s.applyString p) ((ren w s).applyString (ren w p)) := by
  obtain ⟨t, v⟩ := p
  have hins : ∀ i : Nat, ({ ren w s with stringMap := AMap.insert (ren w s).stringMap (ren w t) i } : Snap) =
      ren w { s with stringMap := AMap.insert s.stringMap t i } := by
    intro i
    have := ren_insert w s.stringMap t i
    rw [ren_rigid w i] at this
    rw [ren_snap_stringMap, this]; rfl
  have hget : AMap.get? (ren w s).stringMap (ren w t) = AMap.get? s.stringMap t := by
    rw [ren_snap_stringMap, ren_get?, ren_rigid]
  cases v with
  | create id =>
    simp only [Snap.applyString, ren_pair, ren_rigid, ren_convert]
    exact RenE.bind_rigid (fun i => RenE.pure (hins i))
  | update b a =>
    simp only [Snap.applyString, ren_pair, ren_rigid, ren_convert, hget]
    refine RenE.bind_rigid (fun i => RenE.bind_rigid (fun j => ?_))
    split
    · exact RenE.pure (hins i)
    · rfl
  | remove b =>
    simp only [Snap.applyString, ren_pair, ren_rigid, ren_convert, hget]
    refine RenE.bind_rigid (fun i => ?_)
    split
    · refine RenE.pure ?_
      rw [ren_snap_stringMap, ren_erase]; rfl
    · rfl

theorem ren_applyStrings (s : Snap) (ps : List (Str × VChange CId)) :
    RenE w (s.applyStrings ps) ((ren w s).applyStrings (ren w ps)) := by
  induction ps generalizing s with
  | nil => rfl
  | cons p ps ih => exact (ren_applyString w s p).bind (fun s => ih s)

theorem ren_apply (s : Snap) (d : Nested) : RenE w (s.apply d) ((ren w s).apply (ren w d)) := by
  simp only [Snap.apply, ren_snap_prev, ren_nested_order]
  split
  · rfl
  · refine (ren_applyAll w s d.order).bind (fun s => ?_)
    refine (ren_iterString w d).bind (fun ss => ?_)
    exact (ren_applyStrings w s ss).bind (fun s => rfl)

end

end Zia

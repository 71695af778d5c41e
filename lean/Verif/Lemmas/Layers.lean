import Verif.Spec.Delta
import Mathlib.Data.List.Nodup
import Verif.Lemmas.Run
import Mathlib.Tactic.ByContra

/-!
# Nested change sets
-/

namespace Zia

open Spec

theorem changes_base (o : Delta) (a : CId) : changes (.base o) a = o.entries a := rfl

theorem changes_over (i : Nested) (o : Delta) (a : CId) :
    changes (.over i o) a = changes i a ++ o.entries a := by
  simp only [changes, Nested.getConcept, Delta.entries]
  cases i.getConcept a <;> cases o.concept.get? a <;> simp

theorem changes_setOverlay {n : Nested} {o : Delta} {L : List CDelta} {a : CId}
    (h : o.entries a = n.overlay.entries a ++ L) :
    changes (n.setOverlay o) a = changes n a ++ L := by
  cases n with
  | base o' => exact h
  | over i o' =>
    simp only [Nested.setOverlay, Nested.overlay] at h ⊢
    rw [changes_over, changes_over, h, List.append_assoc]

theorem overlay_setOverlay (n : Nested) (o : Delta) : (n.setOverlay o).overlay = o := by
  cases n <;> rfl

theorem recorded_about {id a : CId} {dd : Direct CId} (h : about a (recorded id dd) ≠ []) :
    a = id ∧ (∃ nd, dd = .new nd) ∨ a ∈ mentions dd := by
  by_contra hn
  apply h
  simp only [about, List.filterMap_eq_nil_iff]
  intro p hp
  rw [if_neg]
  intro e
  apply hn
  subst e
  cases dd with
  | new nd =>
    cases nd <;> simp only [recorded, List.mem_cons, List.not_mem_nil, or_false] at hp <;>
      simp only [mentions] <;> grind
  | compose c ch =>
    cases ch <;> simp only [recorded, List.mem_cons, List.not_mem_nil, or_false] at hp <;>
      simp only [mentions] <;> grind
  | reduce c ch =>
    cases ch <;> simp only [recorded, List.mem_cons, List.not_mem_nil, or_false] at hp <;>
      simp only [mentions] <;> grind
  | remove c => simp only [recorded, List.mem_cons, List.not_mem_nil, or_false] at hp; grind [mentions]

theorem nested_update {n n' : Nested} {dd : Direct CId} {id : CId}
    (h : n.update dd = .ok (n', id)) : id = dd.subject n.overlay.num ∧
      n'.overlay.num = n.overlay.num + dd.uses ∧
      ∀ a, changes n' a = changes n a ++ about a (recorded id dd) := by
  simp only [Nested.update, Except.bind_eq_ok, Except.pure_eq_ok] at h
  obtain ⟨⟨o, i⟩, h1, h2⟩ := h
  cases h2
  obtain ⟨e, hu⟩ := Delta.update_eq_ok h1
  refine ⟨e, by rw [overlay_setOverlay]; exact hu.num, fun a => ?_⟩
  rw [e]
  exact changes_setOverlay (hu.entries a)

theorem nested_insertNew {n n' : Nested} {nd : NewDelta CId} {id : CId}
    (h : n.insertNew nd = .ok (n', id)) : id = .unc n.overlay.num ∧
      n'.overlay.num = n.overlay.num + 1 ∧
      ∀ a, changes n' a = changes n a ++ about a [(id, .direct (.new nd))] := by
  simp only [Nested.insertNew, Except.bind_eq_ok, Except.pure_eq_ok] at h
  obtain ⟨⟨o, i⟩, h1, h2⟩ := h
  cases h2
  obtain ⟨e, _, hn, _, _, he⟩ := insertNew_eq_ok h1
  exact ⟨e, by rw [overlay_setOverlay]; exact hn, fun a => changes_setOverlay (he a)⟩

/-- Ids are used up in order. -/
theorem Grown.bound {n : Nested} (h : Grown n) {u : Nat} (hu : changes n (.unc u) ≠ []) :
    u < n.overlay.num := by
  induction h generalizing u with
  | start => exact (hu rfl).elim
  | spawn _ ih =>
    refine ih (fun e => hu ?_)
    rw [Nested.spawn, changes_over, e]
    rfl
  | @update n n' dd id _ hr hd ih =>
    obtain ⟨e, hn, hc⟩ := nested_update hd
    rw [hc] at hu
    rw [hn]
    by_cases h0 : changes n (.unc u) = []
    · rw [h0, List.nil_append] at hu
      rcases recorded_about hu with ⟨e', nd, rfl⟩ | hm
      · rw [e] at e'
        cases e'
        simp [Direct.uses]
      · exact (hr u hm h0).elim
    · have := ih h0
      omega
  | @insert n n' nd id _ hd ih =>
    obtain ⟨e, hn, hc⟩ := nested_insertNew hd
    rw [hc] at hu
    rw [hn]
    by_cases h0 : changes n (.unc u) = []
    · rw [h0, e, about_cons] at hu
      split at hu
      · next e' => cases e'; omega
      · simp at hu
    · have := ih h0
      omega

theorem layers_getConcept (n : Nested) (a : CId) : n.getConcept a = conceptThrough (layers n) a := by
  have key : ∀ (i : Nested) (o : Delta), conceptThrough (layers i ++ [o]) a =
      match conceptThrough (layers i) a, o.concept.get? a with
      | none, none => none
      | some v, none => some v
      | none, some v => some v
      | some v, some w => some (v ++ w) := by
    intro i o
    simp only [conceptThrough, List.filterMap_append]
    cases ho : o.concept.get? a <;>
      simp only [List.filterMap_cons, ho, List.filterMap_nil, List.append_nil]
    · split <;> simp_all
    · cases List.filterMap (fun o => AMap.get? o.concept a) (layers i) <;> simp
  induction n with
  | base o =>
    simp only [Nested.getConcept, layers, conceptThrough, List.filterMap_cons]
    cases o.concept.get? a <;> simp
  | over i o ih => rw [layers, key, ← ih]; rfl

theorem combine_some {x y : VChange CId} :
    (idAfter x = idBefore y → ∃ z, combineString (some x) (some y) = .ok (some z) ∧
      idAfter z = idAfter y) ∧
    (idAfter x ≠ idBefore y →
      combineString (some x) (some y) = .error (.panic .stringDelta)) := by
  cases x <;> cases y <;> simp [idAfter, idBefore, combineString] <;>
    (intro h; simp [h])

theorem follows_concat {cs : List (VChange CId)} {y : VChange CId} :
    Chained (cs ++ [y]) ↔
      Chained cs ∧ ∀ x ∈ cs.getLast?, idAfter x = idBefore y := by
  simp [Chained, List.isChain_append]

theorem combine_start {x y z : VChange CId} (h : combineString (some x) (some y) = .ok (some z))
    (hx : idAfter x ≠ none) (hy : idAfter y ≠ none) : idBefore z = idBefore x ∧ idAfter z ≠ none := by
  cases x <;> cases y <;> simp [idAfter, combineString] at hx hy h
  all_goals
    split at h <;> cases h
    simp [idBefore, idAfter]

theorem layers_getString_start (n : Nested) (s : Str) {x : Option (VChange CId)} (h : n.getString s = .ok x)
    (hr : ∀ y ∈ stringChanges n s, idAfter y ≠ none) :
    x.map idBefore = (stringChanges n s).head?.map idBefore ∧ ∀ z, x = some z → idAfter z ≠ none := by
  induction n generalizing x with
  | base o =>
    cases ho : o.string.get? s with
    | none =>
      simp [Nested.getString, combineString, ho] at h
      subst h
      simp [stringChanges, layers, ho]
    | some y =>
      simp [Nested.getString, combineString, ho] at h
      subst h
      have := hr y (by simp [stringChanges, layers, ho])
      simp [stringChanges, layers, ho, this]
  | over i o ih =>
    have e : stringChanges (.over i o) s = stringChanges i s ++ (o.string.get? s).toList := by
      cases h : o.string.get? s <;> simp [stringChanges, layers, h]
    rw [e] at hr ⊢
    simp only [Nested.getString, Except.bind_eq_ok] at h
    obtain ⟨w, hw, h⟩ := h
    obtain ⟨i1, i2⟩ := ih hw (fun y hy => hr y (List.mem_append_left _ hy))
    cases ho : o.string.get? s with
    | none =>
      rw [ho] at h
      have : x = w := by cases w <;> (simp [combineString] at h; exact h.symm)
      subst this
      simp only [Option.toList, List.append_nil]
      exact ⟨i1, i2⟩
    | some y =>
      rw [ho] at h
      have hy := hr y (by simp [ho])
      cases w with
      | none =>
        have hn : stringChanges i s = [] := by
          cases hl : stringChanges i s with
          | nil => rfl
          | cons a l => rw [hl] at i1; cases i1
        simp [combineString] at h
        subst h
        simp [hn, hy]
      | some w =>
        cases x with
        | none =>
          cases w <;> cases y <;> simp [combineString] at h
          all_goals split at h <;> cases h
        | some x =>
          obtain ⟨h1, h2⟩ := combine_start h (i2 w rfl) hy
          refine ⟨?_, fun z hz => by cases hz; exact h2⟩
          cases hl : stringChanges i s with
          | nil => rw [hl] at i1; cases i1
          | cons a l =>
            rw [hl] at i1
            simp only [List.head?_cons, Option.map_some, Option.some.injEq] at i1
            simp [h1, i1]

theorem layers_getString (n : Nested) (s : Str) :
    (Chained (stringChanges n s) → ∃ x, n.getString s = .ok x ∧
      x.map idAfter = (stringChanges n s).getLast?.map idAfter) ∧
    (¬ Chained (stringChanges n s) → n.getString s = .error (.panic .stringDelta)) := by
  induction n with
  | base o =>
    refine ⟨fun _ => ⟨o.string.get? s, ?_, ?_⟩, fun h => ?_⟩
    · cases h : o.string.get? s <;> simp [Nested.getString, combineString, h]
    · cases h : o.string.get? s <;> simp [stringChanges, layers, h]
    · refine absurd ?_ h
      cases h : o.string.get? s <;> simp [stringChanges, layers, h, Chained]
  | over i o ih =>
    have e : stringChanges (.over i o) s = stringChanges i s ++ (o.string.get? s).toList := by
      cases h : o.string.get? s <;> simp [stringChanges, layers, h]
    rw [e]
    obtain ⟨i1, i2⟩ := ih
    by_cases hf : Chained (stringChanges i s)
    · obtain ⟨x, hx, hxa⟩ := i1 hf
      cases h : o.string.get? s with
      | none =>
        simp only [Option.toList, List.append_nil]
        refine ⟨fun _ => ⟨x, ?_, hxa⟩, fun h => absurd hf h⟩
        simp only [Nested.getString, hx, h]
        cases x <;> rfl
      | some y =>
        simp only [Option.toList, follows_concat, List.getLast?_append, List.getLast?_singleton,
          Option.some_or, Option.map_some]
        have hg : (Nested.over i o).getString s = combineString x (some y) := by
          simp only [Nested.getString, hx, h]; rfl
        rw [hg]
        cases x with
        | none =>
          have hn : (stringChanges i s).getLast? = none := by
            cases hl : (stringChanges i s).getLast? with
            | none => rfl
            | some z => rw [hl] at hxa; cases hxa
          rw [hn]
          exact ⟨fun _ => ⟨some y, rfl, rfl⟩, fun h => absurd ⟨hf, by simp⟩ h⟩
        | some x =>
          obtain ⟨z, hz⟩ : ∃ z, (stringChanges i s).getLast? = some z := by
            cases hl : (stringChanges i s).getLast? with
            | none => rw [hl] at hxa; cases hxa
            | some z => exact ⟨z, rfl⟩
          rw [hz] at hxa ⊢
          simp only [Option.map_some, Option.some.injEq] at hxa
          simp only [Option.mem_def, Option.some.injEq, forall_eq', ← hxa]
          refine ⟨fun h => ?_, fun h => combine_some.2 (fun e => h ⟨hf, e⟩)⟩
          obtain ⟨w, hw, hwa⟩ := combine_some.1 h.2
          exact ⟨some w, hw, by simp [hwa]⟩
    · refine ⟨fun h => absurd ?_ hf, fun _ => ?_⟩
      · unfold Chained at h
        rw [List.isChain_append] at h
        exact h.1
      · simp only [Nested.getString, i2 hf]; rfl

theorem layers_order (n : Nested) : n.order = (layers n).flatMap (·.order) := by
  induction n with
  | base o => simp [Nested.order, layers]
  | over i o ih => simp [Nested.order, layers, ih]

/-- No key is stored twice in a layer. -/
def Layered (n : Nested) : Prop := ∀ o ∈ layers n, AMap.WF o.concept ∧ AMap.WF o.string

theorem layers_iterConcepts (n : Nested) (h : Layered n) (a : CId) (v : List CDelta) :
    (a, v) ∈ n.iterConcepts ↔ n.getConcept a = some v := by
  induction n generalizing a v with
  | base o =>
    have hw := (h o (by simp [layers])).1
    exact ⟨AMap.get?_of_mem _ hw _ _, AMap.mem_of_get? _ _ _⟩
  | over i o ih =>
    have hw := (h o (by simp [layers])).1
    have ih := ih (fun o ho => h o (by simp [layers, ho]))
    simp only [Nested.iterConcepts, Nested.getConcept, List.mem_append, List.mem_filter,
      List.mem_map, Prod.mk.injEq, ih, Prod.exists, Option.isNone_iff_eq_none]
    cases ho : o.concept.get? a with
    | none =>
      have hno : ∀ w, (a, w) ∉ o.concept := fun w hm => by
        rw [AMap.get?_of_mem _ hw _ _ hm] at ho; cases ho
      constructor
      · rintro (⟨h1, _⟩ | ⟨b, w, h1, rfl, _⟩)
        · rw [h1]
        · exact (hno w h1).elim
      · intro h1
        cases hi : i.getConcept a with
        | none => rw [hi] at h1; cases h1
        | some x => rw [hi] at h1; exact .inl ⟨h1, rfl⟩
    | some w =>
      constructor
      · rintro (⟨_, h1⟩ | ⟨b, w', h1, rfl, rfl⟩)
        · cases h1
        · rw [AMap.get?_of_mem _ hw _ _ h1] at ho
          cases ho
          cases i.getConcept b <;> rfl
      · intro h1
        refine .inr ⟨a, w, AMap.mem_of_get? _ _ _ ho, rfl, ?_⟩
        cases hi : i.getConcept a with
        | none => rw [hi] at h1; cases h1; rfl
        | some x => rw [hi] at h1; cases h1; rfl

theorem mapM_strings {d : Nested} {L : AMap Str (VChange CId)}
    {M : List (Str × Option (VChange CId))}
    (h : L.mapM (fun p => do return (p.1, ← d.getString p.1)) = (.ok M : Except Fault _)) :
    (∀ s x, (s, x) ∈ M → d.getString s = .ok x ∧ ∃ v, (s, v) ∈ L) ∧
    ∀ s v, (s, v) ∈ L → ∃ x, d.getString s = .ok x ∧ (s, x) ∈ M := by
  induction L generalizing M with
  | nil => cases h; simp
  | cons p L ih =>
    simp only [List.mapM_cons, Except.bind_eq_ok, Except.pure_eq_ok] at h
    obtain ⟨y, ⟨x, hx, rfl⟩, M', hM, rfl⟩ := h
    obtain ⟨h1, h2⟩ := ih hM
    obtain ⟨s0, v0⟩ := p
    constructor
    · intro s x' hm
      rcases List.mem_cons.1 hm with e | hm
      · cases e
        exact ⟨hx, v0, by simp⟩
      · obtain ⟨a, v, b⟩ := h1 s x' hm
        exact ⟨a, v, by simp [b]⟩
    · intro s v hm
      rcases List.mem_cons.1 hm with e | hm
      · cases e
        exact ⟨x, hx, by simp⟩
      · obtain ⟨x', a, b⟩ := h2 s v hm
        exact ⟨x', a, by simp [b]⟩

theorem layers_iterString (n : Nested) (h : Layered n) {L : List (Str × VChange CId)}
    (hL : n.iterString = .ok L) (s : Str) :
    (∃ x, n.getString s = .ok x) ∧ ∀ v, (s, v) ∈ L ↔ n.getString s = .ok (some v) := by
  induction n generalizing L with
  | base o =>
    have hw := (h o (by simp [layers])).2
    cases hL
    have e : (Nested.base o).getString s = .ok (o.string.get? s) := by
      simp only [Nested.getString]
      cases o.string.get? s <;> rfl
    rw [e]
    refine ⟨⟨_, rfl⟩, fun v => ?_⟩
    rw [Except.ok.injEq]
    exact ⟨AMap.get?_of_mem _ hw _ _, AMap.mem_of_get? _ _ _⟩
  | over i o ih =>
    have hw := (h o (by simp [layers])).2
    simp only [Nested.iterString, Except.bind_eq_ok, Except.pure_eq_ok] at hL
    obtain ⟨Li, hi, M, hM, rfl⟩ := hL
    obtain ⟨ih1, ih2⟩ := ih (fun o ho => h o (by simp [layers, ho])) hi
    obtain ⟨h1, h2⟩ := mapM_strings hM
    cases ho : o.string.get? s with
    | none =>
      have hno : ∀ w, (s, w) ∉ o.string := fun w hm => by
        rw [AMap.get?_of_mem _ hw _ _ hm] at ho; cases ho
      have e : (Nested.over i o).getString s = i.getString s := by
        obtain ⟨x, hx⟩ := ih1
        simp only [Nested.getString, hx, ho]
        cases x <;> rfl
      rw [e]
      refine ⟨ih1, fun v => ?_⟩
      rw [← ih2]
      simp only [List.mem_append, List.mem_filter, ho, Option.isNone_none, and_true,
        List.mem_filterMap, Prod.exists, Option.map_eq_some_iff, Prod.mk.injEq]
      constructor
      · rintro (h | ⟨s', x, hm, v', _, rfl, _⟩)
        · exact h
        · obtain ⟨_, w, hw⟩ := h1 _ _ hm
          exact (hno w hw).elim
      · exact .inl
    | some w =>
      obtain ⟨x, hx, hm⟩ := h2 s w (AMap.mem_of_get? _ _ _ ho)
      refine ⟨⟨x, hx⟩, fun v => ?_⟩
      simp only [List.mem_append, List.mem_filter, ho, Option.isNone_some, Bool.false_eq_true,
        and_false, false_or, List.mem_filterMap, Prod.exists, Option.map_eq_some_iff, Prod.mk.injEq]
      constructor
      · rintro ⟨s', x', hm', v', rfl, rfl, rfl⟩
        exact (h1 _ _ hm').1
      · intro hv
        rw [hx] at hv
        cases hv
        exact ⟨s, some v, hm, v, rfl, rfl, rfl⟩

/-- No key is stored twice. -/
def DWF (d : Delta) : Prop := AMap.WF d.concept ∧ AMap.WF d.string

theorem insertExisting_wf {d d' : Delta} {id : CId} {cd : CDelta} (h : DWF d)
    (hd : d.insertExisting id cd = .ok d') : DWF d' := by
  unfold Delta.insertExisting at hd
  split at hd
  · cases hd; exact ⟨h.1.insert _ _, h.2⟩
  · split at hd <;> first | (cases hd; done) | (cases hd; exact ⟨h.1.insert _ _, h.2⟩)

theorem insertNew_wf {d d' : Delta} {nd : NewDelta CId} {id : CId} (h : DWF d)
    (hd : d.insertNew nd = .ok (d', id)) : DWF d' := by
  unfold Delta.insertNew at hd
  dsimp only at hd
  split at hd
  · cases hd; exact ⟨h.1.insert _ _, h.2⟩
  · split at hd <;> first | (cases hd; done) | (cases hd; exact ⟨h.1.insert _ _, h.2⟩)

theorem insertString_wf {d d' : Delta} {s : Str} {id : CId} (h : DWF d)
    (hd : d.insertString s id = .ok d') : DWF d' := by
  unfold Delta.insertString at hd
  split at hd <;> first | (cases hd; done) | (cases hd; exact ⟨h.1, h.2.insert _ _⟩)

theorem updateNew_wf {d d' : Delta} {nd : NewDelta CId} {id : CId} (h : DWF d)
    (hd : d.updateNew nd = .ok (d', id)) : DWF d' := by
  unfold Delta.updateNew at hd
  rw [Except.bind_eq_ok] at hd
  obtain ⟨⟨d1, i⟩, h1, hd⟩ := hd
  have h := insertNew_wf h h1
  cases nd <;> simp only [Except.bind_eq_ok, Except.pure_eq_ok, Prod.mk.injEq] at hd
  case freeVariable => obtain ⟨rfl, _⟩ := hd; exact h
  case boundVariable => obtain ⟨rfl, _⟩ := hd; exact h
  case str => obtain ⟨x, hx, rfl, _⟩ := hd; exact insertString_wf h hx
  case double => obtain ⟨x, hx, rfl, _⟩ := hd; exact insertExisting_wf h hx
  case reducesTo => obtain ⟨x, hx, rfl, _⟩ := hd; exact insertExisting_wf h hx
  all_goals
    obtain ⟨x, hx, y, hy, rfl, _⟩ := hd
    exact insertExisting_wf (insertExisting_wf h hx) hy

theorem unlinkHands_wf {d d' : Delta} {p : CompPair CId} (h : DWF d)
    (hd : d.unlinkHands p = .ok d') : DWF d' := by
  simp only [Delta.unlinkHands, Except.bind_eq_ok] at hd
  obtain ⟨x, hx, hd⟩ := hd
  exact insertExisting_wf (insertExisting_wf h hx) hd

theorem linkHands_wf {d d' : Delta} {c : CId} {p : CompPair CId} (h : DWF d)
    (hd : d.linkHands c p = .ok d') : DWF d' := by
  simp only [Delta.linkHands, Except.bind_eq_ok] at hd
  obtain ⟨x, hx, hd⟩ := hd
  exact insertExisting_wf (insertExisting_wf h hx) hd

theorem update_wf {d d' : Delta} {dd : Direct CId} {id : CId} (h : DWF d)
    (hd : d.update dd = .ok (d', id)) : DWF d' := by
  cases dd with
  | new nd =>
    simp only [Delta.update, Except.bind_eq_ok, Except.pure_eq_ok] at hd
    obtain ⟨⟨d1, i⟩, h1, hd⟩ := hd
    cases hd
    exact updateNew_wf (d' := d1) h h1
  | compose c ch =>
    cases ch <;> simp only [Delta.update, Except.bind_eq_ok, Except.pure_eq_ok] at hd
    · obtain ⟨x, hx, y, rfl, z, hz, w, rfl, e⟩ := hd
      cases e
      exact linkHands_wf (d' := z) (insertExisting_wf h hx) hz
    · obtain ⟨x, hx, y, hy, z, hz, w, rfl, e⟩ := hd
      cases e
      exact linkHands_wf (d' := z) (unlinkHands_wf (insertExisting_wf h hx) hy) hz
    · obtain ⟨x, hx, y, hy, z, rfl, w, rfl, e⟩ := hd
      cases e
      exact unlinkHands_wf (d' := y) (insertExisting_wf h hx) hy
  | reduce c ch =>
    cases ch <;> simp only [Delta.update, Except.bind_eq_ok, Except.pure_eq_ok] at hd
    · obtain ⟨x, hx, y, rfl, z, hz, w, rfl, e⟩ := hd
      cases e
      exact insertExisting_wf (d' := z) (insertExisting_wf h hx) hz
    · obtain ⟨x, hx, y, hy, z, hz, w, rfl, e⟩ := hd
      cases e
      exact insertExisting_wf (d' := z) (insertExisting_wf (insertExisting_wf h hx) hy) hz
    · obtain ⟨x, hx, y, hy, z, rfl, w, rfl, e⟩ := hd
      cases e
      exact insertExisting_wf (d' := y) (insertExisting_wf h hx) hy
  | remove c =>
    simp only [Delta.update, Except.bind_eq_ok, Except.pure_eq_ok] at hd
    obtain ⟨x, hx, w, rfl, e⟩ := hd
    cases e
    exact insertExisting_wf (d' := x) h hx

theorem layered_setOverlay {n : Nested} {o : Delta} (h : Layered n)
    (ho : DWF n.overlay → DWF o) : Layered (n.setOverlay o) := by
  cases n with
  | base o' =>
    intro x hx
    simp only [Nested.setOverlay, layers, List.mem_singleton] at hx
    subst hx
    exact ho (h o' (by simp [layers]))
  | over i o' =>
    intro x hx
    simp only [Nested.setOverlay, layers, List.mem_append, List.mem_singleton] at hx
    rcases hx with hx | rfl
    · exact h x (by simp [layers, hx])
    · exact ho (h o' (by simp [layers]))

theorem Grown.layered {n : Nested} (h : Grown n) : Layered n := by
  induction h with
  | start =>
    intro o ho
    simp only [Nested.default, layers, List.mem_singleton] at ho
    subst ho
    exact ⟨AMap.WF.nil, AMap.WF.nil⟩
  | spawn _ ih =>
    intro o ho
    simp only [Nested.spawn, layers, List.mem_append, List.mem_singleton] at ho
    rcases ho with ho | rfl
    · exact ih o ho
    · exact ⟨AMap.WF.nil, AMap.WF.nil⟩
  | update _ _ hd ih =>
    simp only [Nested.update, Except.bind_eq_ok, Except.pure_eq_ok] at hd
    obtain ⟨⟨o, i⟩, h1, h2⟩ := hd
    cases h2
    exact layered_setOverlay ih (fun h => update_wf h h1)
  | insert _ hd ih =>
    simp only [Nested.insertNew, Except.bind_eq_ok, Except.pure_eq_ok] at hd
    obtain ⟨⟨o, i⟩, h1, h2⟩ := hd
    cases h2
    exact layered_setOverlay ih (fun h => insertNew_wf h h1)

/-- The ids of the concepts that a list of changes makes. -/
def made (L : List (CId × Direct CId)) : List CId :=
  L.filterMap (fun p => match p.2 with | .new _ => some p.1 | _ => none)

/-- Every change of a trace that makes a concept has the next id. -/
theorem update_made {d d' : Nested} {dd : Direct CId} {id : CId}
    (h : d.update dd = .ok (d', id))
    (hm : ∃ k, made d.order = (List.range' k (d.overlay.num - k)).map .unc ∧ k ≤ d.overlay.num) :
    ∃ k, made d'.order = (List.range' k (d'.overlay.num - k)).map .unc ∧ k ≤ d'.overlay.num := by
  obtain ⟨k, hm, hk⟩ := hm
  obtain ⟨e, hn, _⟩ := nested_update h
  refine ⟨k, ?_, by omega⟩
  rw [Nested.update_order h, made, List.filterMap_append, ← made, hm, hn]
  cases dd with
  | new nd =>
    simp only [Direct.subject] at e
    subst e
    have : d.overlay.num + 1 - k = (d.overlay.num - k) + 1 := by omega
    simp only [Direct.uses, this, List.range'_concat, List.map_append]
    simp only [List.filterMap_cons, List.filterMap_nil, List.map_cons, List.map_nil, Nat.one_mul]
    rw [Nat.add_sub_cancel' hk]
  | _ => simp [Direct.uses]

theorem Trace.made {s : Snap} {d : Nested} (h : Trace s Nested.default d) :
    (Zia.made d.order).Nodup := by
  suffices h : ∃ k, Zia.made d.order = (List.range' k (d.overlay.num - k)).map .unc ∧
      k ≤ d.overlay.num by
    obtain ⟨k, h, _⟩ := h
    rw [h]
    refine List.Nodup.map (fun a b e => by cases e; rfl) List.nodup_range'
  induction h with
  | refl => exact ⟨0, rfl, Nat.le_refl _⟩
  | tail _ hm ih =>
    cases hm with
    | emit dd he hd => exact update_made hd ih
    | labelled t hl h1 h2 h3 => exact update_made h3 (update_made h2 (update_made h1 ih))

end Zia

import Verif.Lemmas.Labels

/-!
# Introducing and changing names
-/

namespace Zia
open Spec Relation

theorem introduce_eq (s : Snap) (ca : Cache) (vs : AMap Str CId) (b : List Key) (p : Bool) (t : Str) :
    ∃ D : Delta, Updater.newLabelledConcept t none (some (.com (builtin .label)))
      ⟨s, Nested.default, ca, vs, b, p⟩ = .ok (.ok (.unc 2), ⟨s, .base D, .empty, vs, b, p⟩) ∧
      D.order = [(.unc 0, .new (.str t)), (.unc 1, .new (.reducesTo (.unc 0))),
        (.unc 2, .new (.right (.unc 1) (.com (builtin .label)) none))] ∧
      D.string = [(t, .create (.unc 0))] :=
  ⟨_, rfl, rfl, rfl⟩

/-- The store after a symbol is introduced; `cl` is the concept of labels, `f` and `b` variables. -/
def introduced (s : Snap) (cl : Con) (t : Str) (f b : List Nat) : Snap :=
  { s with
    stringMap := (s.stringMap.insert t s.concepts.length).insert t s.concepts.length
    concepts := s.concepts.set (builtin .label) (cl.addLeft (s.concepts.length + 2) (s.concepts.length + 1)) ++
      [⟨s.concepts.length, [], [], [s.concepts.length + 1], .str t⟩,
       ⟨s.concepts.length + 1, [], [], [],
        .abst (.comp (builtin .label) (s.concepts.length + 2) f b) (some s.concepts.length)⟩,
       ⟨s.concepts.length + 2, [], [(builtin .label, s.concepts.length + 1)], [],
        .abst (.leaf .constant) none⟩] }

theorem commit_introduced {s : Snap} (hs : Nameable s) (hp : s.prev = []) {D : Delta} {t : Str}
    (ho : D.order = [(.unc 0, .new (.str t)), (.unc 1, .new (.reducesTo (.unc 0))),
        (.unc 2, .new (.right (.unc 1) (.com (builtin .label)) none))])
    (hst : D.string = [(t, .create (.unc 0))]) :
    ∃ cl, s.concepts[builtin .label]? = some cl ∧
      s.apply (.base D) = .ok (introduced s cl t [] []) := by
  obtain ⟨cl, hcl, hspec⟩ := (hs.concrete _).2 rfl
  refine ⟨cl, hcl, ?_⟩
  have hid := hs.refs.valid.ids _ _ hcl
  have hlt := lt_of_get hcl
  obtain ⟨sm, cs, conc, prev⟩ := s
  cases hp
  dsimp only at hcl hlt
  have hfresh : cl.leftOf.get? (cs.length + 1 + 1) = none := by
    cases hg : cl.leftOf.get? (cs.length + 1 + 1) with
    | none => rfl
    | some w =>
      have := hs.refs.valid.concepts _ _ hcl (cs.length + 1 + 1) (by
        rw [mem_refs]
        exact .inr (.inl ⟨_, AMap.mem_of_get? _ _ _ hg, .inl rfl⟩))
      dsimp only at this
      omega
  have h2 : builtin .label ≠ cs.length + 1 := by omega
  have e1 : Snap.applyOne ⟨sm, cs, conc, []⟩ (.unc 0, .new (.str t)) = .ok
      ⟨sm.insert t cs.length, cs ++ [Concept.mk' cs.length (.str t)], conc, [(0, cs.length)]⟩ := rfl
  have e2 : Snap.applyOne
      ⟨sm.insert t cs.length, cs ++ [Concept.mk' cs.length (.str t)], conc, [(0, cs.length)]⟩
      (.unc 1, .new (.reducesTo (.unc 0))) = .ok
      ⟨sm.insert t cs.length, cs ++ [⟨cs.length, [], [], [cs.length + 1], .str t⟩,
        Concept.mk' (cs.length + 1) (.abst (.leaf .constant) (some cs.length))], conc,
        [(0, cs.length), (1, cs.length + 1)]⟩ := by
    show (do
      let cr ← orDisjoint (cs ++ [Concept.mk' cs.length (.str t)])[cs.length]?
      _) = _
    rw [List.getElem?_concat_length]
    show Except.ok (Snap.mk _ ((cs ++ [Concept.mk' cs.length (.str t)]).set cs.length _ ++ [_]) _ _) = _
    simp [Concept.mk', setInsert, AMap.insert]
  have e3 : Snap.applyOne
      ⟨sm.insert t cs.length, cs ++ [⟨cs.length, [], [], [cs.length + 1], .str t⟩,
        Concept.mk' (cs.length + 1) (.abst (.leaf .constant) (some cs.length))], conc,
        [(0, cs.length), (1, cs.length + 1)]⟩
      (.unc 2, .new (.right (.unc 1) (.com (builtin .label)) none)) = .ok
      ⟨sm.insert t cs.length,
        cs.set (builtin .label) (cl.addLeft (cs.length + 2) (cs.length + 1)) ++
        [⟨cs.length, [], [], [cs.length + 1], .str t⟩,
         ⟨cs.length + 1, [], [], [],
          .abst (.comp (builtin .label) (cs.length + 2) [] []) (some cs.length)⟩,
         ⟨cs.length + 2, [], [(builtin .label, cs.length + 1)], [],
          .abst (.leaf .constant) none⟩], conc,
        [(0, cs.length), (1, cs.length + 1), (2, cs.length + 2)]⟩ := by
    have g1 : (cs ++ [(⟨cs.length, [], [], [cs.length + 1], .str t⟩ : Con),
        Concept.mk' (cs.length + 1) (.abst (.leaf .constant) (some cs.length))])[builtin .label]? =
        some cl := by
      rw [List.getElem?_append_left hlt, hcl]
    have g2 : (cs ++ [(⟨cs.length, [], [], [cs.length + 1], .str t⟩ : Con),
        Concept.mk' (cs.length + 1) (.abst (.leaf .constant) (some cs.length))])[cs.length + 1]? =
        some (Concept.mk' (cs.length + 1) (.abst (.leaf .constant) (some cs.length))) := by
      rw [List.getElem?_append_right (by omega)]
      simp
    have g : get2 (cs ++ [(⟨cs.length, [], [], [cs.length + 1], .str t⟩ : Con),
        Concept.mk' (cs.length + 1) (.abst (.leaf .constant) (some cs.length))]) (builtin .label)
        (cs.length + 1) = some (cl, Concept.mk' (cs.length + 1) (.abst (.leaf .constant) (some cs.length))) :=
      get2_eq_some.2 ⟨h2, g1, g2⟩
    have hfresh' : cl.leftOf.get? (cs.length + (0 + 1 + 1)) = none := hfresh
    show (do
      let (cl, ck) ← orDisjoint (get2 (cs ++ [(⟨cs.length, [], [], [cs.length + 1], .str t⟩ : Con),
        Concept.mk' (cs.length + 1) (.abst (.leaf .constant) (some cs.length))]) (builtin .label)
        (cs.length + 1))
      _) = _
    rw [g]
    simp only [orDisjoint, righthandOf, Concept.mk', List.length_append, List.length_cons,
      List.length_nil, insertInto, hfresh', hspec, bind, Except.bind, pure, Except.pure]
    show Except.ok (Snap.mk _ (((cs ++ [_, _]).set (builtin .label) _).set (cs.length + 1) _ ++ [_]) _ _) = _
    rw [List.set_append_left _ _ hlt, List.set_append_right _ _ (by rw [List.length_set]; omega)]
    simp [AMap.insert, hid, hspec, leafOrConcrete, Concept.addLeft]
  unfold Snap.apply
  simp only [Nested.order, ho, Nested.iterString, hst, Snap.applyAll, e1, e2, e3, bind, Except.bind, pure, Except.pure]
  rfl

theorem introduced_get {s : Snap} {cl : Con} {t : Str} {f b : List Nat} :
    (introduced s cl t f b).concepts[s.concepts.length]? =
      some ⟨s.concepts.length, [], [], [s.concepts.length + 1], .str t⟩ ∧
    (introduced s cl t f b).concepts[s.concepts.length + 1]? =
      some ⟨s.concepts.length + 1, [], [], [],
        .abst (.comp (builtin .label) (s.concepts.length + 2) f b) (some s.concepts.length)⟩ ∧
    (introduced s cl t f b).concepts[s.concepts.length + 2]? =
      some ⟨s.concepts.length + 2, [], [(builtin .label, s.concepts.length + 1)], [],
        .abst (.leaf .constant) none⟩ := by
  have key : ∀ j, s.concepts.length ≤ j → (introduced s cl t f b).concepts[j]? = _ := fun j hj => by
    simp only [introduced]
    exact List.getElem?_append_right (by rw [List.length_set]; exact hj)
  refine ⟨?_, ?_, ?_⟩
  · rw [key _ (by omega), List.length_set]; simp
  · rw [key _ (by omega), List.length_set]; simp
  · rw [key _ (by omega), List.length_set]; simp

theorem introduced_label {s : Snap} {cl : Con} {t : Str} {f b : List Nat}
    (hcl : s.concepts[builtin .label]? = some cl) :
    (introduced s cl t f b).concepts[builtin .label]? =
      some (cl.addLeft (s.concepts.length + 2) (s.concepts.length + 1)) := by
  have hlt := lt_of_get hcl
  simp only [introduced]
  rw [List.getElem?_append_left (by rw [List.length_set]; exact hlt), List.getElem?_set_self hlt]

theorem introduced_other {s : Snap} {cl : Con} {t : Str} {f b : List Nat} {i : Nat}
    (hi : i < s.concepts.length) (hne : builtin .label ≠ i) :
    (introduced s cl t f b).concepts[i]? = s.concepts[i]? := by
  simp only [introduced]
  rw [List.getElem?_append_left (by rw [List.length_set]; exact hi), List.getElem?_set_ne hne]

theorem introduced_spec {s : Snap} {cl : Con} {t : Str} {f b : List Nat}
    (hcl : s.concepts[builtin .label]? = some cl) {i : Nat} (hi : i < s.concepts.length) :
    specs (introduced s cl t f b) i = specs s i := by
  unfold specs look
  by_cases hne : builtin .label = i
  · subst hne
    rw [introduced_label hcl, hcl]; rfl
  · rw [introduced_other hi hne]

theorem introduced_lookup [HashOrder] {s : Snap} {cl : Con} {t : Str} {f b : List Nat}
    (hcl : s.concepts[builtin .label]? = some cl) (hspec : cl.spec = .concrete .label) {n : Nat}
    (hn : 1 ≤ n) : (View.mk (introduced s cl t f b) Nested.default).conceptFromLabel n t =
      .ok (some (.com (s.concepts.length + 2))) := by
  obtain ⟨n, rfl⟩ : ∃ m, n = m + 1 := ⟨n - 1, by omega⟩
  obtain ⟨g0, g1, g2⟩ := introduced_get (s := s) (cl := cl) (t := t) (f := f) (b := b)
  have gl := introduced_label (t := t) (f := f) (b := b) hcl
  have hst : (View.mk (introduced s cl t f b) Nested.default).stringConcept t =
      .ok (some (.com s.concepts.length)) := by
    show Except.ok (((introduced s cl t f b).stringMap.get? t).map CId.com) = _
    simp only [introduced, AMap.get?_insert, if_true]
    rfl
  unfold View.conceptFromLabel
  rw [hst]
  show (View.mk (introduced s cl t f b) Nested.default).labellee (n + 1) (.com s.concepts.length) = _
  unfold View.labellee
  rw [rest_read g0]
  show View.labelleeLoop _ (n + 1) (Mixed.reducesFrom _) = _
  have hred : (Mixed.ofCon ⟨s.concepts.length, [], [], [s.concepts.length + 1], .str t⟩).reducesFrom =
      [.com (s.concepts.length + 1)] := by
    simp only [Mixed.ofCon, Mixed.reducesFrom, HashOrder.order_nil, HashOrder.order_singleton]
    rfl
  rw [hred, View.labelleeLoop, rest_read g1]
  show (do
    if (← (View.mk (introduced s cl t f b) Nested.default).cct (.com (builtin .label))) = some CCT.label then
      return some (CId.com (s.concepts.length + 2))
    else _) = _
  unfold View.cct
  rw [rest_read gl]
  show (if (Mixed.ofCon (cl.addLeft _ _)).cct = some .label then _ else _) = _
  rw [if_pos]
  · rfl
  · show (cl.addLeft _ _).cct = _
    simp only [Concept.addLeft, Concept.cct, hspec]

theorem reducesTo_specs {s : Snap} {i j : Nat} :
    ReducesTo s i j ↔ ∃ sp, specs s i = some sp ∧ redOf sp = some j := by
  constructor
  · rintro ⟨c, hc, hr⟩
    exact ⟨c.spec, by unfold specs look; rw [hc]; rfl, by rw [← reduction_eq]; exact hr⟩
  · rintro ⟨sp, h, hr⟩
    simp only [specs, look, Option.map_eq_some_iff] at h
    obtain ⟨c, hc, rfl⟩ := h
    exact ⟨c, hc, by rw [reduction_eq]; exact hr⟩

theorem composedOf_specs {s : Snap} {k l r : Nat} :
    ComposedOf s k l r ↔ ∃ sp, specs s k = some sp ∧ pairOf sp = some (l, r) := by
  constructor
  · rintro ⟨c, hc, hr⟩
    exact ⟨c.spec, by unfold specs look; rw [hc]; rfl, by rw [← composition_eq]; exact hr⟩
  · rintro ⟨sp, h, hr⟩
    simp only [specs, look, Option.map_eq_some_iff] at h
    obtain ⟨c, hc, rfl⟩ := h
    exact ⟨c, hc, by rw [composition_eq]; exact hr⟩

theorem isString_specs {s : Snap} {i : Nat} {t : Str} :
    IsString s i t ↔ specs s i = some (.str t) := by
  rw [isString_iff]
  constructor
  · rintro ⟨c, hc, hr⟩
    unfold specs look; rw [hc]; exact congrArg some hr
  · intro h
    simp only [specs, look, Option.map_eq_some_iff] at h
    exact h

theorem reducesTo_lt {s : Snap} (hs : RefsInv s) {i j : Nat} (h : ReducesTo s i j) :
    i < s.concepts.length ∧ j < s.concepts.length := reduct_lt hs (reducesTo_iff.1 h)

/-- Every other name is kept. -/
theorem introduced_hasName {s : Snap} (hs : RefsInv s) {cl : Con} {t : Str} {f b : List Nat}
    (hcl : s.concepts[builtin .label]? = some cl) {y : Nat} (hy : y < s.concepts.length) {u : Str} :
    HasName (introduced s cl t f b) y u ↔ HasName s y u := by
  have sp : ∀ i, i < s.concepts.length → specs (introduced s cl t f b) i = specs s i :=
    fun i hi => introduced_spec hcl hi
  have red : ∀ i j, i < s.concepts.length → (ReducesTo (introduced s cl t f b) i j ↔ ReducesTo s i j) :=
    fun i j hi => by rw [reducesTo_specs, reducesTo_specs, sp i hi]
  constructor
  · rintro ⟨k, i, hk, hr, hi⟩
    have hkl : k < s.concepts.length := by
      by_contra hge
      obtain ⟨c, hc, hp⟩ := hk
      have hlt := lt_of_get hc
      have hlen : (introduced s cl t f b).concepts.length = s.concepts.length + 3 := by
        simp [introduced]
      obtain ⟨g0, g1, g2⟩ := introduced_get (s := s) (cl := cl) (t := t) (f := f) (b := b)
      rw [hlen] at hlt
      rcases (by omega : k = s.concepts.length ∨ k = s.concepts.length + 1 ∨
        k = s.concepts.length + 2) with e | e | e <;> rw [e] at hc
      · rw [g0] at hc; cases hc; cases hp
      · rw [g1] at hc; cases hc; cases hp; omega
      · rw [g2] at hc; cases hc; cases hp
    have hr' : TransGen (ReducesTo s) k i ∧ i < s.concepts.length := by
      clear hi
      induction hr with
      | single h =>
        have h := (red _ _ hkl).1 h
        exact ⟨.single h, (reducesTo_lt hs h).2⟩
      | tail _ h ih =>
        have h := (red _ _ ih.2).1 h
        exact ⟨.tail ih.1 h, (reducesTo_lt hs h).2⟩
    refine ⟨k, i, ?_, hr'.1, ?_⟩
    · rw [composedOf_specs, ← sp k hkl, ← composedOf_specs]; exact hk
    · rw [isString_specs, ← sp i hr'.2, ← isString_specs]; exact hi
  · rintro ⟨k, i, hk, hr, hi⟩
    have hkl : k < s.concepts.length := by
      obtain ⟨c, hc, _⟩ := hk
      exact lt_of_get hc
    have hil : i < s.concepts.length := by
      obtain ⟨c, hc, _⟩ := hi
      exact lt_of_get hc
    refine ⟨k, i, ?_, ?_, ?_⟩
    · rw [composedOf_specs, sp k hkl, ← composedOf_specs]; exact hk
    · exact TransGen.mono (fun a b h => (red a b (reducesTo_lt hs h).1).2 h) _ _ hr
    · rw [isString_specs, sp i hil, ← isString_specs]; exact hi

theorem introduced_named {s : Snap} {cl : Con} {t : Str} {f b : List Nat} :
    HasName (introduced s cl t f b) (s.concepts.length + 2) t := by
  obtain ⟨g0, g1, g2⟩ := introduced_get (s := s) (cl := cl) (t := t) (f := f) (b := b)
  exact ⟨s.concepts.length + 1, s.concepts.length, ⟨_, g1, rfl⟩, .single ⟨_, g1, rfl⟩, ⟨_, g0, rfl⟩⟩

/-- The introduced concept is displayed as its symbol. -/
theorem introduced_display [HashOrder] {s : Snap} (hs : Nameable s) {cl : Con} {t : Str} {f b : List Nat}
    (hcl : s.concepts[builtin .label]? = some cl) (hspec : cl.spec = .concrete .label) {n : Nat}
    (hn : 3 ≤ n) : (View.mk (introduced s cl t f b) Nested.default).label n (.com (s.concepts.length + 2)) =
      .ok (some t) := by
  obtain ⟨n, rfl⟩ : ∃ m, n = m + 3 := ⟨n - 3, by omega⟩
  obtain ⟨g0, g1, g2⟩ := introduced_get (s := s) (cl := cl) (t := t) (f := f) (b := b)
  have hl : (View.mk (introduced s cl t f b) Nested.default).concreteId .label =
      .ok (some (.com (builtin .label))) := by
    unfold View.concreteId
    rw [show Nested.default.iterConcepts = [] from rfl, HashOrder.order_nil]
    show Except.ok ((byRight s.concrete .label).map CId.com) = _
    rw [hs.table]
    rfl
  rw [View.label]
  have hc : (View.mk (introduced s cl t f b) Nested.default).conceptOfLabel (.com (s.concepts.length + 2)) =
      .ok (some (.com (s.concepts.length + 1))) := by
    unfold View.conceptOfLabel
    rw [hl]
    show (do
      return (← (View.mk (introduced s cl t f b) Nested.default).read
        (.com (s.concepts.length + 2))).findAsHand (.com (builtin .label)) .right) = _
    rw [rest_read g2]
    rfl
  rw [hc]
  have hn : (View.mk (introduced s cl t f b) Nested.default).normalForm (n + 2)
      (.com (s.concepts.length + 1)) = .ok (some (.com s.concepts.length)) := by
    rw [View.normalForm, rest_read g1]
    show (do
      return some ((← (View.mk (introduced s cl t f b) Nested.default).normalForm (n + 1)
        (.com s.concepts.length)).getD (.com s.concepts.length))) = _
    rw [View.normalForm, rest_read g0]
    rfl
  show (do
    match ← (View.mk (introduced s cl t f b) Nested.default).normalForm (n + 2)
      (.com (s.concepts.length + 1)) with
    | none => return none
    | some x => return (← (View.mk (introduced s cl t f b) Nested.default).read x).string) = _
  rw [hn]
  show (do
    return (← (View.mk (introduced s cl t f b) Nested.default).read (.com s.concepts.length)).string) = _
  rw [rest_read g0]
  rfl

end Zia

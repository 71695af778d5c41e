import Verif.Lemmas.Store
import Verif.Reader

/-!
# What a change adds to the pending changes
-/

namespace Zia

/-- The changes recorded for one concept in a layer. -/
def Delta.entries (d : Delta) (a : CId) : List CDelta := (d.concept.get? a).getD []

/-- What one change records, and for which concepts. -/
def recorded (id : CId) : Direct CId → List (CId × CDelta)
  | .new nd => (id, .direct (.new nd)) ::
    match nd with
    | .freeVariable => []
    | .boundVariable => []
    | .str _ => []
    | .composition p => [(p.left, .indirect (.lefthandOf id p.right)),
        (p.right, .indirect (.righthandOf id p.left))]
    | .left comp r _ => [(r, .indirect (.righthandOf comp id)),
        (comp, .indirect (.composedOf ⟨id, r⟩))]
    | .right comp l _ => [(l, .indirect (.lefthandOf comp id)),
        (comp, .indirect (.composedOf ⟨l, id⟩))]
    | .double comp _ => [(comp, .indirect (.composedOf ⟨id, id⟩))]
    | .reducesTo r => [(r, .indirect (.reducesFrom id))]
  | .compose comp (.create p) => [(comp, .direct (.compose comp (.create p))),
      (p.left, .indirect (.lefthandOf comp p.right)),
      (p.right, .indirect (.righthandOf comp p.left))]
  | .compose comp (.update b a) => [(comp, .direct (.compose comp (.update b a))),
      (b.left, .indirect (.noLongerLefthandOf b.right)),
      (b.right, .indirect (.noLongerRighthandOf b.left)),
      (a.left, .indirect (.lefthandOf comp a.right)),
      (a.right, .indirect (.righthandOf comp a.left))]
  | .compose comp (.remove b) => [(comp, .direct (.compose comp (.remove b))),
      (b.left, .indirect (.noLongerLefthandOf b.right)),
      (b.right, .indirect (.noLongerRighthandOf b.left))]
  | .reduce u (.create r) => [(u, .direct (.reduce u (.create r))),
      (r, .indirect (.reducesFrom u))]
  | .reduce u (.update b r) => [(u, .direct (.reduce u (.update b r))),
      (b, .indirect (.noLongerReducesFrom u)), (r, .indirect (.reducesFrom u))]
  | .reduce u (.remove b) => [(u, .direct (.reduce u (.remove b))),
      (b, .indirect (.noLongerReducesFrom u))]
  | .remove x => [(x, .direct (.remove x))]

/-- The part of a list of records about one concept. -/
def about (a : CId) (L : List (CId × CDelta)) : List CDelta :=
  L.filterMap (fun p => if p.1 = a then some p.2 else none)

@[simp] theorem about_nil (a : CId) : about a [] = [] := rfl

theorem about_cons (a b : CId) (e : CDelta) (L : List (CId × CDelta)) :
    about a ((b, e) :: L) = if b = a then e :: about a L else about a L := by
  unfold about
  rw [List.filterMap_cons]
  dsimp only
  split <;> simp_all

theorem about_append (a : CId) (L L' : List (CId × CDelta)) :
    about a (L ++ L') = about a L ++ about a L' := by simp [about]

/-- A layer after some records. -/
structure Recorded (d d' : Delta) (L : List (CId × CDelta)) : Prop where
  string : d'.string = d.string
  num : d'.num = d.num
  order : d'.order = d.order
  entries : ∀ a, d'.entries a = d.entries a ++ about a L

theorem Recorded.trans {d d' d'' : Delta} {L L' : List (CId × CDelta)} (h : Recorded d d' L)
    (h' : Recorded d' d'' L') : Recorded d d'' (L ++ L') :=
  ⟨h'.string.trans h.string, h'.num.trans h.num, h'.order.trans h.order, fun a => by
    rw [h'.entries, h.entries, about_append, List.append_assoc]⟩

theorem Recorded.refl (d : Delta) : Recorded d d [] := ⟨rfl, rfl, rfl, by simp⟩

theorem insertExisting_recorded {d d' : Delta} {id : CId} {cd : CDelta}
    (h : d.insertExisting id cd = .ok d') : Recorded d d' [(id, cd)] := by
  unfold Delta.insertExisting at h
  have key : ∀ (v : List CDelta), (d.concept.get? id).getD [] = v →
      Recorded d { d with concept := d.concept.insert id (v ++ [cd]) } [(id, cd)] := by
    intro v hv
    refine ⟨rfl, rfl, rfl, fun a => ?_⟩
    simp only [Delta.entries, AMap.get?_insert, about_cons, about_nil]
    split
    · next e => subst e; simp [hv]
    · simp
  cases hg : d.concept.get? id with
  | none =>
    rw [hg] at h; dsimp only at h; cases h
    exact key [] (by rw [hg]; rfl)
  | some v =>
    rw [hg] at h
    dsimp only at h
    have : d' = { d with concept := d.concept.insert id (v ++ [cd]) } := by
      split at h <;> first | (cases h; done) | (cases h; rfl)
    subst this
    exact key v (by rw [hg]; rfl)

theorem insertNew_eq_ok {d d' : Delta} {nd : NewDelta CId} {id : CId}
    (h : d.insertNew nd = .ok (d', id)) :
    id = .unc d.num ∧ d'.string = d.string ∧ d'.num = d.num + 1 ∧ d'.order = d.order ∧
    (d.entries id = [] ∨ ∃ x, .direct (.remove x) ∈ d.entries id) ∧
    ∀ a, d'.entries a = d.entries a ++ about a [(id, .direct (.new nd))] := by
  unfold Delta.insertNew at h
  dsimp only at h
  have key : ∀ (v : List CDelta), (d.concept.get? (.unc d.num)).getD [] = v → ∀ a,
      Delta.entries ⟨d.string, d.num + 1, d.order,
        d.concept.insert (.unc d.num) (v ++ [.direct (.new nd)])⟩ a =
        d.entries a ++ about a [(.unc d.num, .direct (.new nd))] := by
    intro v hv a
    simp only [Delta.entries, AMap.get?_insert, about_cons, about_nil]
    split
    · next e => subst e; simp [hv]
    · simp
  cases hg : d.concept.get? (.unc d.num) with
  | none =>
    rw [hg] at h; dsimp only at h; cases h
    exact ⟨rfl, rfl, rfl, rfl, .inl (by simp [Delta.entries, hg]), key [] (by rw [hg]; rfl)⟩
  | some v =>
    rw [hg] at h
    dsimp only at h
    split at h
    · next x hx =>
      cases h
      refine ⟨rfl, rfl, rfl, rfl, .inr ⟨x, ?_⟩, key v (by rw [hg]; rfl)⟩
      simp only [Delta.entries, hg, Option.getD_some]
      exact List.mem_of_getLast? hx
    · cases h

/-- A change of the string table leaves the rest. -/
theorem insertString_eq_ok {d d' : Delta} {s : Str} {id : CId} (h : d.insertString s id = .ok d') :
    d'.num = d.num ∧ d'.order = d.order ∧ d'.concept = d.concept ∧
    ((d.string.get? s = none ∧ d'.string = d.string.insert s (.create id)) ∨
      ∃ b, d.string.get? s = some (.remove b) ∧ d'.string = d.string.insert s (.update b id)) := by
  unfold Delta.insertString at h
  split at h
  · next hs => cases h; exact ⟨rfl, rfl, rfl, .inl ⟨hs, rfl⟩⟩
  · next b hs => cases h; exact ⟨rfl, rfl, rfl, .inr ⟨b, hs, rfl⟩⟩
  · cases h

/-- The id of the concept that a change is filed under. -/
def Direct.subject (num : Nat) : Direct CId → CId
  | .new _ => .unc num
  | .compose c _ => c
  | .reduce c _ => c
  | .remove c => c

/-- How many ids a change uses up. -/
def Direct.uses : Direct CId → Nat
  | .new _ => 1
  | _ => 0

/-- What one change does to a layer. -/
structure Updated (d d' : Delta) (dd : Direct CId) : Prop where
  order : d'.order = d.order ++ [(dd.subject d.num, dd)]
  num : d'.num = d.num + dd.uses
  entries : ∀ a, d'.entries a = d.entries a ++ about a (recorded (dd.subject d.num) dd)
  fresh : ∀ nd, dd = .new nd → d.entries (.unc d.num) = [] ∨
    ∃ x, .direct (.remove x) ∈ d.entries (.unc d.num)
  string : (∀ t, dd = .new (.str t) → (d.string.get? t = none ∧
      d'.string = d.string.insert t (.create (.unc d.num))) ∨
      ∃ b, d.string.get? t = some (.remove b) ∧
        d'.string = d.string.insert t (.update b (.unc d.num))) ∧
    ((∀ t, dd ≠ .new (.str t)) → d'.string = d.string)

theorem Delta.update_new {d d' : Delta} {nd : NewDelta CId} {id : CId}
    (h : d.updateNew nd = .ok (d', id)) : id = .unc d.num ∧ d'.order = d.order ∧
    d'.num = d.num + 1 ∧
    (∀ a, d'.entries a = d.entries a ++ about a (recorded (.unc d.num) (.new nd))) ∧
    (d.entries (.unc d.num) = [] ∨ ∃ x, .direct (.remove x) ∈ d.entries (.unc d.num)) ∧
    ((∀ t, nd = .str t → (d.string.get? t = none ∧
      d'.string = d.string.insert t (.create (.unc d.num))) ∨
      ∃ b, d.string.get? t = some (.remove b) ∧
        d'.string = d.string.insert t (.update b (.unc d.num))) ∧
    ((∀ t, nd ≠ .str t) → d'.string = d.string)) := by
  unfold Delta.updateNew at h
  rw [Except.bind_eq_ok] at h
  obtain ⟨⟨d1, i⟩, h1, h⟩ := h
  dsimp only at h
  obtain ⟨e0, es, en, eo, ef, ee⟩ := insertNew_eq_ok h1
  subst e0
  have fin : ∀ {d' : Delta} {L : List (CId × CDelta)}, Recorded d1 d' L →
      d'.order = d.order ∧ d'.num = d.num + 1 ∧
      (∀ a, d'.entries a = d.entries a ++ about a ((.unc d.num, .direct (.new nd)) :: L)) ∧
      (d.entries (.unc d.num) = [] ∨ ∃ x, .direct (.remove x) ∈ d.entries (.unc d.num)) ∧
      d'.string = d.string := by
    intro d' L hr
    refine ⟨hr.order.trans eo, by rw [hr.num, en], fun a => ?_, ef, hr.string.trans es⟩
    rw [hr.entries, ee, List.append_assoc, ← about_append]; rfl
  cases nd with
  | freeVariable =>
    cases h
    obtain ⟨a, b, c, e, f⟩ := fin (.refl _)
    exact ⟨rfl, a, b, c, e, by simp, fun _ => f⟩
  | boundVariable =>
    cases h
    obtain ⟨a, b, c, e, f⟩ := fin (.refl _)
    exact ⟨rfl, a, b, c, e, by simp, fun _ => f⟩
  | str t =>
    rw [Except.bind_eq_ok] at h
    obtain ⟨d2, h2, h⟩ := h
    cases h
    obtain ⟨e1, e2, e3, e4⟩ := insertString_eq_ok h2
    refine ⟨rfl, e2.trans eo, by rw [e1, en], fun a => ?_, ef, ?_, by simp⟩
    · refine Eq.trans ?_ (ee a)
      simp only [Delta.entries, e3]
    · intro t ht
      cases ht
      rw [es] at e4
      exact e4
  | composition p =>
    simp only [Except.bind_eq_ok] at h
    obtain ⟨d2, h2, d3, h3, h⟩ := h
    cases h
    obtain ⟨a, b, c, e, f⟩ := fin ((insertExisting_recorded h2).trans (insertExisting_recorded h3))
    exact ⟨rfl, a, b, c, e, by simp, fun _ => f⟩
  | left comp r t =>
    simp only [Except.bind_eq_ok] at h
    obtain ⟨d2, h2, d3, h3, h⟩ := h
    cases h
    obtain ⟨a, b, c, e, f⟩ := fin ((insertExisting_recorded h2).trans (insertExisting_recorded h3))
    exact ⟨rfl, a, b, c, e, by simp, fun _ => f⟩
  | right comp r t =>
    simp only [Except.bind_eq_ok] at h
    obtain ⟨d2, h2, d3, h3, h⟩ := h
    cases h
    obtain ⟨a, b, c, e, f⟩ := fin ((insertExisting_recorded h2).trans (insertExisting_recorded h3))
    exact ⟨rfl, a, b, c, e, by simp, fun _ => f⟩
  | double comp t =>
    simp only [Except.bind_eq_ok] at h
    obtain ⟨d2, h2, h⟩ := h
    cases h
    obtain ⟨a, b, c, e, f⟩ := fin (insertExisting_recorded h2)
    exact ⟨rfl, a, b, c, e, by simp, fun _ => f⟩
  | reducesTo r =>
    simp only [Except.bind_eq_ok] at h
    obtain ⟨d2, h2, h⟩ := h
    cases h
    obtain ⟨a, b, c, e, f⟩ := fin (insertExisting_recorded h2)
    exact ⟨rfl, a, b, c, e, by simp, fun _ => f⟩

theorem unlinkHands_recorded {d d' : Delta} {p : CompPair CId} (h : d.unlinkHands p = .ok d') :
    Recorded d d' [(p.left, .indirect (.noLongerLefthandOf p.right)),
      (p.right, .indirect (.noLongerRighthandOf p.left))] := by
  unfold Delta.unlinkHands at h
  rw [Except.bind_eq_ok] at h
  obtain ⟨d1, h1, h2⟩ := h
  exact (insertExisting_recorded h1).trans (insertExisting_recorded h2)

theorem linkHands_recorded {d d' : Delta} {c : CId} {p : CompPair CId}
    (h : d.linkHands c p = .ok d') :
    Recorded d d' [(p.left, .indirect (.lefthandOf c p.right)),
      (p.right, .indirect (.righthandOf c p.left))] := by
  unfold Delta.linkHands at h
  rw [Except.bind_eq_ok] at h
  obtain ⟨d1, h1, h2⟩ := h
  exact (insertExisting_recorded h1).trans (insertExisting_recorded h2)

theorem Delta.update_eq_ok {d d' : Delta} {dd : Direct CId} {id : CId}
    (h : d.update dd = .ok (d', id)) : id = dd.subject d.num ∧ Updated d d' dd := by
  unfold Delta.update at h
  have fin : ∀ {d1 : Delta} {id : CId}, Recorded d d1 (recorded id dd) → id = dd.subject d.num →
      dd.uses = 0 → (∀ nd, dd ≠ .new nd) →
      Updated d { d1 with order := d1.order ++ [(id, dd)] } dd := by
    intro d1 id hr hid hu hn
    subst hid
    refine ⟨?_, ?_, hr.entries, fun nd e => (hn nd e).elim, fun t e => (hn _ e).elim,
      fun _ => hr.string⟩
    · rw [hr.order]
    · rw [hu, Nat.add_zero]; exact hr.num
  cases dd with
  | new nd =>
    rw [Except.bind_eq_ok] at h
    obtain ⟨⟨d1, i⟩, h1, h⟩ := h
    cases h
    obtain ⟨e, a, b, c, f, g1, g2⟩ := Delta.update_new h1
    subst e
    refine ⟨rfl, ?_, ?_, c, ?_, ?_, ?_⟩
    · rw [a]; rfl
    · exact b
    · exact fun _ _ => f
    · intro t ht
      cases ht
      exact g1 t rfl
    · intro hh
      exact g2 (fun t e => hh t (by rw [e]))
  | compose comp change =>
    cases change with
    | create p =>
      simp only [Except.bind_eq_ok, Except.pure_eq_ok] at h
      obtain ⟨d1, h1, d2, rfl, d3, h3, d4, rfl, h⟩ := h
      cases h
      exact ⟨rfl, fin ((insertExisting_recorded h1).trans (linkHands_recorded h3)) rfl rfl (by simp)⟩
    | update b a =>
      simp only [Except.bind_eq_ok, Except.pure_eq_ok] at h
      obtain ⟨d1, h1, d2, h2, d3, h3, d4, rfl, h⟩ := h
      cases h
      exact ⟨rfl, fin (((insertExisting_recorded h1).trans (unlinkHands_recorded h2)).trans
        (linkHands_recorded h3)) rfl rfl (by simp)⟩
    | remove b =>
      simp only [Except.bind_eq_ok, Except.pure_eq_ok] at h
      obtain ⟨d1, h1, d2, h2, d3, rfl, d4, rfl, h⟩ := h
      cases h
      exact ⟨rfl, fin ((insertExisting_recorded h1).trans (unlinkHands_recorded h2)) rfl rfl
        (by simp)⟩
  | reduce u change =>
    cases change with
    | create p =>
      simp only [Except.bind_eq_ok, Except.pure_eq_ok] at h
      obtain ⟨d1, h1, d2, rfl, d3, h3, d4, rfl, h⟩ := h
      cases h
      exact ⟨rfl, fin ((insertExisting_recorded h1).trans (insertExisting_recorded h3)) rfl rfl
        (by simp)⟩
    | update b a =>
      simp only [Except.bind_eq_ok, Except.pure_eq_ok] at h
      obtain ⟨d1, h1, d2, h2, d3, h3, d4, rfl, h⟩ := h
      cases h
      exact ⟨rfl, fin (((insertExisting_recorded h1).trans (insertExisting_recorded h2)).trans
        (insertExisting_recorded h3)) rfl rfl (by simp)⟩
    | remove b =>
      simp only [Except.bind_eq_ok, Except.pure_eq_ok] at h
      obtain ⟨d1, h1, d2, h2, d3, rfl, d4, rfl, h⟩ := h
      cases h
      exact ⟨rfl, fin ((insertExisting_recorded h1).trans (insertExisting_recorded h2)) rfl rfl
        (by simp)⟩
  | remove x =>
    simp only [Except.bind_eq_ok, Except.pure_eq_ok] at h
    obtain ⟨d1, h1, d2, rfl, h⟩ := h
    cases h
    exact ⟨rfl, fin (insertExisting_recorded h1) rfl rfl (by simp)⟩

theorem readSteps_append (id : CId) (c : Option Mixed) (L L' : List CDelta) :
    View.readSteps id c (L ++ L') = (do View.readSteps id (← View.readSteps id c L) L') := by
  induction L generalizing c with
  | nil => rfl
  | cons e L ih =>
    simp only [List.cons_append, View.readSteps]
    cases View.readStep id c e with
    | error f => rfl
    | ok m => exact ih m

end Zia

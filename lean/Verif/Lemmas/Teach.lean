import Verif.Lemmas.Quiet
import Verif.Lemmas.Labels

/-!
# Introductions teach nothing
-/

namespace Zia
open Spec

/-- The read built-in concept is a built-in concept of the store, or in the table. -/
theorem Sim.concreteLoop_is {s g : Snap} {d : Delta} (h : Sim s d g) {t : CCT} {l : CId}
    {L : List (CId × List CDelta)} {acc : Option (Option CId)}
    (hl : (View.mk s (.base d)).concreteLoop t acc L = .ok (some (some l)))
    (ha : ∀ a, acc = some (some a) → ∃ i, Live s g a i ∧ Conc g i t) :
    ∃ i, Live s g l i ∧ Conc g i t := by
  induction L generalizing acc with
  | nil => cases hl; exact ha _ rfl
  | cons q L ih =>
    obtain ⟨a, ds⟩ := q
    simp only [View.concreteLoop, Except.bind_eq_ok] at hl
    obtain ⟨mc, hmc, hl⟩ := hl
    split at hl
    · next e =>
      simp only [Except.bind_eq_ok] at hl
      obtain ⟨acc', hs, hl⟩ := hl
      refine ih hl ?_
      have la : ∃ i, Live s g a i ∧ Conc g i t := by
        simp only [View.maybeCct, Except.bind_eq_ok, Except.pure_eq_ok] at hmc
        obtain ⟨o, ho, rfl⟩ := hmc
        cases o with
        | none => cases e
        | some m =>
          have hm : (View.mk s (.base d)).read a = .ok m := by
            simp only [View.read, ho]; rfl
          obtain ⟨i, sp, hl, hsp, hag⟩ := h.read hm
          refine ⟨i, hl, ?_⟩
          have hc : m.cct = some t := e
          have := hag.cct
          simp only [Mixed.core, hc] at this
          cases sp with
          | concrete t' =>
            cases this
            simp only [specs, Option.map_eq_some_iff] at hsp
            obtain ⟨k, hk, hks⟩ := hsp
            exact ⟨k, hk, hks⟩
          | abst _ _ => cases this
          | str _ => cases this
      clear hl
      induction ds generalizing acc with
      | nil => cases hs; exact ha
      | cons e ds ihd =>
        unfold View.concreteStep at hs
        split at hs
        · next heq => cases heq
        · next heq => cases heq; exact ihd (fun b hb => by cases hb; exact la) hs
        · next heq =>
          cases heq
          split at hs
          · exact ihd (fun b hb => by cases hb) hs
          · cases hs
        · next heq => cases heq; exact ihd ha hs
    · exact ih hl ha

/-- What was stored has its content, and what is new is a name or has none. -/
structure Names (s g : Snap) : Prop where
  len : s.concepts.length ≤ g.concepts.length
  old : ∀ (i : Nat) (c : Con), s.concepts[i]? = some c →
    ∃ c' : Con, g.concepts[i]? = some c' ∧ c'.spec = c.spec ∧ c'.redFrom = c.redFrom
  new : ∀ (i : Nat) (c : Con), s.concepts.length ≤ i → g.concepts[i]? = some c →
    (∃ l, c.spec = .abst (.leaf l) none) ∨ (∃ t, c.spec = .str t) ∨
    ∃ (x : Nat) (f b : List Nat) (j : Nat) (cj : Con) (t : Str),
      c.spec = .abst (.comp (builtin .label) x f b) (some j) ∧ s.concepts.length ≤ x ∧
      s.concepts.length ≤ j ∧ g.concepts[j]? = some cj ∧ cj.spec = .str t

theorem Names.refl (s : Snap) : Names s s where
  len := Nat.le_refl _
  old _ c h := ⟨c, h, rfl, rfl⟩
  new i c h h' := by
    have := lt_of_get h'
    omega

theorem Names.conc {s g : Snap} (h : Names s g) {i : Nat} {t : CCT} (hc : Conc g i t) : Conc s i t := by
  obtain ⟨k, hk, hs⟩ := hc
  by_cases hi : i < s.concepts.length
  · obtain ⟨c', h1, h2, _⟩ := h.old i _ (List.getElem?_eq_getElem hi)
    rw [hk] at h1
    cases h1
    exact ⟨_, List.getElem?_eq_getElem hi, h2.symm.trans hs⟩
  · rcases h.new i k (by omega) hk with ⟨l, e⟩ | ⟨t, e⟩ | ⟨x, f, b, j, cj, t, e, _⟩ <;> rw [hs] at e <;> cases e

theorem Names.push {s g : Snap} (h : Names s g) {u : Nat} {c : Con}
    (hc : (∃ l, c.spec = .abst (.leaf l) none) ∨ (∃ t, c.spec = .str t)) :
    Names s (g.pushNew u g.concepts c) := by
  obtain ⟨h1, h2, h3⟩ := h
  refine ⟨?_, ?_, ?_⟩
  · rw [pushNew_concepts, List.length_append]; omega
  · intro i k hk
    obtain ⟨c', e, r⟩ := h2 i k hk
    refine ⟨c', ?_, r⟩
    rw [pushNew_concepts, List.getElem?_append_left (lt_of_get e)]
    exact e
  · intro i k hi hk
    rw [pushNew_concepts] at hk ⊢
    by_cases hl : i < g.concepts.length
    · rw [List.getElem?_append_left hl] at hk
      rcases h3 i k hi hk with h | h | ⟨x, f, b, j, cj, t, e, a1, a2, a3, a4⟩
      · exact .inl h
      · exact .inr (.inl h)
      · exact .inr (.inr ⟨x, f, b, j, cj, t, e, a1, a2, by
          rw [List.getElem?_append_left (lt_of_get a3)]; exact a3, a4⟩)
    · have : i = g.concepts.length := by
        have := lt_of_get hk
        simp at this
        omega
      subst this
      rw [List.getElem?_concat_length] at hk
      cases hk
      rcases hc with h | h
      · exact .inl h
      · exact .inr (.inl h)

theorem lab_get {cs : List Con} {A B X Y Z cl : Con} {b : Nat} (hcl : (cs ++ [A, B])[b]? = some cl)
    {L : List Con} (hL : L = ((cs ++ [A, B]).set b X).set (cs.length + 1) Y ++ [Z]) :
    (∀ (i : Nat) (c0 : Con), cs[i]? = some c0 → L[i]? = some (if i = b then X else c0)) ∧
    L[cs.length]? = some (if b = cs.length then X else A) ∧ L[cs.length + 1]? = some Y ∧
    L[cs.length + 2]? = some Z := by
  have hl := lt_of_get hcl
  subst hL
  refine ⟨fun i c0 h0 => ?_, ?_, ?_, ?_⟩
  · have hi := lt_of_get h0
    rw [List.getElem?_append_left (by simp; omega), List.getElem?_set_ne (by omega), List.getElem?_set]
    split
    · next e => subst e; simp
    · next e => rw [if_neg (fun h => e h.symm), List.getElem?_append_left hi, h0]
  · rw [List.getElem?_append_left (by simp), List.getElem?_set_ne (by omega), List.getElem?_set]
    split
    · simp
    · simp
  · rw [List.getElem?_append_left (by simp), List.getElem?_set_self (by simp)]
  · rw [List.getElem?_append_right (by simp)]
    simp

/-- What the three changes that introduce a word make of the store. -/
theorem labelled_exact {g g1 g2 g3 : Snap} (hr : RefsInv g2)
    {u u1 u2 : Nat} {t : Str} {l : CId}
    (hl : ∀ li, g2.convert l = .ok li → li = builtin .label)
    (s1 : Step g (.unc u, .new (.str t)) g1)
    (s2 : Step g1 (.unc u1, .new (.reducesTo (.unc u))) g2)
    (s3 : Step g2 (.unc u2, .new (.right (.unc u1) l none)) g3) :
    (∀ (i : Nat) (c0 : Con), g.concepts[i]? = some c0 →
      ∃ c : Con, g3.concepts[i]? = some c ∧ c.spec = c0.spec ∧ c.redFrom = c0.redFrom) ∧
    (∃ c : Con, g3.concepts[g.concepts.length]? = some c ∧ c.spec = .str t) ∧
    (∃ (c : Con) (f b : List Nat), g3.concepts[g.concepts.length + 1]? = some c ∧
      c.spec = .abst (.comp (builtin .label) (g.concepts.length + 2) f b) (some g.concepts.length)) ∧
    (∃ c : Con, g3.concepts[g.concepts.length + 2]? = some c ∧ c.spec = .abst (.leaf .constant) none) ∧
    g3.concepts.length = g.concepts.length + 3 ∧ g3.convert (.unc u2) = .ok (g.concepts.length + 2) := by
  cases s1 with
  | str =>
  generalize hg1 : ({ g.pushNew u g.concepts (Concept.mk' g.concepts.length (.str t)) with
        stringMap := g.stringMap.insert t g.concepts.length } : Snap) = g1 at s2
  have c1 : g1.concepts = g.concepts ++ [Concept.mk' g.concepts.length (.str t)] := by rw [← hg1]; rfl
  have p1 : g1.convert (.unc u) = .ok g.concepts.length := by
    rw [← hg1]; simp [Snap.convert, Snap.pushNew, AMap.get?_insert]
  cases s2 with
  | reducesTo u r ri cr hri hcr =>
  rw [p1] at hri
  cases hri
  have e1 : g1.concepts[g.concepts.length]? = some (Concept.mk' g.concepts.length (.str t)) := by
    rw [c1, List.getElem?_concat_length]
  rw [e1] at hcr
  cases hcr
  have l1 : g1.concepts.length = g.concepts.length + 1 := by rw [c1]; simp
  generalize hg2 : (g1.pushNew u1 (g1.concepts.set g.concepts.length
      ((Concept.mk' g.concepts.length (.str t)).addFrom g1.concepts.length))
      (Concept.mk' g1.concepts.length (.abst (.leaf .constant)
        (some (Concept.mk' g.concepts.length (Specific.str t)).id)))) = g2 at s3 hl hr
  have c2 : g2.concepts = g.concepts ++ [(Concept.mk' g.concepts.length (.str t)).addFrom (g.concepts.length + 1),
      Concept.mk' (g.concepts.length + 1) (.abst (.leaf .constant) (some g.concepts.length))] := by
    rw [← hg2, pushNew_concepts, c1]
    simp [Concept.mk']
  have p2 : g2.convert (.unc u1) = .ok (g.concepts.length + 1) := by
    rw [← hg2]; simp [Snap.convert, Snap.pushNew, AMap.get?_insert, l1]
  have l2 : g2.concepts.length = g.concepts.length + 2 := by rw [c2]; simp
  have a1 : g2.concepts[g.concepts.length + 1]? = some (Concept.mk' (g.concepts.length + 1)
      (.abst (.leaf .constant) (some g.concepts.length))) := by
    rw [c2]; simp
  have a0 : g2.concepts[g.concepts.length]? = some ((Concept.mk' g.concepts.length (.str t)).addFrom
      (g.concepts.length + 1)) := by
    rw [c2]; simp
  cases s3 with
  | right u comp l t' li k cl ck red f b hli hk hne hcl hck hs hlo hv =>
  rw [p2] at hk
  cases hk
  obtain rfl := hl li hli
  rw [a1] at hck
  cases hck
  cases hs
  have hid := hr.valid.ids _ _ hcl
  generalize hg3 : Snap.registerConcrete _ _ none = g3
  have c3 : g3.concepts =
      ((g2.concepts.set (builtin .label) (cl.addLeft g2.concepts.length (g.concepts.length + 1))).set
      (g.concepts.length + 1) ((Concept.mk' (g.concepts.length + 1) (.abst (.leaf .constant)
        (some g.concepts.length))).withSpec (.abst (.comp (builtin .label) (g.concepts.length + 2) f b)
        (some g.concepts.length)))) ++
      [⟨g.concepts.length + 2, [], [(builtin .label, g.concepts.length + 1)], [], .abst (.leaf .constant) none⟩] := by
    rw [← hg3, register_concepts, pushNew_concepts, hid, l2]
    rfl
  rw [c2] at hcl
  rw [l2, c2] at c3
  obtain ⟨q0, q1, q2, q3⟩ := lab_get hcl c3
  have same : ∀ i (c0 : Con), (g.concepts ++ [(Concept.mk' g.concepts.length (Specific.str t)).addFrom
      (g.concepts.length + 1), Concept.mk' (g.concepts.length + 1) (.abst (.leaf .constant)
        (some g.concepts.length))])[i]? = some c0 → i = builtin .label → cl = c0 := by
    intro i c0 h e
    rw [e, hcl] at h
    cases h
    rfl
  have old : ∀ (i : Nat) (c0 : Con), g.concepts[i]? = some c0 →
      ∃ c : Con, g3.concepts[i]? = some c ∧ c.spec = c0.spec ∧ c.redFrom = c0.redFrom := by
    intro i c0 h0
    refine ⟨_, q0 i c0 h0, ?_⟩
    split
    · next e =>
      have := same i c0 (by rw [List.getElem?_append_left (lt_of_get h0)]; exact h0) e
      subst this
      exact ⟨rfl, rfl⟩
    · exact ⟨rfl, rfl⟩
  have gs : ∃ c : Con, g3.concepts[g.concepts.length]? = some c ∧ c.spec = .str t := by
    refine ⟨_, q1, ?_⟩
    split
    · next e =>
      have := same g.concepts.length _ (by simp; rfl) e.symm
      subst this
      rfl
    · rfl
  have g1' : ∃ c : Con, g3.concepts[g.concepts.length + 1]? = some c ∧
      c.spec = .abst (.comp (builtin .label) (g.concepts.length + 2) f b) (some g.concepts.length) :=
    ⟨_, q2, rfl⟩
  have g2' : ∃ c : Con, g3.concepts[g.concepts.length + 2]? = some c ∧
      c.spec = .abst (.leaf .constant) none := ⟨_, q3, rfl⟩
  have p3 : g3.convert (.unc u2) = .ok (g.concepts.length + 2) := by
    rw [← hg3]; simp [Snap.convert, Snap.registerConcrete, Snap.pushNew, AMap.get?_insert, l2]
  have l3 : g3.concepts.length = g.concepts.length + 3 := by
    rw [c3]
    simp
  exact ⟨old, gs, ⟨_, f, b, q2, rfl⟩, g2', l3, p3⟩

theorem Names.labelled {s g g1 g2 g3 : Snap} (h : Names s g) (hr : RefsInv g2)
    {u u1 u2 : Nat} {t : Str} {l : CId}
    (hl : ∀ li, g2.convert l = .ok li → li = builtin .label)
    (s1 : Step g (.unc u, .new (.str t)) g1)
    (s2 : Step g1 (.unc u1, .new (.reducesTo (.unc u))) g2)
    (s3 : Step g2 (.unc u2, .new (.right (.unc u1) l none)) g3) : Names s g3 := by
  obtain ⟨h1, h2, h3⟩ := h
  obtain ⟨old, gs, g1', g2', l3, _⟩ := labelled_exact hr hl s1 s2 s3
  refine ⟨by omega, ?_, ?_⟩
  · intro i c hc
    obtain ⟨c', e1, e2, e3⟩ := h2 i c hc
    obtain ⟨c'', e4, e5, e6⟩ := old i c' e1
    exact ⟨c'', e4, e5.trans e2, e6.trans e3⟩
  · intro i c hi hc
    have hlt := lt_of_get hc
    by_cases h0 : i < g.concepts.length
    · obtain ⟨c', e1, e2, e3⟩ := old i _ (List.getElem?_eq_getElem h0)
      rw [hc] at e1
      cases e1
      rw [e2]
      rcases h3 i _ hi (List.getElem?_eq_getElem h0) with h | h | ⟨x, f, b, j, cj, t, e, a1, a2, a3, a4⟩
      · exact .inl h
      · exact .inr (.inl h)
      · obtain ⟨cj', q1, q2, q3⟩ := old j cj a3
        exact .inr (.inr ⟨x, f, b, j, cj', t, e, a1, a2, q1, q2.trans a4⟩)
    · have : i = g.concepts.length ∨ i = g.concepts.length + 1 ∨ i = g.concepts.length + 2 := by omega
      obtain ⟨cs, gs1, gs2⟩ := gs
      rcases this with rfl | rfl | rfl
      · rw [hc] at gs1
        cases gs1
        exact .inr (.inl ⟨t, gs2⟩)
      · obtain ⟨c', f, b, q1, q2⟩ := g1'
        rw [hc] at q1
        cases q1
        exact .inr (.inr ⟨_, f, b, _, cs, t, q2, by omega, by omega, gs1, gs2⟩)
      · obtain ⟨c', q1, q2⟩ := g2'
        rw [hc] at q1
        cases q1
        exact .inl ⟨_, q2⟩

theorem Names.only {s g : Snap} (h : Names s g) : OnlyNames s g := by
  have both : ∀ i, i < s.concepts.length → ∃ c c' : Con, s.concepts[i]? = some c ∧ g.concepts[i]? = some c' ∧
      c'.spec = c.spec ∧ c'.redFrom = c.redFrom := fun i hi => by
    obtain ⟨c', h1, h2, h3⟩ := h.old i _ (List.getElem?_eq_getElem hi)
    exact ⟨_, c', List.getElem?_eq_getElem hi, h1, h2, h3⟩
  refine ⟨h.len, ?_, ?_, ?_, ?_, ?_, ?_, ?_, ?_⟩
  · intro i j hi
    obtain ⟨c, c', h1, h2, h3, h4⟩ := both i hi
    simp only [ReducesTo, h1, h2, Option.some.injEq, exists_eq_left', Concept.reduction, h3]
  · intro i l r hi
    obtain ⟨c, c', h1, h2, h3, h4⟩ := both i hi
    simp only [ComposedOf, h1, h2, Option.some.injEq, exists_eq_left', Concept.composition, h3]
  · intro i t hi
    obtain ⟨c, c', h1, h2, h3, h4⟩ := both i hi
    simp only [IsString, h1, h2, Option.some.injEq, exists_eq_left', Concept.string, h3]
  · intro i t hi
    obtain ⟨c, c', h1, h2, h3, h4⟩ := both i hi
    simp only [IsBuiltIn, h1, h2, Option.some.injEq, exists_eq_left', Concept.cct, h3]
  · intro i j hi
    obtain ⟨c, c', h1, h2, h3, h4⟩ := both i hi
    simp only [ListsReduced, h1, h2, Option.some.injEq, exists_eq_left', h4]
  · rintro i j hi ⟨c, hc, hr⟩
    rcases h.new i c hi hc with ⟨l, e⟩ | ⟨t, e⟩ | ⟨x, f, b, j', cj, t, e, a1, a2, a3, a4⟩
    · simp [Concept.reduction, e] at hr
    · simp [Concept.reduction, e] at hr
    · simp only [Concept.reduction, e, Option.some.injEq] at hr
      subst hr
      exact ⟨a2, ⟨t, cj, a3, by simp [Concept.string, a4]⟩, x, c, hc, by simp [Concept.composition, e]⟩
  · rintro i l r hi ⟨c, hc, hr⟩
    rcases h.new i c hi hc with ⟨_, e⟩ | ⟨t, e⟩ | ⟨x, f, b, j', cj, t, e, a1, a2, a3, a4⟩
    · simp [Concept.composition, e] at hr
    · simp [Concept.composition, e] at hr
    · simp only [Concept.composition, e, Option.some.injEq, Prod.mk.injEq] at hr
      obtain ⟨rfl, rfl⟩ := hr
      exact ⟨rfl, a1⟩
  · rintro i t hi ⟨c, hc, hr⟩
    rcases h.new i c hi hc with ⟨_, e⟩ | ⟨t, e⟩ | ⟨x, f, b, j', cj, t, e, a1, a2, a3, a4⟩ <;>
      simp [Concept.cct, e] at hr

/-- Introductions only add names. -/
theorem trace_names {s : Snap} (hn : Nameable s) (hp : s.prev = []) {d : Nested}
    (ht : Trace s Nested.default d) (hi : ∀ p ∈ d.order, Introduces p) :
    ∃ o, d = .base o ∧ ∀ g, s.applyAll d.order = .ok g → Sim s o g ∧ Names s g := by
  have emit : ∀ d g d' g' dd, Sim s d g → Names s g → Emit ⟨s, .base d⟩ dd →
      Introduces (dd.subject d.num, dd) →
      Replay d d' g g' dd → Sim s d' g' → Names s g' := by
    intro d g d' g' dd sim hP he hq re _
    have st := applyOne_step re.applied
    cases he with
    | str t =>
      cases st
      have := hP.push (u := d.num) (c := Concept.mk' g.concepts.length (.str t)) (.inr ⟨t, rfl⟩)
      exact ⟨this.len, this.old, this.new⟩
    | freeVariable => cases st; exact hP.push (.inl ⟨_, rfl⟩)
    | boundVariable => cases st; exact hP.push (.inl ⟨_, rfl⟩)
    | composition l r m hm hh => exact hq.elim
    | unreduce c r m hm hh => exact hq.elim
    | reduce n c r m nf hnf hc hm hh => cases nf <;> exact hq.elim
    | compose n c l r m mc d hl hr hcl hcr hm hmc hh =>
      unfold composeDelta at hh
      split at hh <;> cases hh <;> exact hq.elim
    | remove c => exact hq.elim
  obtain ⟨o, rfl, hst, hr⟩ := Trace.replay hn.refs hp (Q := fun _ p => Introduces p)
    (P := fun _ g => Names s g) (Names.refl s) emit (by
      intro _ d g d1 g1 d2 g2 d3 g3 t l sim hP hl _ _ _ r1 s1 r2 s2 r3 _
      refine hP.labelled s2.refs ?_ (applyOne_step r1.applied) (applyOne_step r2.applied)
        (applyOne_step r3.applied)
      intro li hli
      have : ∃ i, Live s g l i ∧ i = builtin .label := by
        simp only [View.concreteId, Except.bind_eq_ok] at hl
        obtain ⟨r, hr, hl⟩ := hl
        cases r with
        | some r =>
          cases hl
          obtain ⟨i, h1, h2⟩ := sim.concreteLoop_is hr (fun _ e => by cases e)
          exact ⟨i, h1, (hn.concrete i).1 (hP.conc h2)⟩
        | none =>
          simp only [Except.pure_eq_ok, hn.table, Option.map_some, Option.some.injEq] at hl
          subst hl
          obtain ⟨k, hk, _⟩ := (hn.concrete _).2 rfl
          exact ⟨_, ⟨rfl, lt_of_get hk⟩, rfl⟩
      obtain ⟨i, h1, rfl⟩ := this
      obtain ⟨k, hk, _⟩ := (hn.concrete _).2 rfl
      have := lt_of_get hk
      cases l with
      | com m =>
        cases hli
        exact h1.1
      | unc u =>
        have := sim.range _ _ h1
        omega) ht (fun g p rest before e _ => hi p (by rw [e]; simp))
  exact ⟨o, rfl, hr⟩

theorem introduces_names {s s' : Snap} (hn : Nameable s) (hp : s.prev = []) {d : Nested}
    (ht : Trace s Nested.default d) (hi : ∀ p ∈ d.order, Introduces p) (ha : s.apply d = .ok s') :
    OnlyNames s s' := by
  obtain ⟨o, rfl, hr⟩ := trace_names hn hp ht hi
  obtain ⟨g, g', h1, h2, e⟩ := apply_base ha
  have := (hr g h1).2
  rw [e, applyStrings_only h2]
  exact Names.only ⟨this.len, this.old, this.new⟩

end Zia

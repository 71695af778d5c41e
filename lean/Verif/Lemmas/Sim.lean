import Verif.Lemmas.Links
import Verif.Lemmas.Pending

/-!
# Pending reads agree with committed reads

A change set is replayed on the store after every change; what is read through the pending changes is
compared with what the replayed store holds.
-/

namespace Zia

/-- The stored concept that reading starts from. -/
def stored (s : Snap) : CId → Option Mixed
  | .com n => (s.concepts[n]?).map Mixed.ofCon
  | .unc _ => none

theorem getConcept_eq (v : View) (a : CId) : v.getConcept a = stored v.snap a := by
  cases a <;> rfl

/-- What a concept is, apart from the links kept by others: reduction, composition, string, type. -/
structure Core where
  red : Option CId
  comp : Option (CId × CId)
  str : Option Str
  cct : Option CCT

/-- The core of what is read. -/
def Mixed.core (m : Mixed) : Core := ⟨m.reduction, m.composition, m.string, m.cct⟩

/-- Neither a string nor a built-in. -/
def Core.Abs (k : Core) : Prop := k.str = none ∧ k.cct = none

/-- Effect of a recorded change on the core. -/
def Core.eff (k : Core) : CDelta → Core
  | .direct (.reduce _ (.create r)) => { k with red := some r }
  | .direct (.reduce _ (.update _ r)) => { k with red := some r }
  | .direct (.reduce _ (.remove _)) => { k with red := none }
  | .indirect (.composedOf p) => { k with comp := some (p.left, p.right) }
  | _ => k

theorem Core.eff_abs {k : Core} {e : CDelta} : (k.eff e).Abs ↔ k.Abs := by
  unfold Core.eff Core.Abs
  split <;> rfl

theorem readStep_core {a : CId} {m : Mixed} {o : Option Mixed} {e : CDelta}
    (h : View.readStep a (some m) e = .ok o) (hr : ∀ x, e ≠ .direct (.remove x))
    (habs : ∀ u ch, e = .direct (.reduce u ch) → m.core.Abs) :
    ∃ m', o = some m' ∧ m'.core = m.core.eff e := by
  cases e with
  | direct dd =>
    cases dd with
    | new nd => simp [View.readStep] at h
    | compose c ch => simp [View.readStep] at h
    | remove x => exact (hr x rfl).elim
    | reduce u ch =>
      have habs := habs u ch rfl
      simp only [View.readStep, orPanic] at h
      split at h
      · simp only [Except.bind_eq_ok, Except.pure_eq_ok] at h
        obtain ⟨m0, e0, m', h1, rfl⟩ := h
        cases e0
        refine ⟨m', rfl, ?_⟩
        cases m with
        | prev c l r f u' red =>
          cases ch <;> (cases h1; rfl)
        | unc c =>
          simp only [Mixed.changeReduction, Except.bind_eq_ok, Except.pure_eq_ok] at h1
          obtain ⟨c', h1, rfl⟩ := h1
          obtain ⟨hs, ht⟩ := habs
          cases hsp : c.spec with
          | concrete t => simp [Mixed.core, Mixed.cct, Concept.cct, hsp] at ht
          | str t => simp [Mixed.core, Mixed.string, Concept.string, hsp] at hs
          | abst mc old =>
            simp only [Concept.changeReduction, hsp] at h1
            cases ch with
            | create x =>
              cases h1
              simp [Mixed.core, Core.eff, Mixed.reduction, Mixed.composition, Mixed.string,
                Mixed.cct, Concept.reduction, Concept.composition, Concept.string, Concept.cct, hsp]
              cases mc <;> rfl
            | update y x =>
              cases h1
              simp [Mixed.core, Core.eff, Mixed.reduction, Mixed.composition, Mixed.string,
                Mixed.cct, Concept.reduction, Concept.composition, Concept.string, Concept.cct, hsp]
              cases mc <;> rfl
            | remove x =>
              simp only at h1
              split at h1
              · cases h1
                simp [Mixed.core, Core.eff, Mixed.reduction, Mixed.composition, Mixed.string,
                  Mixed.cct, Concept.reduction, Concept.composition, Concept.string, Concept.cct, hsp]
                cases mc <;> rfl
              · cases h1
      · cases h
  | indirect i =>
    simp only [View.readStep, orPanic, Except.bind_eq_ok, Except.pure_eq_ok] at h
    obtain ⟨m0, e0, m', h1, rfl⟩ := h
    cases e0
    refine ⟨m', rfl, ?_⟩
    cases m with
    | prev c l r f u' red => cases i <;> (cases h1; rfl)
    | unc c =>
      simp only [Mixed.applyIndirect, Except.bind_eq_ok, Except.pure_eq_ok] at h1
      obtain ⟨c', h1, rfl⟩ := h1
      cases i with
      | composedOf p =>
        cases hsp : c.spec with
        | concrete t => simp [Concept.applyIndirect, hsp] at h1
        | str t => simp [Concept.applyIndirect, hsp] at h1
        | abst mc red =>
          simp only [Concept.applyIndirect, hsp] at h1
          cases h1
          simp [Mixed.core, Core.eff, Mixed.reduction, Mixed.composition, Mixed.string,
            Mixed.cct, Concept.reduction, Concept.composition, Concept.string, Concept.cct, hsp]
      | lefthandOf x y =>
        simp only [Concept.applyIndirect, Except.bind_eq_ok, Except.pure_eq_ok] at h1
        obtain ⟨_, _, rfl⟩ := h1; rfl
      | righthandOf x y =>
        simp only [Concept.applyIndirect, Except.bind_eq_ok, Except.pure_eq_ok] at h1
        obtain ⟨_, _, rfl⟩ := h1; rfl
      | noLongerLefthandOf x => cases h1; rfl
      | noLongerRighthandOf x => cases h1; rfl
      | reducesFrom x => cases h1; rfl
      | noLongerReducesFrom x => cases h1; rfl

theorem readSteps_core {a : CId} {L : List CDelta} {m : Mixed} {o : Option Mixed}
    (h : View.readSteps a (some m) L = .ok o) (hr : ∀ x, .direct (.remove x) ∉ L)
    (habs : ∀ u ch, .direct (.reduce u ch) ∈ L → m.core.Abs) :
    ∃ m', o = some m' ∧ m'.core = L.foldl Core.eff m.core := by
  induction L generalizing m with
  | nil => cases h; exact ⟨m, rfl, rfl⟩
  | cons e L ih =>
    simp only [View.readSteps, Except.bind_eq_ok] at h
    obtain ⟨o1, h1, h2⟩ := h
    obtain ⟨m1, rfl, e1⟩ := readStep_core h1 (fun x hx => hr x (by simp [hx]))
      (fun u ch hc => habs u ch (by simp [hc]))
    obtain ⟨m', rfl, e2⟩ := ih h2 (fun x hx => hr x (by simp [hx])) (fun u ch hc => by
      rw [e1, Core.eff_abs]; exact habs u ch (by simp [hc]))
    exact ⟨m', rfl, by rw [e2, e1]; rfl⟩

/-- Without a creation nothing appears from nothing. -/
theorem readSteps_none {a : CId} {L : List CDelta} {m : Mixed}
    (h : View.readSteps a none L = .ok (some m)) : ∃ nd, .direct (.new nd) ∈ L := by
  cases L with
  | nil => cases h
  | cons e L =>
    simp only [View.readSteps, Except.bind_eq_ok] at h
    obtain ⟨o, h1, _⟩ := h
    cases e with
    | indirect i => simp [View.readStep, orPanic] at h1; cases h1
    | direct dd =>
      cases dd with
      | new nd => exact ⟨nd, by simp⟩
      | compose c ch => simp [View.readStep] at h1
      | remove x => simp [View.readStep] at h1
      | reduce u ch =>
        simp only [View.readStep, orPanic] at h1
        split at h1 <;> cases h1

/-- A pending change of composition cannot be read. -/
theorem readSteps_compose {a : CId} {L : List CDelta} {o m : Option Mixed}
    (h : View.readSteps a o L = .ok m) : ∀ c ch, .direct (.compose c ch) ∉ L := by
  induction L generalizing o with
  | nil => simp
  | cons e L ih =>
    simp only [View.readSteps, Except.bind_eq_ok] at h
    obtain ⟨o1, h1, h2⟩ := h
    intro c ch hm
    rcases List.mem_cons.1 hm with rfl | hm
    · simp [View.readStep] at h1
    · exact ih h2 c ch hm

/-! ## The committed side -/

/-- The own part of the concept stored at a position. -/
def specs (s : Snap) (i : Nat) : Option (Specific Nat) := (look s.concepts i).map (·.spec)

/-- An id and the position it stands for, when the changes started from `s`. -/
def Live (s g : Snap) : CId → Nat → Prop
  | .com n, i => n = i ∧ n < s.concepts.length
  | .unc u, i => g.prev.get? u = some i

/-- An id stands for a position. -/
def Conv (g : Snap) (a : CId) (i : Nat) : Prop := g.convert a = .ok i

theorem Live.conv {s g : Snap} {a : CId} {i : Nat} (h : Live s g a i) : Conv g a i := by
  cases a with
  | com n => obtain ⟨rfl, _⟩ := h; rfl
  | unc u => simp only [Live] at h; simp [Conv, Snap.convert, h]

theorem Conv.unique {g : Snap} {a : CId} {i j : Nat} (h : Conv g a i) (h' : Conv g a j) : i = j := by
  unfold Conv at h h'; rw [h] at h'; cases h'; rfl

/-- A core describes a stored own part. -/
structure Agree (g : Snap) (k : Core) (sp : Specific Nat) : Prop where
  red : Option.Rel (Conv g) k.red (redOf sp)
  comp : Option.Rel (fun p q => Conv g p.1 q.1 ∧ Conv g p.2 q.2) k.comp (pairOf sp)
  str : k.str = match sp with | .str t => some t | _ => none
  cct : k.cct = match sp with | .concrete t => some t | _ => none

theorem Option.Rel.mono {α β : Type} {r r' : α → β → Prop} (h : ∀ a b, r a b → r' a b)
    {x : Option α} {y : Option β} (hr : Option.Rel r x y) : Option.Rel r' x y := by
  cases hr with
  | some h' => exact .some (h _ _ h')
  | none => exact .none

theorem Agree.mono {g g' : Snap} {k : Core} {sp : Specific Nat} (h : Agree g k sp)
    (hg : ∀ a i, Conv g a i → Conv g' a i) : Agree g' k sp :=
  ⟨Option.Rel.mono hg h.red, Option.Rel.mono (fun _ _ h => ⟨hg _ _ h.1, hg _ _ h.2⟩) h.comp,
    h.str, h.cct⟩

theorem Agree.setRed {g : Snap} {k : Core} {mc : MComp Nat} {old : Option Nat}
    (h : Agree g k (.abst mc old)) {r : Option CId} {ri : Option Nat}
    (hr : Option.Rel (Conv g) r ri) : Agree g { k with red := r } (.abst mc ri) :=
  ⟨hr, by have := h.comp; cases mc <;> exact this, h.str, h.cct⟩

theorem Agree.setComp {g : Snap} {k : Core} {mc : MComp Nat} {red : Option Nat}
    (h : Agree g k (.abst mc red)) {l r : CId} {li ri : Nat} {f b : List Nat}
    (hl : Conv g l li) (hr : Conv g r ri) :
    Agree g { k with comp := some (l, r) } (.abst (.comp li ri f b) red) :=
  ⟨h.red, .some ⟨hl, hr⟩, h.str, h.cct⟩

theorem Agree.abs {g : Snap} {k : Core} {mc : MComp Nat} {red : Option Nat}
    (h : Agree g k (.abst mc red)) : k.Abs := ⟨h.str, h.cct⟩

theorem ofCon_agree {g : Snap} {c : Con} : Agree g (Mixed.ofCon c).core c.spec := by
  refine ⟨?_, ?_, ?_, ?_⟩
  · show Option.Rel _ (c.reduction.map CId.com) _
    rw [reduction_eq]
    cases redOf c.spec with
    | none => exact .none
    | some r => exact .some rfl
  · show Option.Rel _ (c.composition.map _) _
    rw [composition_eq]
    cases pairOf c.spec with
    | none => exact .none
    | some p => exact .some ⟨rfl, rfl⟩
  · show c.string = _
    cases h : c.spec <;> simp [Concept.string, h]
  · show c.cct = _
    cases h : c.spec <;> simp [Concept.cct, h]

/-- The changes so far, and the store they would give. -/
structure Sim (s : Snap) (d : Delta) (g : Snap) : Prop where
  refs : RefsInv g
  base : s.concepts.length ≤ g.concepts.length
  dom : ∀ u, u < d.num ↔ ∃ i, g.prev.get? u = some i
  range : ∀ u i, g.prev.get? u = some i → s.concepts.length ≤ i
  inj : ∀ u u' i, g.prev.get? u = some i → g.prev.get? u' = some i → u = u'
  noRemove : ∀ a x, .direct (.remove x) ∉ d.entries a
  core : ∀ a m, View.readSteps a (stored s a) (d.entries a) = .ok (some m) →
    ∃ i sp, Live s g a i ∧ specs g i = some sp ∧ Agree g m.core sp

theorem Sim.start {s : Snap} (h : RefsInv s) (hp : s.prev = []) : Sim s (Delta.empty 0) s := by
  refine ⟨h, Nat.le_refl _, ?_, ?_, ?_, ?_, ?_⟩
  · simp [hp, Delta.empty]
  · simp [hp]
  · simp [hp]
  · simp [Delta.entries, Delta.empty]
  · intro a m hm
    have hm : stored s a = some m := by
      simp only [Delta.entries, Delta.empty, AMap.get?_nil, Option.getD_none, View.readSteps] at hm
      cases hm' : stored s a with
      | none => rw [hm'] at hm; cases hm
      | some x => rw [hm'] at hm; cases hm; rfl
    cases a with
    | unc u => cases hm
    | com n =>
      simp only [stored, Option.map_eq_some_iff] at hm
      obtain ⟨c, hc, rfl⟩ := hm
      exact ⟨n, c.spec, ⟨rfl, lt_of_get hc⟩, by simp [specs, look, hc], ofCon_agree⟩

theorem Sim.live_inj {s g : Snap} {d : Delta} (h : Sim s d g) {a b : CId} {i : Nat}
    (ha : Live s g a i) (hb : Live s g b i) : a = b := by
  cases a with
  | com n =>
    obtain ⟨rfl, hn⟩ := ha
    cases b with
    | com m => obtain ⟨rfl, _⟩ := hb; rfl
    | unc u => have := h.range _ _ hb; omega
  | unc u =>
    cases b with
    | com m =>
      obtain ⟨rfl, hn⟩ := hb
      have := h.range _ _ ha; omega
    | unc u' => rw [h.inj _ _ _ ha hb]

/-- The concepts whose own part a change alters exist before the changes, or were made by them. -/
def Direct.Sound (s : Snap) : Direct CId → Prop
  | .compose c _ => ∀ n, c = .com n → n < s.concepts.length
  | .reduce c _ => ∀ n, c = .com n → n < s.concepts.length
  | .new (.left c _ _) => ∀ n, c = .com n → n < s.concepts.length
  | .new (.right c _ _) => ∀ n, c = .com n → n < s.concepts.length
  | .new (.double c _) => ∀ n, c = .com n → n < s.concepts.length
  | _ => True

theorem live_of_conv {s g : Snap} {a : CId} {i : Nat} (h : g.convert a = .ok i)
    (hs : ∀ n, a = .com n → n < s.concepts.length) : Live s g a i := by
  cases a with
  | com n => cases h; exact ⟨rfl, hs _ rfl⟩
  | unc u =>
    simp only [Snap.convert] at h
    cases hp : g.prev.get? u with
    | none => rw [hp] at h; cases h
    | some x => rw [hp] at h; cases h; exact hp

/-- Own parts after one more change. -/
def updS (f : Nat → Option (Specific Nat)) (i : Nat) (sp : Specific Nat) (j : Nat) :
    Option (Specific Nat) := if j = i then some sp else f j

theorem specs_of_look {s : Snap} {f : Look} (h : look s.concepts = f) :
    specs s = fun i => (f i).map (·.spec) := by subst h; rfl

theorem map_upd (f : Look) (i : Nat) (c : Con) :
    (fun j => (upd f i c j).map (·.spec)) = updS (fun j => (f j).map (·.spec)) i c.spec := by
  funext j; simp only [upd, updS]; split <;> rfl

theorem map_upd_same {f : Look} {i : Nat} {a c : Con} (h : f i = some a) (hs : c.spec = a.spec) :
    (fun j => (upd f i c j).map (·.spec)) = (fun j => (f j).map (·.spec)) := by
  funext j; simp only [upd]; split
  · next e => subst e; simp [h, hs]
  · rfl


theorem map_addLeft {f : Look} {i x y : Nat} {c : Con} (h : f i = some c) :
    (fun j => (upd f i (c.addLeft x y) j).map (·.spec)) = (fun j => (f j).map (·.spec)) :=
  map_upd_same h rfl

theorem map_addRight {f : Look} {i x y : Nat} {c : Con} (h : f i = some c) :
    (fun j => (upd f i (c.addRight x y) j).map (·.spec)) = (fun j => (f j).map (·.spec)) :=
  map_upd_same h rfl

theorem map_dropLeft {f : Look} {i x : Nat} {c : Con} (h : f i = some c) :
    (fun j => (upd f i (c.dropLeft x) j).map (·.spec)) = (fun j => (f j).map (·.spec)) :=
  map_upd_same h rfl

theorem map_dropRight {f : Look} {i x : Nat} {c : Con} (h : f i = some c) :
    (fun j => (upd f i (c.dropRight x) j).map (·.spec)) = (fun j => (f j).map (·.spec)) :=
  map_upd_same h rfl

theorem map_addFrom {f : Look} {i x : Nat} {c : Con} (h : f i = some c) :
    (fun j => (upd f i (c.addFrom x) j).map (·.spec)) = (fun j => (f j).map (·.spec)) :=
  map_upd_same h rfl

theorem map_dropFrom {f : Look} {i x : Nat} {c : Con} (h : f i = some c) :
    (fun j => (upd f i (c.dropFrom x) j).map (·.spec)) = (fun j => (f j).map (·.spec)) :=
  map_upd_same h rfl

/-- The invariant after one more change, given what happens to own parts. -/
theorem Sim.next {s g g' : Snap} {d d' : Delta} {dd : Direct CId} (h : Sim s d g)
    (hu : Updated d d' dd) (refs : RefsInv g') (hlen : g.concepts.length ≤ g'.concepts.length)
    (hnr : ∀ a x, .direct (.remove x) ∉ about a (recorded (dd.subject d.num) dd))
    (hprev : (dd.uses = 0 ∧ g'.prev = g.prev) ∨
      (dd.uses = 1 ∧ g'.prev = g.prev.insert d.num g.concepts.length))
    (hnew : ∀ nd, dd = .new nd → ∃ sp, specs g' g.concepts.length = some sp ∧
      about (.unc d.num) (recorded (.unc d.num) dd) = [.direct (.new nd)] ∧
      Agree g' (Mixed.unc (Concept.ofNew (.unc d.num) nd)).core sp)
    (hold : ∀ a i k sp, (∀ nd, dd = .new nd → a ≠ .unc d.num) →
      (∀ c ch, .direct (.compose c ch) ∉ about a (recorded (dd.subject d.num) dd)) → Live s g a i →
      specs g i = some sp → Agree g k sp →
      (∀ u ch, .direct (.reduce u ch) ∈ about a (recorded (dd.subject d.num) dd) → k.Abs) ∧
      ∃ sp', specs g' i = some sp' ∧
        ((∀ a i, Conv g a i → Conv g' a i) →
          Agree g' ((about a (recorded (dd.subject d.num) dd)).foldl Core.eff k) sp')) :
    Sim s d' g' := by
  have hfr : g.prev.get? d.num = none := by
    cases hq : g.prev.get? d.num with
    | none => rfl
    | some i => have := (h.dom d.num).2 ⟨i, hq⟩; omega
  have hget : ∀ u i, g.prev.get? u = some i → g'.prev.get? u = some i := by
    intro u i hi
    rcases hprev with ⟨_, e⟩ | ⟨_, e⟩
    · rw [e]; exact hi
    · rw [e, AMap.get?_insert]
      split
      · next e' => subst e'; rw [hfr] at hi; cases hi
      · exact hi
  have hget' : ∀ u i, g'.prev.get? u = some i → g.prev.get? u = some i ∨
      (dd.uses = 1 ∧ u = d.num ∧ i = g.concepts.length) := by
    intro u i hi
    rcases hprev with ⟨_, e⟩ | ⟨e1, e⟩
    · rw [e] at hi; exact .inl hi
    · rw [e, AMap.get?_insert] at hi
      split at hi
      · next e' => cases hi; exact .inr ⟨e1, e'.symm, rfl⟩
      · exact .inl hi
  have hconv : ∀ a i, Conv g a i → Conv g' a i := by
    intro a i ha
    cases a with
    | com n => exact ha
    | unc u =>
      simp only [Conv, Snap.convert] at ha ⊢
      cases hq : g.prev.get? u with
      | none => rw [hq] at ha; cases ha
      | some x => rw [hq] at ha; cases ha; rw [hget _ _ hq]
  have hlive : ∀ a i, Live s g a i → Live s g' a i := by
    intro a i ha
    cases a with
    | com n => exact ha
    | unc u => exact hget _ _ ha
  refine ⟨refs, Nat.le_trans h.base hlen, ?_, ?_, ?_, ?_, ?_⟩
  · intro u
    constructor
    · intro hlt
      rw [hu.num] at hlt
      by_cases hlt' : u < d.num
      · obtain ⟨i, hi⟩ := (h.dom u).1 hlt'
        exact ⟨i, hget _ _ hi⟩
      · rcases hprev with ⟨e, _⟩ | ⟨e1, e⟩
        · omega
        · have : u = d.num := by omega
          subst this
          exact ⟨_, by rw [e, AMap.get?_insert, if_pos rfl]⟩
    · rintro ⟨i, hi⟩
      rw [hu.num]
      rcases hget' _ _ hi with h1 | ⟨e1, e2, _⟩
      · have := (h.dom u).2 ⟨i, h1⟩; omega
      · omega
  · intro u i hi
    rcases hget' _ _ hi with h1 | ⟨_, _, rfl⟩
    · exact h.range _ _ h1
    · exact h.base
  · intro u u' i hi hi'
    rcases hget' _ _ hi with h1 | ⟨_, e, rfl⟩ <;> rcases hget' _ _ hi' with h2 | ⟨_, e', e3⟩
    · exact h.inj _ _ _ h1 h2
    · have := h.refs.prev _ _ h1; omega
    · have := h.refs.prev _ _ h2; omega
    · omega
  · intro a x hx
    rw [hu.entries, List.mem_append] at hx
    rcases hx with hx | hx
    · exact h.noRemove _ _ hx
    · exact hnr _ _ hx
  · intro a m hm
    rw [hu.entries, readSteps_append, Except.bind_eq_ok] at hm
    obtain ⟨o, h1, h2⟩ := hm
    by_cases hself : ∃ nd, dd = .new nd ∧ a = .unc d.num
    · obtain ⟨nd, rfl, rfl⟩ := hself
      obtain ⟨sp, e1, e2, e3⟩ := hnew nd rfl
      have he : d.entries (.unc d.num) = [] := by
        rcases hu.fresh nd rfl with e | ⟨x, e⟩
        · exact e
        · exact (h.noRemove _ _ e).elim
      rw [he] at h1
      cases h1
      simp only [Direct.subject] at h2
      rw [e2] at h2
      simp only [View.readSteps, View.readStep, stored] at h2
      cases h2
      refine ⟨g.concepts.length, sp, ?_, e1, e3⟩
      rcases hprev with ⟨e, _⟩ | ⟨_, e⟩
      · cases e
      · show g'.prev.get? _ = _
        rw [e, AMap.get?_insert, if_pos rfl]
    · have hne : ∀ nd, dd = .new nd → a ≠ .unc d.num := fun nd e e' => hself ⟨nd, e, e'⟩
      cases o with
      | none =>
        obtain ⟨nd, hnd⟩ := readSteps_none h2
        exfalso
        have : ∀ (dd : Direct CId), (∀ nd, dd = .new nd → a ≠ .unc d.num) →
            .direct (.new nd) ∈ about a (recorded (dd.subject d.num) dd) → False := by
          intro dd hne hnd
          unfold about at hnd
          rw [List.mem_filterMap] at hnd
          obtain ⟨⟨b, e⟩, hp, hp'⟩ := hnd
          dsimp only at hp'
          split at hp'
          · next hpa =>
            subst hpa
            obtain rfl := Option.some.inj hp'
            cases dd with
            | new nd' =>
              have := hne nd' rfl
              cases nd' <;> simp [recorded, Direct.subject] at hp <;> exact this hp.1
            | compose c ch => cases ch <;> simp [recorded] at hp
            | reduce c ch => cases ch <;> simp [recorded] at hp
            | remove x => simp [recorded] at hp
          · cases hp'
        exact this dd hne hnd
      | some m0 =>
        obtain ⟨i, sp, hl, hsp, hag⟩ := h.core a m0 h1
        obtain ⟨habs, sp', hsp', hag'⟩ := hold a i _ sp hne (fun c ch => readSteps_compose h2 c ch) hl hsp hag
        obtain ⟨m', e, hc⟩ := readSteps_core h2 (hnr a) habs
        cases e
        exact ⟨i, sp', hlive _ _ hl, hsp', by rw [hc]; exact hag' hconv⟩


theorem specs_lt {g : Snap} {i : Nat} {sp : Specific Nat} (h : specs g i = some sp) :
    i < g.concepts.length := by
  simp only [specs, look, Option.map_eq_some_iff] at h
  obtain ⟨c, hc, _⟩ := h
  exact lt_of_get hc

theorem specs_of {g : Snap} {i : Nat} {c : Con} (h : look g.concepts i = some c) :
    specs g i = some c.spec := by simp [specs, h]

theorem convert_ne {s g : Snap} {d : Delta} (h : Sim s d g) {a : CId} {i : Nat}
    (ha : g.convert a = .ok i) : a ≠ .unc d.num := by
  rintro rfl
  simp only [Snap.convert] at ha
  cases hq : g.prev.get? d.num with
  | none => rw [hq] at ha; cases ha
  | some x => have := (h.dom d.num).2 ⟨x, hq⟩; omega

theorem mem_about {a : CId} {e : CDelta} {L : List (CId × CDelta)} :
    e ∈ about a L ↔ (a, e) ∈ L := by
  unfold about
  rw [List.mem_filterMap]
  constructor
  · rintro ⟨⟨b, e'⟩, hm, hp⟩
    dsimp only at hp
    split at hp
    · next h => subst h; obtain rfl := Option.some.inj hp; exact hm
    · cases hp
  · intro h
    exact ⟨_, h, by simp⟩

theorem recorded_remove {a x id : CId} {dd : Direct CId}
    (h : .direct (.remove x) ∈ about a (recorded id dd)) : dd = .remove x := by
  rw [mem_about] at h
  cases dd with
  | new nd => cases nd <;> simp [recorded] at h
  | compose c ch => cases ch <;> simp [recorded] at h
  | reduce c ch => cases ch <;> simp [recorded] at h
  | remove y => simp [recorded] at h; rw [h.2]

theorem recorded_reduce {a u id : CId} {ch : VChange CId} {dd : Direct CId}
    (h : .direct (.reduce u ch) ∈ about a (recorded id dd)) : dd = .reduce u ch ∧ a = u := by
  rw [mem_about] at h
  cases dd with
  | new nd => cases nd <;> simp [recorded] at h
  | compose c ch => cases ch <;> simp [recorded] at h
  | reduce c ch => cases ch <;> simp [recorded] at h <;> grind
  | remove y => simp [recorded] at h

theorem Sim.step {s g g' : Snap} {d d' : Delta} {dd : Direct CId} (h : Sim s d g)
    (hu : Updated d d' dd) (hsd : dd.Sound s)
    (ha : g.applyOne (dd.subject d.num, dd) = .ok g') : Sim s d' g' := by
  have st := applyOne_step ha
  have refs := st.refsInv h.refs
  have st := st.lstep h.refs
  have hnr : ∀ a x, .direct (.remove x) ∉ about a (recorded (dd.subject d.num) dd) := by
    intro a x hx
    rw [recorded_remove hx] at ha
    cases ha
  generalize hp : (dd.subject d.num, dd) = p at st
  have live_lt : ∀ {i sp}, specs g i = some sp → i ≠ g.concepts.length := fun h e => by
    have := specs_lt h; omega
  have noRed : ∀ {a k}, (∀ u ch, dd ≠ .reduce u ch) →
      ∀ u ch, .direct (.reduce u ch) ∈ about a (recorded (dd.subject d.num) dd) → Core.Abs k :=
    fun hn u ch hm => (hn _ _ (recorded_reduce hm).1).elim
  have cv : ∀ {a i}, g'.prev = g.prev.insert d.num g.concepts.length → g.convert a = .ok i →
      Conv g' a i := by
    intro a i hpr ha
    have hn := convert_ne h ha
    cases a with
    | com n => exact ha
    | unc x =>
      simp only [Conv, Snap.convert, hpr, AMap.get?_insert] at ha ⊢
      rw [if_neg (by rintro rfl; exact hn rfl)]
      exact ha
  have cvNew : g'.prev = g.prev.insert d.num g.concepts.length →
      Conv g' (.unc d.num) g.concepts.length := by
    intro hpr
    simp [Conv, Snap.convert, hpr, AMap.get?_insert]
  cases st with
  | freeVariable u he hpr hlen =>
    obtain ⟨e, rfl⟩ := Prod.mk.inj hp
    cases e
    have E := specs_of_look he
    rw [map_upd] at E
    refine h.next hu refs (by omega) hnr (.inr ⟨rfl, hpr⟩) ?_ ?_
    · rintro nd e
      cases e
      exact ⟨_, by rw [E]; simp [updS]; rfl, by simp [recorded, about_cons],
        ⟨.none, .none, rfl, rfl⟩⟩
    · intro a i k sp hne hnc hl hsp hag
      have hne := hne _ rfl
      refine ⟨noRed (by simp), sp, ?_, fun hc => ?_⟩
      · rw [E]; simp only [updS, if_neg (live_lt hsp)]; exact hsp
      · simp only [recorded, about_cons, Direct.subject, if_neg hne.symm, about_nil]
        exact hag.mono hc
  | boundVariable u he hpr hlen =>
    obtain ⟨e, rfl⟩ := Prod.mk.inj hp
    cases e
    have E := specs_of_look he
    rw [map_upd] at E
    refine h.next hu refs (by omega) hnr (.inr ⟨rfl, hpr⟩) ?_ ?_
    · rintro nd e
      cases e
      exact ⟨_, by rw [E]; simp [updS]; rfl, by simp [recorded, about_cons],
        ⟨.none, .none, rfl, rfl⟩⟩
    · intro a i k sp hne hnc hl hsp hag
      have hne := hne _ rfl
      refine ⟨noRed (by simp), sp, ?_, fun hc => ?_⟩
      · rw [E]; simp only [updS, if_neg (live_lt hsp)]; exact hsp
      · simp only [recorded, about_cons, Direct.subject, if_neg hne.symm, about_nil]
        exact hag.mono hc
  | str u t he hpr hlen =>
    obtain ⟨e, rfl⟩ := Prod.mk.inj hp
    cases e
    have E := specs_of_look he
    rw [map_upd] at E
    refine h.next hu refs (by omega) hnr (.inr ⟨rfl, hpr⟩) ?_ ?_
    · rintro nd e
      cases e
      exact ⟨_, by rw [E]; simp [updS]; rfl, by simp [recorded, about_cons],
        ⟨.none, .none, rfl, rfl⟩⟩
    · intro a i k sp hne hnc hl hsp hag
      have hne := hne _ rfl
      refine ⟨noRed (by simp), sp, ?_, fun hc => ?_⟩
      · rw [E]; simp only [updS, if_neg (live_lt hsp)]; exact hsp
      · simp only [recorded, about_cons, Direct.subject, if_neg hne.symm, about_nil]
        exact hag.mono hc
  | composition u p l r cl cr hl hr hne' hcl hcr hlo hro f b he hpr hlen =>
    obtain ⟨e, rfl⟩ := Prod.mk.inj hp
    cases e
    have E := specs_of_look he
    rw [map_upd, map_addRight (upd_ne hcr hne'), map_addLeft hcl] at E
    refine h.next hu refs (by omega) hnr (.inr ⟨rfl, hpr⟩) ?_ ?_
    · rintro nd e
      cases e
      have nl := convert_ne h hl
      have nr := convert_ne h hr
      exact ⟨.abst (.comp l r f b) none, by rw [E]; simp [updS]; rfl,
        by simp [recorded, about_cons, nl, nr], ⟨.none, .some ⟨cv hpr hl, cv hpr hr⟩, rfl, rfl⟩⟩
    · intro a i k sp hne hnc hl hsp hag
      have hne := hne _ rfl
      refine ⟨noRed (by simp), sp, ?_, fun hc => ?_⟩
      · rw [E]; simp only [updS, if_neg (live_lt hsp)]; exact hsp
      · simp only [recorded, about_cons, Direct.subject, if_neg hne.symm, about_nil]
        split <;> split <;> exact hag.mono hc
  | left u comp r t ri k cr ck red f b hr hk hne' hcr hck hs hro he hpr hlen =>
    obtain ⟨e, rfl⟩ := Prod.mk.inj hp
    cases e
    have E := specs_of_look he
    rw [map_upd, map_upd, map_addRight hcr] at E
    have lk := live_of_conv hk hsd
    refine h.next hu refs (by omega) hnr (.inr ⟨rfl, hpr⟩) ?_ ?_
    · rintro nd e
      cases e
      have nl := convert_ne h hr
      have nr := convert_ne h hk
      exact ⟨_, by rw [E]; simp [updS]; rfl, by simp [recorded, about_cons, nl, nr],
        by cases t <;> exact ⟨.none, .none, rfl, rfl⟩⟩
    · intro a i k' sp hne hnc hl hsp hag
      have hne := hne _ rfl
      refine ⟨noRed (by simp), ?_⟩
      simp only [recorded, about_cons, Direct.subject, if_neg hne.symm, about_nil]
      by_cases hac : comp = a
      · subst hac
        have := hl.conv.unique lk.conv
        subst this
        rw [specs_of hck, hs] at hsp
        cases hsp
        refine ⟨.abst (.comp g.concepts.length ri f b) red, ?_, fun hc => ?_⟩
        · rw [E]; simp only [updS, if_neg (live_lt (specs_of hck))]; rfl
        · simp only [if_true]
          have := (hag.mono hc).setComp (f := f) (b := b) (cvNew hpr) (cv hpr hr)
          split <;> exact this
      · have hik : i ≠ k := by
          rintro rfl
          exact hac (h.live_inj lk hl)
        refine ⟨sp, ?_, fun hc => ?_⟩
        · rw [E]; simp only [updS, if_neg (live_lt hsp), if_neg hik]; exact hsp
        · simp only [if_neg hac]
          split <;> exact hag.mono hc
  | right u comp r t ri k cr ck red f b hr hk hne' hcr hck hs hro he hpr hlen =>
    obtain ⟨e, rfl⟩ := Prod.mk.inj hp
    cases e
    have E := specs_of_look he
    rw [map_upd, map_upd, map_addLeft hcr] at E
    have lk := live_of_conv hk hsd
    refine h.next hu refs (by omega) hnr (.inr ⟨rfl, hpr⟩) ?_ ?_
    · rintro nd e
      cases e
      have nl := convert_ne h hr
      have nr := convert_ne h hk
      exact ⟨_, by rw [E]; simp [updS]; rfl, by simp [recorded, about_cons, nl, nr],
        by cases t <;> exact ⟨.none, .none, rfl, rfl⟩⟩
    · intro a i k' sp hne hnc hl hsp hag
      have hne := hne _ rfl
      refine ⟨noRed (by simp), ?_⟩
      simp only [recorded, about_cons, Direct.subject, if_neg hne.symm, about_nil]
      by_cases hac : comp = a
      · subst hac
        have := hl.conv.unique lk.conv
        subst this
        rw [specs_of hck, hs] at hsp
        cases hsp
        refine ⟨.abst (.comp ri g.concepts.length f b) red, ?_, fun hc => ?_⟩
        · rw [E]; simp only [updS, if_neg (live_lt (specs_of hck))]; rfl
        · simp only [if_true]
          have := (hag.mono hc).setComp (f := f) (b := b) (cv hpr hr) (cvNew hpr)
          split <;> exact this
      · have hik : i ≠ k := by
          rintro rfl
          exact hac (h.live_inj lk hl)
        refine ⟨sp, ?_, fun hc => ?_⟩
        · rw [E]; simp only [updS, if_neg (live_lt hsp), if_neg hik]; exact hsp
        · simp only [if_neg hac]
          split <;> exact hag.mono hc
  | double u comp t k ck mc red hk hck hs he hpr hlen =>
    obtain ⟨e, rfl⟩ := Prod.mk.inj hp
    cases e
    have E := specs_of_look he
    rw [map_upd, map_upd] at E
    have lk := live_of_conv hk hsd
    refine h.next hu refs (by omega) hnr (.inr ⟨rfl, hpr⟩) ?_ ?_
    · rintro nd e
      cases e
      have nr := convert_ne h hk
      exact ⟨_, by rw [E]; simp [updS]; rfl, by simp [recorded, about_cons, nr],
        by cases t <;> exact ⟨.none, .none, rfl, rfl⟩⟩
    · intro a i k' sp hne hnc hl hsp hag
      have hne := hne _ rfl
      refine ⟨noRed (by simp), ?_⟩
      simp only [recorded, about_cons, Direct.subject, if_neg hne.symm, about_nil]
      by_cases hac : comp = a
      · subst hac
        have := hl.conv.unique lk.conv
        subst this
        rw [specs_of hck, hs] at hsp
        cases hsp
        refine ⟨.abst (.comp g.concepts.length g.concepts.length [] []) red, ?_, fun hc => ?_⟩
        · rw [E]; simp only [updS, if_neg (live_lt (specs_of hck))]; rfl
        · simp only [if_true]
          exact (hag.mono hc).setComp (cvNew hpr) (cvNew hpr)
      · have hik : i ≠ k := by
          rintro rfl
          exact hac (h.live_inj lk hl)
        refine ⟨sp, ?_, fun hc => ?_⟩
        · rw [E]; simp only [updS, if_neg (live_lt hsp), if_neg hik]; exact hsp
        · simp only [if_neg hac]
          exact hag.mono hc
  | reducesTo u r ri cr hr hcr he hpr hlen =>
    obtain ⟨e, rfl⟩ := Prod.mk.inj hp
    cases e
    have E := specs_of_look he
    rw [map_upd, map_addFrom hcr] at E
    refine h.next hu refs (by omega) hnr (.inr ⟨rfl, hpr⟩) ?_ ?_
    · rintro nd e
      cases e
      have nr := convert_ne h hr
      exact ⟨.abst (.leaf .constant) (some ri), by rw [E]; simp [updS]; rfl,
        by simp [recorded, about_cons, nr], ⟨.some (cv hpr hr), .none, rfl, rfl⟩⟩
    · intro a i k sp hne hnc hl hsp hag
      have hne := hne _ rfl
      refine ⟨noRed (by simp), sp, ?_, fun hc => ?_⟩
      · rw [E]; simp only [updS, if_neg (live_lt hsp)]; exact hsp
      · simp only [recorded, about_cons, Direct.subject, if_neg hne.symm, about_nil]
        split <;> exact hag.mono hc
  | composeCreate comp p k l r ck cl cr mc red f b hk hl hr hkl hkr hlr hck hcl hcr hs hlo hro he hpr hlen =>
    obtain ⟨e, rfl⟩ := Prod.mk.inj hp
    have E := specs_of_look he
    rw [map_addRight (upd_ne (upd_ne hcr hkr) hlr), map_addLeft (upd_ne hcl hkl), map_upd] at E
    have lk := live_of_conv hk hsd
    refine h.next hu refs (by omega) hnr (.inl ⟨rfl, hpr⟩) (by simp) ?_
    intro a i k' sp hne hnc hl hsp hag
    refine ⟨noRed (by simp), ?_⟩
    by_cases hac : comp = a
    · exact (hnc comp _ (mem_about.2 (by rw [← hac]; exact .head _))).elim
    · have hik : i ≠ k := by
        rintro rfl
        exact hac (h.live_inj lk hl)
      refine ⟨sp, ?_, fun hc => ?_⟩
      · rw [E]; simp only [updS, if_neg hik]; exact hsp
      · simp only [recorded, about_cons, if_neg hac, about_nil]
        split <;> split <;> exact hag.mono hc
  | composeUpdate comp b a' k bl br al ar ck cbl cbr cal car mc red f g1 hk hbl hbr hal har n1 n2 n3 n4 n5
      n6 n7 n8 n9 n10 hck hcbl hcbr hcal hcar hs hlo hro he hpr hlen =>
    obtain ⟨e, rfl⟩ := Prod.mk.inj hp
    have E := specs_of_look he
    rw [map_addRight (upd_ne (upd_ne (upd_ne (upd_ne hcar n4) n7) n9) n10),
      map_addLeft (upd_ne (upd_ne (upd_ne hcal n3) n6) n8), map_dropRight (upd_ne (upd_ne hcbr n2) n5),
      map_dropLeft (upd_ne hcbl n1), map_upd] at E
    have lk := live_of_conv hk hsd
    refine h.next hu refs (by omega) hnr (.inl ⟨rfl, hpr⟩) (by simp) ?_
    intro a i k' sp hne hnc hl hsp hag
    refine ⟨noRed (by simp), ?_⟩
    by_cases hac : comp = a
    · exact (hnc comp _ (mem_about.2 (by rw [← hac]; exact .head _))).elim
    · have hik : i ≠ k := by
        rintro rfl
        exact hac (h.live_inj lk hl)
      refine ⟨sp, ?_, fun hc => ?_⟩
      · rw [E]; simp only [updS, if_neg hik]; exact hsp
      · simp only [recorded, about_cons, if_neg hac, about_nil]
        split <;> split <;> split <;> split <;> exact hag.mono hc
  | composeRemove comp p k l r ck cl cr mc red hk hl hr hkl hkr hlr hck hcl hcr hs he hpr hlen =>
    obtain ⟨e, rfl⟩ := Prod.mk.inj hp
    have E := specs_of_look he
    rw [map_dropRight (upd_ne (upd_ne hcr hkr) hlr), map_dropLeft (upd_ne hcl hkl), map_upd] at E
    have lk := live_of_conv hk hsd
    refine h.next hu refs (by omega) hnr (.inl ⟨rfl, hpr⟩) (by simp) ?_
    intro a i k' sp hne hnc hl hsp hag
    refine ⟨noRed (by simp), ?_⟩
    by_cases hac : comp = a
    · exact (hnc comp _ (mem_about.2 (by rw [← hac]; exact .head _))).elim
    · have hik : i ≠ k := by
        rintro rfl
        exact hac (h.live_inj lk hl)
      refine ⟨sp, ?_, fun hc => ?_⟩
      · rw [E]; simp only [updS, if_neg hik]; exact hsp
      · simp only [recorded, about_cons, if_neg hac, about_nil]
        split <;> split <;> exact hag.mono hc
  | reduceCreate c r k ri ck cr mc red hk hr hne' hck hcr hs he hpr hlen =>
    obtain ⟨e, rfl⟩ := Prod.mk.inj hp
    have E := specs_of_look he
    rw [map_addFrom (upd_ne hcr hne'), map_upd] at E
    have lk := live_of_conv hk hsd
    refine h.next hu refs (by omega) hnr (.inl ⟨rfl, hpr⟩) (by simp) ?_
    intro a i k' sp hne hnc hl hsp hag
    by_cases hac : c = a
    · subst hac
      have := hl.conv.unique lk.conv
      subst this
      rw [specs_of hck, hs] at hsp
      cases hsp
      refine ⟨fun _ _ _ => hag.abs, .abst mc (some ri), ?_, fun hc => ?_⟩
      · rw [E]; simp only [updS, if_true]; rfl
      · simp only [recorded, about_cons, about_nil, if_true]
        have := (hag.mono hc).setRed (r := some r) (ri := (some ri)) (.some (hc _ _ hr))
        split <;> exact this
    · refine ⟨fun u ch hm => (hac (by obtain ⟨e, e'⟩ := recorded_reduce hm; cases e; exact e'.symm)).elim, ?_⟩
      have hik : i ≠ k := by
        rintro rfl
        exact hac (h.live_inj lk hl)
      refine ⟨sp, ?_, fun hc => ?_⟩
      · rw [E]; simp only [updS, if_neg hik]; exact hsp
      · simp only [recorded, about_cons, if_neg hac, about_nil]
        split <;> exact hag.mono hc
  | reduceUpdate c b a' k bi ai ck cb ca mc red hk hb ha' hkb hka hba hck hcb hca hs he hpr hlen =>
    obtain ⟨e, rfl⟩ := Prod.mk.inj hp
    have E := specs_of_look he
    rw [map_addFrom (upd_ne (upd_ne hca hka) hba), map_dropFrom (upd_ne hcb hkb), map_upd] at E
    have lk := live_of_conv hk hsd
    refine h.next hu refs (by omega) hnr (.inl ⟨rfl, hpr⟩) (by simp) ?_
    intro a i k' sp hne hnc hl hsp hag
    by_cases hac : c = a
    · subst hac
      have := hl.conv.unique lk.conv
      subst this
      rw [specs_of hck, hs] at hsp
      cases hsp
      refine ⟨fun _ _ _ => hag.abs, .abst mc (some ai), ?_, fun hc => ?_⟩
      · rw [E]; simp only [updS, if_true]; rfl
      · simp only [recorded, about_cons, about_nil, if_true]
        have := (hag.mono hc).setRed (r := some a') (ri := (some ai)) (.some (hc _ _ ha'))
        split <;> split <;> exact this
    · refine ⟨fun u ch hm => (hac (by obtain ⟨e, e'⟩ := recorded_reduce hm; cases e; exact e'.symm)).elim, ?_⟩
      have hik : i ≠ k := by
        rintro rfl
        exact hac (h.live_inj lk hl)
      refine ⟨sp, ?_, fun hc => ?_⟩
      · rw [E]; simp only [updS, if_neg hik]; exact hsp
      · simp only [recorded, about_cons, if_neg hac, about_nil]
        split <;> split <;> exact hag.mono hc
  | reduceRemove c b k bi ck cb mc red hk hb hne' hck hcb hs he hpr hlen =>
    obtain ⟨e, rfl⟩ := Prod.mk.inj hp
    have E := specs_of_look he
    rw [map_dropFrom (upd_ne hcb hne'), map_upd] at E
    have lk := live_of_conv hk hsd
    refine h.next hu refs (by omega) hnr (.inl ⟨rfl, hpr⟩) (by simp) ?_
    intro a i k' sp hne hnc hl hsp hag
    by_cases hac : c = a
    · subst hac
      have := hl.conv.unique lk.conv
      subst this
      rw [specs_of hck, hs] at hsp
      cases hsp
      refine ⟨fun _ _ _ => hag.abs, .abst mc none, ?_, fun hc => ?_⟩
      · rw [E]; simp only [updS, if_true]; rfl
      · simp only [recorded, about_cons, about_nil, if_true]
        have := (hag.mono hc).setRed (r := none) (ri := none) .none
        split <;> exact this
    · refine ⟨fun u ch hm => (hac (by obtain ⟨e, e'⟩ := recorded_reduce hm; cases e; exact e'.symm)).elim, ?_⟩
      have hik : i ≠ k := by
        rintro rfl
        exact hac (h.live_inj lk hl)
      refine ⟨sp, ?_, fun hc => ?_⟩
      · rw [E]; simp only [updS, if_neg hik]; exact hsp
      · simp only [recorded, about_cons, if_neg hac, about_nil]
        split <;> exact hag.mono hc

end Zia

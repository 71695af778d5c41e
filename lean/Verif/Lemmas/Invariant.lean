import Verif.Lemmas.Reach
import Verif.Lemmas.Comps
import Verif.Lemmas.Reds

/-!
# Invariants of histories
-/

namespace Zia

open Spec Relation

theorem look_eq {s : Snap} {i : Nat} : look s.concepts i = s.concepts[i]? := rfl

theorem reducesTo_iff {s : Snap} {i j : Nat} : ReducesTo s i j ↔ Red (look s.concepts) i j := by
  unfold ReducesTo Red
  simp only [look_eq, reduction_eq]

theorem partOf_iff {s : Snap} {x c : Nat} : PartOf s x c ↔ Part (look s.concepts) x c := by
  unfold PartOf ComposedOf Part
  simp only [look_eq, composition_eq]
  constructor
  · rintro ⟨l, r, ⟨k, h1, h2⟩, h3⟩
    exact ⟨k, l, r, h1, h2, h3⟩
  · rintro ⟨k, l, r, h1, h2, h3⟩
    exact ⟨l, r, ⟨k, h1, h2⟩, h3⟩

/-- Check every stored concept. -/
def everywhere (s : Snap) (P : Nat → Con → Bool) : Bool :=
  (List.range s.concepts.length).all (fun i => match s.concepts[i]? with
    | none => true
    | some c => P i c)

theorem of_everywhere {s : Snap} {P : Nat → Con → Bool} (h : everywhere s P = true) {i : Nat}
    {c : Con} (hc : s.concepts[i]? = some c) : P i c = true := by
  simp only [everywhere, List.all_eq_true, List.mem_range] at h
  have := h i (List.getElem?_eq_some_iff.1 hc).1
  rw [hc] at this
  exact this

/-- Check one stored concept. -/
def thereIs (s : Snap) (i : Nat) (P : Con → Bool) : Bool :=
  match s.concepts[i]? with
  | none => false
  | some c => P c

theorem of_thereIs {s : Snap} {i : Nat} {P : Con → Bool} (h : thereIs s i P = true) :
    ∃ c, s.concepts[i]? = some c ∧ P c = true := by
  unfold thereIs at h
  split at h
  · cases h
  · next c hc => exact ⟨c, hc, h⟩

def redFwdCheck (s : Snap) : Bool := everywhere s (fun i c => match redOf c.spec with
  | none => true
  | some r => thereIs s r (fun k => k.redFrom.contains i))

theorem redFwd_of_check {s : Snap} (h : redFwdCheck s = true) : RedFwd s.concepts := by
  intro i c r hc hr
  have := of_everywhere h hc
  rw [hr] at this
  obtain ⟨k, hk, h⟩ := of_thereIs this
  exact ⟨k, hk, by simpa using h⟩

def redRevCheck (s : Snap) : Bool := everywhere s (fun j c =>
  c.redFrom.all (fun i => thereIs s i (fun k => redOf k.spec == some j)))

theorem redRev_of_check {s : Snap} (h : redRevCheck s = true) : RedRev (look s.concepts) := by
  intro j c i hc hi
  have := of_everywhere h hc
  rw [List.all_eq_true] at this
  obtain ⟨k, hk, h⟩ := of_thereIs (this i hi)
  exact ⟨k, hk, by simpa using h⟩

def compFwdCheck (s : Snap) : Bool := everywhere s (fun i c => match pairOf c.spec with
  | none => true
  | some (l, r) => thereIs s l (fun k => k.leftOf.get? r == some i) &&
    thereIs s r (fun k => k.rightOf.get? l == some i))

theorem compFwd_of_check {s : Snap} (h : compFwdCheck s = true) : CompFwd (look s.concepts) := by
  intro i c l r hc hr
  have := of_everywhere h hc
  rw [hr] at this
  simp only [Bool.and_eq_true] at this
  obtain ⟨h1, h2⟩ := this
  obtain ⟨k, hk, h1⟩ := of_thereIs h1
  obtain ⟨k', hk', h2⟩ := of_thereIs h2
  exact ⟨⟨k, hk, by simpa using h1⟩, k', hk', by simpa using h2⟩

def compRevCheck (s : Snap) : Bool := everywhere s (fun x k =>
  k.leftOf.all (fun p => thereIs s p.2 (fun c => pairOf c.spec == some (x, p.1))) &&
  k.rightOf.all (fun p => thereIs s p.2 (fun c => pairOf c.spec == some (p.1, x))))

theorem compRev_of_check {s : Snap} (h : compRevCheck s = true) : CompRev (look s.concepts) := by
  intro x k y i hk
  have := of_everywhere h hk
  simp only [Bool.and_eq_true, List.all_eq_true] at this
  obtain ⟨h1, h2⟩ := this
  constructor
  · intro hi
    obtain ⟨c, hc, h⟩ := of_thereIs (h1 _ (AMap.mem_of_get? _ _ _ hi))
    exact ⟨c, hc, by simpa using h⟩
  · intro hi
    obtain ⟨c, hc, h⟩ := of_thereIs (h2 _ (AMap.mem_of_get? _ _ _ hi))
    exact ⟨c, hc, by simpa using h⟩

/-- No concept that is a part has parts. -/
def shallow (s : Snap) : Bool := everywhere s (fun _ c => match pairOf c.spec with
  | none => true
  | some (l, r) => thereIs s l (fun k => (pairOf k.spec).isNone) &&
    thereIs s r (fun k => (pairOf k.spec).isNone))

theorem acyclic_of_shallow {s : Snap} (h : shallow s = true) :
    ∀ c, ¬ TransGen (Part (look s.concepts)) c c := by
  have key : ∀ x y z, Part (look s.concepts) x y → ¬ Part (look s.concepts) y z := by
    rintro x y z ⟨k, l, r, h1, h2, _⟩ ⟨k', l', r', h1', h2', h3⟩
    have := of_everywhere h h1'
    rw [h2'] at this
    simp only [Bool.and_eq_true] at this
    obtain ⟨a, b⟩ := this
    obtain ⟨ka, ha, ha'⟩ := of_thereIs a
    obtain ⟨kb, hb, hb'⟩ := of_thereIs b
    rcases h3 with rfl | rfl
    · rw [look_eq, ha] at h1; cases h1; rw [h2] at ha'; cases ha'
    · rw [look_eq, hb] at h1; cases h1; rw [h2] at hb'; cases hb'
  intro c hc
  cases TransGen.head'_iff.1 hc with
  | intro b hb =>
    cases TransGen.tail'_iff.1 hc with
    | intro a ha => exact key a c b ha.2 hb.1

/-- No concept that something reduces to has a reduction. -/
def flat (s : Snap) : Bool := everywhere s (fun _ c => match redOf c.spec with
  | none => true
  | some r => thereIs s r (fun k => (redOf k.spec).isNone))

theorem acyclic_of_flat {s : Snap} (h : flat s = true) :
    ∀ c, ¬ TransGen (Red (look s.concepts)) c c := by
  have key : ∀ x y z, Red (look s.concepts) x y → ¬ Red (look s.concepts) y z := by
    rintro x y z ⟨k, h1, h2⟩ ⟨k', h1', h2'⟩
    have := of_everywhere h h1
    rw [h2] at this
    obtain ⟨ka, ha, ha'⟩ := of_thereIs this
    rw [look_eq, ha] at h1'; cases h1'; rw [h2'] at ha'; cases ha'
  intro c hc
  cases TransGen.head'_iff.1 hc with
  | intro b hb =>
    cases TransGen.tail'_iff.1 hc with
    | intro a ha => exact key a c b ha.2 hb.1

theorem History.redFwd {Q : Snap → CId × Direct CId → Prop} {c : Ctx} (h : History Q c) :
    RedFwd c.snap.concepts := by
  refine History.invariant (R := fun s => RedFwd s.concepts) ?_ ?_ (fun _ _ _ h => h) h
  · exact redFwd_of_check (by decide +kernel)
  · intro g g' p hi h _ st
    exact st.redFwd (fun i c hc => hi.valid.ids i c hc) h

/-- What the checks of a command give for its change, in the store with the earlier changes. -/
theorem Emit.unreduced {s g : Snap} {d : Delta} {dd : Direct CId} (sim : Sim s d g)
    (he : Emit ⟨s, .base d⟩ dd) (hq : ReducesFresh g (dd.subject d.num, dd)) : Unreduced g dd := by
  have fresh : ∀ c, NoReduction g c → ∀ k ck, g.convert c = .ok k → look g.concepts k = some ck →
      redOf ck.spec = none := by
    intro c h k ck hk hck
    rw [← reduction_eq]
    exact h k ck hk hck
  cases he with
  | str t => trivial
  | freeVariable => trivial
  | boundVariable => trivial
  | composition l r m hm hh => trivial
  | unreduce c r m hm hh =>
    intro k ck bi hk hb hck
    obtain ⟨i, hl⟩ := sim.live hm
    cases hl.conv.unique hk
    obtain ⟨k', hk', hrel⟩ := sim.red hm hl
    rw [hck] at hk'; cases hk'
    rw [hh] at hrel
    cases hq : redOf ck.spec with
    | none => rw [hq] at hrel; cases hrel
    | some j =>
      rw [hq] at hrel
      cases hrel with
      | some hrel => cases hrel.unique hb; rfl
  | reduce n c r m nf hnf hc hm hh =>
    cases nf with
    | none => exact fresh c hq
    | some b => exact fresh c hq
  | compose n c l r m mc d hl hr hcl hcr hm hmc hh =>
    unfold composeDelta at hh
    split at hh <;> cases hh <;> trivial
  | remove c => trivial

theorem History.redRev {c : Ctx} (h : History ReducesFresh c) : RedRev (look c.snap.concepts) := by
  refine History.induct (R := fun s => RedRev (look s.concepts)) (fun _ _ g => RedRev (look g.concepts))
    (redRev_of_check (by decide +kernel)) (fun _ _ _ h => h) ?_ ?_ ?_ h
  · intro s d g d' g' dd _ _ _ sim hP he hq re _
    exact ((applyOne_step re.applied).lstep sim.refs).redRev hP (he.unreduced sim hq)
  · intro _ s d g d1 g1 d2 g2 d3 g3 t l _ _ _ sim hP _ _ _ _ r1 s1 r2 s2 r3 _
    have h1 := LStep.redRev hP (by trivial) ((applyOne_step r1.applied).lstep sim.refs)
    have h2 := LStep.redRev h1 (by trivial) ((applyOne_step r2.applied).lstep s1.refs)
    exact LStep.redRev h2 (by trivial) ((applyOne_step r3.applied).lstep s2.refs)
  · intro s d g g' _ _ _ _ _ hP hst
    rw [applyStrings_only hst]
    exact hP

/-- A position that no concept mentions. -/
theorem not_red_fresh {s : Snap} (hr : RefsInv s) {i : Nat} :
    ¬ Red (look s.concepts) i s.concepts.length := by
  rintro ⟨k, hk, h⟩
  have := hr.valid.concepts i k hk s.concepts.length (by
    rw [mem_refs]
    left
    cases hs : k.spec with
    | abst mc red => rw [hs] at h; simp only [redOf] at h; subst h; rw [mem_specRefs_abst]; simp
    | concrete t => rw [hs] at h; cases h
    | str t => rw [hs] at h; cases h)
  omega

theorem not_part_fresh {s : Snap} (hr : RefsInv s) {i : Nat} :
    ¬ Part (look s.concepts) s.concepts.length i := by
  rintro ⟨k, l, r, hk, h, hx⟩
  have := hr.valid.concepts i k hk s.concepts.length (by
    rw [mem_refs]
    left
    cases hs : k.spec with
    | abst mc red =>
      rw [hs] at h
      cases mc with
      | leaf l => cases h
      | comp l' r' f b =>
        cases h
        rw [mem_specRefs_abst]
        simp only [compRefs, List.mem_cons]
        tauto
    | concrete t => rw [hs] at h; cases h
    | str t => rw [hs] at h; cases h)
  omega

theorem not_red_from_fresh {s : Snap} {j : Nat} : ¬ Red (look s.concepts) s.concepts.length j := by
  rintro ⟨k, hk, _⟩
  rw [look_length] at hk
  cases hk

theorem not_part_of_fresh {s : Snap} {j : Nat} : ¬ Part (look s.concepts) j s.concepts.length := by
  rintro ⟨k, _, _, hk, _⟩
  rw [look_length] at hk
  cases hk

/-- Starting where no edge starts. -/
theorem only_refl {α : Type} {R : α → α → Prop} {a b : α} (h : ∀ x, ¬ R a x)
    (hab : ReflTransGen R a b) : a = b := by
  rcases ReflTransGen.cases_head hab with e | ⟨x, hx, _⟩
  · exact e
  · exact (h x hx).elim

/-- Ending where no edge ends. -/
theorem only_refl' {α : Type} {R : α → α → Prop} {a b : α} (h : ∀ x, ¬ R x b)
    (hab : ReflTransGen R a b) : a = b := by
  rcases ReflTransGen.cases_tail hab with e | ⟨x, _, hx⟩
  · exact e.symm
  · exact (h x hx).elim


theorem normalForm_read {v : View} {n : Nat} {r : CId} {nf : Option CId}
    (h : v.normalForm n r = .ok nf) : ∃ m, v.read r = .ok m := by
  cases n with
  | zero => cases h
  | succ n =>
    simp only [View.normalForm, Except.bind_eq_ok] at h
    obtain ⟨m, hm, _⟩ := h
    exact ⟨m, hm⟩

/-- A change that gives no reduction closes no cycle of reductions. -/
theorem LStep.redAcyclic {s s' : Snap} {p : CId × Direct CId} (st : LStep s s' p)
    (h : ∀ c, ¬ TransGen (Red (look s.concepts)) c c) (hn : ∀ i j, ¬ newRed s p.2 i j) :
    ∀ c, ¬ TransGen (Red (look s'.concepts)) c c :=
  acyclic_sub h (fun x y hxy => (st.red hxy).resolve_right (hn x y))

/-- The new reduction of a concept without one closes no cycle. -/
theorem redAcyclic_reduce {s g g' : Snap} {d : Delta} (sim : Sim s d g) {n : Nat} {c r : CId}
    {m : Mixed} {nf : Option CId} {p : CId × Direct CId}
    (h : ∀ c, ¬ TransGen (Red (look g.concepts)) c c)
    (hnf : (View.mk s (.base d)).normalForm n r = .ok nf) (hc : nf ≠ some c)
    (hm : (View.mk s (.base d)).read c = .ok m) (hq : NoReduction g c)
    (st : LStep g g' p) (hne : ∀ i j, newRed g p.2 i j → i ≠ j)
    (hnew : ∀ i j, newRed g p.2 i j → g.convert c = .ok i ∧ g.convert r = .ok j) :
    ∀ c, ¬ TransGen (Red (look g'.concepts)) c c := by
  obtain ⟨mr, hmr⟩ := normalForm_read hnf
  obtain ⟨ri, lr⟩ := sim.live hmr
  obtain ⟨ci, lc⟩ := sim.live hm
  refine acyclic_add (k := ri) (S := fun x => x = ci ∧ ci ≠ ri) h ?_ ?_
  · intro x y hxy
    rcases st.red hxy with h | h
    · exact .inl h
    · obtain ⟨h1, h2⟩ := hnew _ _ h
      cases lc.conv.unique h1
      cases lr.conv.unique h2
      exact .inr ⟨rfl, rfl, hne _ _ h⟩
  · rintro x ⟨rfl, hxr⟩ ht
    have irr : ∀ j, ¬ Red (look g.concepts) x j := by
      rintro j ⟨k, hk, hj⟩
      have := hq x k lc.conv hk
      rw [reduction_eq, hj] at this
      cases this
    rcases sim.normalForm hnf lr ht irr with e | ⟨a, e, la⟩
    · exact hxr e.symm
    · rw [sim.live_inj la lc] at e
      exact hc e

theorem LStep.reduce_ne {s s' : Snap} {c : CId} {ch : VChange CId} {a : CId}
    (st : LStep s s' (a, .reduce c ch)) {i j : Nat} (h : newRed s (.reduce c ch) i j) : i ≠ j := by
  cases st <;> simp only [newRed] at h <;> grind

/-- The reductions of a history whose commands give reductions to concepts without one. -/
theorem History.redAcyclic {c : Ctx} (h : History ReducesFresh c) :
    ∀ i, ¬ TransGen (Red (look c.snap.concepts)) i i := by
  refine History.induct (R := fun s => ∀ i, ¬ TransGen (Red (look s.concepts)) i i)
    (fun _ _ g => ∀ i, ¬ TransGen (Red (look g.concepts)) i i)
    (acyclic_of_flat (by decide +kernel)) (fun _ _ _ h => h) ?_ ?_ ?_ h
  · intro s d g d' g' dd _ _ _ sim hP he hq re _
    have st := (applyOne_step re.applied).lstep sim.refs
    cases he with
    | str t => exact st.redAcyclic hP (fun _ _ h => h)
    | freeVariable => exact st.redAcyclic hP (fun _ _ h => h)
    | boundVariable => exact st.redAcyclic hP (fun _ _ h => h)
    | composition l r m hm hh => exact st.redAcyclic hP (fun _ _ h => h)
    | unreduce c r m hm hh => exact st.redAcyclic hP (fun _ _ h => h)
    | reduce n c r m nf hnf hc hm hh =>
      refine redAcyclic_reduce sim hP hnf hc hm ?_ st (fun i j h => ?_) ?_
      · cases nf <;> exact hq
      · cases nf <;> exact st.reduce_ne h
      · cases nf <;> exact fun i j h => h
    | compose n c l r m mc d hl hr hcl hcr hm hmc hh =>
      unfold composeDelta at hh
      split at hh <;> cases hh <;> exact st.redAcyclic hP (fun _ _ h => h)
    | remove c => exact st.redAcyclic hP (fun _ _ h => h)
  · intro _ s d g d1 g1 d2 g2 d3 g3 t l _ _ _ sim hP _ _ _ _ r1 s1 r2 s2 r3 _
    have h1 := ((applyOne_step r1.applied).lstep sim.refs).redAcyclic hP (fun _ _ h => h)
    have st2 := (applyOne_step r2.applied).lstep s1.refs
    refine ((applyOne_step r3.applied).lstep s2.refs).redAcyclic ?_ (fun _ _ h => h)
    cases st2 with
    | reducesTo u r ri cr hr hcr he hp hlen =>
      refine acyclic_add (k := ri) (S := fun x => x = g1.concepts.length) h1 ?_ ?_
      · intro x y hxy
        rcases ((applyOne_step r2.applied).lstep s1.refs).red hxy with h | ⟨e, h⟩
        · exact .inl h
        · rw [hr] at h; cases h
          exact .inr ⟨rfl, e⟩
      · rintro x rfl ht
        have := only_refl' (fun x => not_red_fresh s1.refs) ht
        subst this
        rw [look_length] at hcr
        cases hcr
  · intro s d g g' _ _ _ _ _ hP hst
    rw [applyStrings_only hst]
    exact hP

/-- A change that gives no parts closes no cycle of parts. -/
theorem LStep.partAcyclic {s s' : Snap} {p : CId × Direct CId} (st : LStep s s' p)
    (h : ∀ c, ¬ TransGen (Part (look s.concepts)) c c) (hn : ∀ i j, ¬ newPart s p.2 i j) :
    ∀ c, ¬ TransGen (Part (look s'.concepts)) c c :=
  acyclic_sub h (fun x y hxy => (st.part hxy).resolve_right (hn x y))

theorem LStep.compose_ne {s s' : Snap} {c : CId} {ch : VChange (CompPair CId)} {a : CId}
    (st : LStep s s' (a, .compose c ch)) {i j : Nat} (h : newPart s (.compose c ch) i j) : i ≠ j := by
  cases st <;> simp only [newPart] at h <;> grind

/-- New parts that do not contain the concept close no cycle. -/
theorem partAcyclic_compose {s g g' : Snap} {d : Delta} (sim : Sim s d g) {n : Nat} {c l r : CId}
    {m : Mixed} {p : CId × Direct CId} (h : ∀ c, ¬ TransGen (Part (look g.concepts)) c c)
    (hl : (View.mk s (.base d)).contains n l c = .ok false)
    (hr : (View.mk s (.base d)).contains n r c = .ok false)
    (hm : (View.mk s (.base d)).read c = .ok m)
    (st : LStep g g' p) (hne : ∀ i j, newPart g p.2 i j → i ≠ j)
    (hnew : ∀ x y, newPart g p.2 x y → g.convert c = .ok y ∧
      (g.convert l = .ok x ∨ g.convert r = .ok x)) :
    ∀ c, ¬ TransGen (Part (look g'.concepts)) c c := by
  obtain ⟨ml, hml⟩ := contains_read hl
  obtain ⟨mr, hmr⟩ := contains_read hr
  obtain ⟨li, ll⟩ := sim.live hml
  obtain ⟨ri, lr⟩ := sim.live hmr
  obtain ⟨ci, lc⟩ := sim.live hm
  refine acyclic_add (k := ci) (S := fun x => (x = li ∨ x = ri) ∧ x ≠ ci) h ?_ ?_
  · intro x y hxy
    rcases st.part hxy with h | h
    · exact .inl h
    · obtain ⟨h1, h2⟩ := hnew _ _ h
      cases lc.conv.unique h1
      refine .inr ⟨rfl, ?_, hne _ _ h⟩
      rcases h2 with h2 | h2
      · exact .inl (ll.conv.unique h2).symm
      · exact .inr (lr.conv.unique h2).symm
  · rintro x ⟨hx, hxc⟩ ht
    have ht : TransGen (Part (look g.concepts)) ci x := by
      rcases reflTransGen_iff_eq_or_transGen.1 ht with e | ht
      · exact (hxc e).elim
      · exact ht
    rcases hx with rfl | rfl
    · exact sim.contains_false hl ll lc ht
    · exact sim.contains_false hr lr lc ht

/-- No history makes a concept one of its own parts. -/
theorem History.partAcyclic {Q : Snap → CId × Direct CId → Prop} {c : Ctx} (h : History Q c) :
    ∀ i, ¬ TransGen (Part (look c.snap.concepts)) i i := by
  refine History.induct (R := fun s => ∀ i, ¬ TransGen (Part (look s.concepts)) i i)
    (fun _ _ g => ∀ i, ¬ TransGen (Part (look g.concepts)) i i)
    (acyclic_of_shallow (by decide +kernel)) (fun _ _ _ h => h) ?_ ?_ ?_ h
  · intro s d g d' g' dd hs _ _ sim hP he hq re _
    have st := (applyOne_step re.applied).lstep sim.refs
    cases he with
    | str t => exact st.partAcyclic hP (fun _ _ h => h)
    | freeVariable => exact st.partAcyclic hP (fun _ _ h => h)
    | boundVariable => exact st.partAcyclic hP (fun _ _ h => h)
    | composition l r m hm hh =>
      have hlt : ∀ x, g.convert l = .ok x ∨ g.convert r = .ok x → x ≠ g.concepts.length := by
        cases st with
        | composition u p li ri cl cr hli hri hne hcl hcr hlo hro f b he hp hlen =>
          have h1 := lt_of_get hcl
          have h2 := lt_of_get hcr
          rintro x (hx | hx)
          · rw [hli] at hx; cases hx; omega
          · rw [hri] at hx; cases hx; omega
      refine acyclic_add (k := g.concepts.length) (S := fun x => x ≠ g.concepts.length) hP ?_ ?_
      · intro x y hxy
        rcases st.part hxy with h | ⟨e, h⟩
        · exact .inl h
        · exact .inr ⟨e, hlt x h⟩
      · intro x hx ht
        exact hx (only_refl (fun x => not_part_fresh sim.refs) ht).symm
    | unreduce c r m hm hh => exact st.partAcyclic hP (fun _ _ h => h)
    | reduce n c r m nf hnf hc hm hh =>
      refine st.partAcyclic hP (fun _ _ h => ?_)
      cases nf <;> exact h
    | compose n c l r m mc d hl hr hcl hcr hm hmc hh =>
      have hid := sim.read_id hs hm
      rw [hid] at hh
      refine partAcyclic_compose sim hP hl hr hm st ?_ ?_
      · unfold composeDelta at hh
        split at hh <;> cases hh <;> exact fun i j h => st.compose_ne h
      · unfold composeDelta at hh
        split at hh <;> cases hh <;> exact fun i j h => h
    | remove c => exact st.partAcyclic hP (fun _ _ h => h)
  · intro _ s d g d1 g1 d2 g2 d3 g3 t l _ _ _ sim hP _ _ _ _ r1 s1 r2 s2 r3 _
    have h1 := ((applyOne_step r1.applied).lstep sim.refs).partAcyclic hP (fun _ _ h => h)
    have st2 := (applyOne_step r2.applied).lstep s1.refs
    have h2 := st2.partAcyclic h1 (fun _ _ h => h)
    have hprev : g2.prev.get? d1.num = some g1.concepts.length ∧
        g2.concepts.length = g1.concepts.length + 1 := by
      cases st2 with
      | reducesTo u r ri cr hr hcr he hp hlen =>
        rw [hp]
        exact ⟨by rw [AMap.get?_insert]; exact if_pos rfl, hlen⟩
    have st3 := (applyOne_step r3.applied).lstep s2.refs
    have hnew : ∀ x y, newPart g2 (.new (.right (.unc d1.num) l none)) x y →
        y = g1.concepts.length ∧ x ≠ g1.concepts.length := by
      rintro x y ⟨hy, hx⟩
      have hy : y = g1.concepts.length := by
        simp only [Snap.convert, hprev.1] at hy
        cases hy
        rfl
      refine ⟨hy, ?_⟩
      rcases hx with hx | rfl
      · cases st3 with
        | right u comp l t li k cl ck red f b hl hk hne hcl hck hs hlo he hp hlen =>
          rw [hl] at hx; cases hx
          simp only [Snap.convert, hprev.1] at hk
          cases hk
          exact hne
      · rw [hprev.2]; omega
    refine acyclic_add (k := g1.concepts.length) (S := fun x => x ≠ g1.concepts.length) h2 ?_ ?_
    · intro x y hxy
      rcases st3.part hxy with h | h
      · exact .inl h
      · exact .inr (hnew x y h)
    · intro x hx ht
      refine hx (only_refl (fun y hy => ?_) ht).symm
      rcases st2.part hy with h | h
      · exact not_part_fresh s1.refs h
      · exact h
  · intro s d g g' _ _ _ _ _ hP hst
    rw [applyStrings_only hst]
    exact hP

theorem maybeComposition_none {m : Mixed} (h : m.maybeComposition = .ok (some (.leaf .constant))) :
    m.composition = none := by
  cases m with
  | prev c l r f u red =>
    cases u with
    | none => rfl
    | some p =>
      simp only [Mixed.maybeComposition] at h
      split at h
      · cases h
      · cases h
      · next l _ => cases l <;> cases h
  | unc c =>
    simp only [Mixed.maybeComposition, Concept.maybeComposition, Except.ok.injEq] at h
    simp only [Mixed.composition, Concept.composition]
    split at h <;> simp_all

theorem Emit.uncomposed {s g : Snap} {d : Delta} {dd : Direct CId} (sim : Sim s d g)
    (hs : RefsInv s) (he : Emit ⟨s, .base d⟩ dd) : Uncomposed g dd := by
  cases he with
  | str t => trivial
  | freeVariable => trivial
  | boundVariable => trivial
  | composition l r m hm hh => trivial
  | unreduce c r m hm hh => trivial
  | reduce n c r m nf hnf hc hm hh => cases nf <;> trivial
  | remove c => trivial
  | compose n c l r m mc d hl hr hcl hcr hm hmc hh =>
    rw [sim.read_id hs hm] at hh
    unfold composeDelta at hh
    split at hh <;> cases hh
    · trivial
    · intro k ck hk hck
      obtain ⟨i, li⟩ := sim.live hm
      cases li.conv.unique hk
      obtain ⟨k', hk', hrel⟩ := sim.pair hm li
      rw [hck] at hk'; cases hk'
      rw [maybeComposition_none hmc] at hrel
      cases hp : pairOf ck.spec with
      | none => rfl
      | some p => rw [hp] at hrel; cases hrel

theorem KeepsDefinitions.composing {s : Snap} {p : CId × Direct CId} (h : KeepsDefinitions s p) :
    Composing p.2 := by
  unfold KeepsDefinitions at h
  unfold Composing
  split <;> simp_all

/-- The definitions of a history that replaces none. -/
theorem History.comps {c : Ctx} (h : History KeepsDefinitions c) :
    CompFwd (look c.snap.concepts) ∧ CompRev (look c.snap.concepts) := by
  refine History.induct (R := fun s => CompFwd (look s.concepts) ∧ CompRev (look s.concepts))
    (fun _ _ g => CompFwd (look g.concepts) ∧ CompRev (look g.concepts))
    ⟨compFwd_of_check (by decide +kernel), compRev_of_check (by decide +kernel)⟩
    (fun _ _ _ h => h) ?_ ?_ ?_ h
  · intro s d g d' g' dd hs _ _ sim hP he hq re _
    have st := (applyOne_step re.applied).lstep sim.refs
    have hc : Composing dd := KeepsDefinitions.composing hq
    exact ⟨LStep.compFwd hP.1 hc st, LStep.compRev hP.2 hc (he.uncomposed sim hs) st⟩
  · intro _ s d g d1 g1 d2 g2 d3 g3 t l _ _ _ sim hP _ _ _ _ r1 s1 r2 s2 r3 _
    have st1 := (applyOne_step r1.applied).lstep sim.refs
    have st2 := (applyOne_step r2.applied).lstep s1.refs
    have st3 := (applyOne_step r3.applied).lstep s2.refs
    have h1 := LStep.compFwd hP.1 (by trivial) st1
    have h2 := LStep.compFwd h1 (by trivial) st2
    have k1 := LStep.compRev hP.2 (by trivial) (by trivial) st1
    have k2 := LStep.compRev k1 (by trivial) (by trivial) st2
    exact ⟨LStep.compFwd h2 (by trivial) st3, LStep.compRev k2 (by trivial) (by trivial) st3⟩
  · intro s d g g' _ _ _ _ _ hP hst
    rw [applyStrings_only hst]
    exact hP

end Zia

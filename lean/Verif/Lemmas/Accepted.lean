import Verif.Lemmas.Said

/-!
# What an accepted command makes so

The changes that `let` and `forget` make for the tree of a command, and their effect on the store.
-/

namespace Zia

open CM Spec

set_option linter.unusedSectionVars false

variable [HashOrder]

/-! ## The changes -/

/-- An error that `let` shows. -/
def Shown (e : ZiaError) : Prop := e ≠ .unusedSymbol ∧ e ≠ .cannotReduceFurther

theorem conceptFromAst_two {n : Nat} {t u : Syn} {c : Ctx} {o : Delta} (hk : KeysOk o) (hd : c.delta = .base o)
    (ht : Sayable ⟨c.snap, c.delta⟩ t) (hu : Sayable ⟨c.snap, c.delta⟩ u) {α : Type}
    {f : CId → CId → CM α} {Q : Except ZiaError α → Ctx → Prop}
    (hf : ∀ a b c' o' M, c'.snap = c.snap → c'.delta = .base o' → Composes o o' M → Said M t a → Said M u b →
      Ends (f a b) c' Q) :
    Ends (do let a ← Updater.conceptFromAst n t
             let b ← Updater.conceptFromAst n u
             f a b) c Q := by
  rw [hd] at ht hu
  refine Ends.bind ((conceptFromAst_said hk ht (c := c) (M := []) ⟨rfl, o, [], hd, (by simp), .refl, rfl⟩).mono ?_)
  rintro _ c1 ⟨a, rfl, h1, o1, M1, h2, _, h3, h4⟩
  show Ends _ _ _
  refine Ends.bind ((conceptFromAst_said hk hu (c := c1) (M := M1) ⟨h1, o1, M1, h2, (by simp), h3, rfl⟩).mono ?_)
  rintro _ c2 ⟨b, rfl, h5, o2, M2, h6, h7, h8, h9⟩
  exact hf a b c2 o2 M2 h5 h6 h8 (h4.mono h7) h9

/-- A reduction was recorded last, or the error is one that is shown. -/
def Ruled {α : Type} (c : Ctx) (o : Delta) (t nf : Syn) (r : Except ZiaError α) (c' : Ctx) : Prop :=
  match r with
  | .error e => Shown e
  | .ok _ => c'.snap = c.snap ∧ ∃ a b o' M ch id, Composes o o' M ∧ Said M t a ∧ Said M nf b ∧
      (ch = .create b ∨ ∃ x, ch = .update x b) ∧ (Nested.base o').update (.reduce a ch) = .ok (c'.delta, id)

theorem executeReduction_ruled {n : Nat} {t nf : Syn} {c : Ctx} {o : Delta} (hne : t.key ≠ nf.key) (hk : KeysOk o)
    (hd : c.delta = .base o)
    (hs : Sayable ⟨c.snap, c.delta⟩ t) (hs' : Sayable ⟨c.snap, c.delta⟩ nf) :
    Ends (Context.executeReduction n t nf) c (Ruled c o t nf) := by
  unfold Context.executeReduction
  split
  · exact Ends.throw ⟨by simp, by simp⟩
  · refine Ends.bind (Ends.searching fun found ca _ => ?_)
    show Ends _ _ _
    cases found with
    | some p =>
      refine Ends.bind (Ends.ofE fun a _ => ?_)
      refine Ends.bind (Ends.ofE fun b _ => ?_)
      exact Ends.throw ⟨by simp, by simp⟩
    | none =>
      refine Ends.bind (Ends.exclusive (fun _ => ?_) (fun _ => ⟨by simp, by simp⟩))
      show Ends _ _ _
      refine conceptFromAst_two (c := { c with cache := ca }) hk hd hs hs' fun a b c' o' M e1 e2 hC hA hB => ?_
      refine Ends.bind (Ends.ofE fun s _ => ?_)
      unfold Updater.updateReduction
      refine Ends.bind (Ends.reading fun o _ => ?_)
      show Ends _ _ _
      split
      · exact Ends.throw ⟨by simp, by simp⟩
      · refine Ends.bind (Ends.reading fun m _ => ?_)
        show Ends _ _ _
        split
        · exact Ends.throw ⟨by simp, by simp⟩
        · refine Ends.bind (Ends.reading fun m _ => ?_)
          show Ends _ _ _
          split
          · exact Ends.throw ⟨by simp, by simp⟩
          · refine Ends.bind (Ends.update fun d id hd => ?_)
            rw [e2] at hd
            refine Ends.pure ⟨e1, a, b, o', M, _, id, hC, hA, hB, ?_, hd⟩
            cases o with
            | none => exact .inl rfl
            | some x => exact .inr ⟨x, rfl⟩

/-- A definition was recorded last, or the error is one that is shown. -/
def Coined {α : Type} (c : Ctx) (o : Delta) (x : CId) (l r : Syn) (res : Except ZiaError α) (c' : Ctx) : Prop :=
  match res with
  | .error e => Shown e
  | .ok _ => c'.snap = c.snap ∧ ∃ a b o' M m ch id, Composes o o' M ∧ Said M l a ∧ Said M r b ∧
      (View.mk c.snap (.base o')).read x = .ok m ∧
      (ch = .create ⟨a, b⟩ ∨ ∃ p, ch = .update p ⟨a, b⟩) ∧
      (Nested.base o').update (.compose m.id ch) = .ok (c'.delta, id)

theorem checkReductions_shown {v : View} {n : Nat} {a b : CId} {e : ZiaError}
    (h : v.checkReductions n a b = .ok (.error e)) : Shown e := by
  induction n generalizing b with
  | zero => cases h
  | succ n ih =>
    simp only [View.checkReductions, Except.bind_eq_ok] at h
    obtain ⟨m, _, h⟩ := h
    split at h
    · cases h
    · split at h
      · cases h; exact ⟨by simp, by simp⟩
      · simp only [Except.bind_eq_ok] at h
        obtain ⟨b, _, h⟩ := h
        split at h
        · cases h; exact ⟨by simp, by simp⟩
        · exact ih h

theorem redefine_coined {n : Nat} {x : CId} {l r : Syn} {c : Ctx} {o : Delta} (hk : KeysOk o) (hd : c.delta = .base o)
    (hs : Sayable ⟨c.snap, c.delta⟩ l) (hs' : Sayable ⟨c.snap, c.delta⟩ r) :
    Ends (Updater.redefine n x l r) c (Coined c o x l r) := by
  unfold Updater.redefine
  refine conceptFromAst_two hk hd hs hs' fun a b c' o' M e1 e2 hC hA hB => ?_
  unfold Updater.insertComposition
  refine Ends.bind (Ends.reading fun o _ => ?_)
  show Ends _ _ _
  split
  · exact Ends.throw ⟨by simp, by simp⟩
  · refine Ends.bind (Ends.reading fun o _ => ?_)
    show Ends _ _ _
    split
    · exact Ends.throw ⟨by simp, by simp⟩
    · refine Ends.bind (Ends.reading fun o ho => ?_)
      show Ends _ _ _
      refine Ends.bind (Ends.ofR ?_)
      cases o with
      | error e => exact checkReductions_shown ho
      | ok _ =>
        show Ends _ _ _
        refine Ends.bind (Ends.reading fun o ho => ?_)
        show Ends _ _ _
        refine Ends.bind (Ends.ofR ?_)
        cases o with
        | error e => exact checkReductions_shown ho
        | ok _ =>
          show Ends _ _ _
          refine Ends.bind (Ends.reading fun m hr => ?_)
          show Ends _ _ _
          refine Ends.bind (Ends.ofE fun q hq => ?_)
          show Ends _ _ _
          rw [Except.bind_eq_ok] at hq
          obtain ⟨mc, _, hq⟩ := hq
          rw [e1, e2] at hr
          unfold composeDelta at hq
          split at hq
          · cases hq
            exact Ends.throw ⟨by simp, by simp⟩
          · cases hq
            refine Ends.bind (Ends.update fun d id hd => ?_)
            rw [e2] at hd
            exact Ends.pure ⟨e1, a, b, o', M, m, _, id, hC, hA, hB, hr, .inr ⟨_, rfl⟩, hd⟩
          · cases hq
            refine Ends.bind (Ends.update fun d id hd => ?_)
            rw [e2] at hd
            exact Ends.pure ⟨e1, a, b, o', M, m, _, id, hC, hA, hB, hr, .inl rfl, hd⟩
          · cases hq

theorem executeComposition_coined {n : Nat} {x : CId} {new old l r : Syn} {c : Ctx} {o : Delta} (hk : KeysOk o)
    (hd : c.delta = .base o) (hn : new.concept = some x) (hne : new.expansion = none) (ho : old.concept = none)
    (hoe : old.expansion = some (l, r)) (hs : Sayable ⟨c.snap, c.delta⟩ l) (hs' : Sayable ⟨c.snap, c.delta⟩ r) :
    Ends (Context.executeComposition n new old) c (Coined c o x l r) := by
  unfold Context.executeComposition
  split
  · exact Ends.throw ⟨by simp, by simp⟩
  · unfold Context.define
    rw [hn, hne, ho, hoe]
    dsimp only
    refine Ends.bind (Ends.exclusive (fun _ => ?_) (fun _ => ⟨by simp, by simp⟩))
    exact redefine_coined hk hd hs hs'

/-- `let` with one of the two operators. -/
theorem matchRighthandPair_told {n k : Nat} {t A u : Syn} {c : Ctx} {Q : Except ZiaError Unit → Ctx → Prop}
    (h : OfType ⟨c.snap, c.delta⟩ A .reduction ∧ Ends (Context.executeReduction n t u) c Q ∨
      OfType ⟨c.snap, c.delta⟩ A .define ∧ Ends (Context.executeComposition n t u) c Q) :
    Ends (Context.matchRighthandPair n k t A u) c Q := by
  cases k with
  | zero => exact Ends.fault
  | succ k =>
    unfold Context.matchRighthandPair
    rcases h with ⟨⟨a, ha, hc⟩, h⟩ | ⟨⟨a, ha, hc⟩, h⟩ <;>
    · rw [ha]
      refine Ends.bind (Ends.reading fun o ho => ?_)
      rw [hc] at ho
      cases ho
      exact h

/-- A command `let (t (A u))`, when what it does shows its errors. -/
theorem call_let {n k : Nat} {t A u L R R2 T : Syn} {c : Ctx} {Q : Except ZiaError Unit → Ctx → Prop}
    (hT : T.concept = none) (hTe : T.expansion = some (L, R)) (hL : OfType ⟨c.snap, c.delta⟩ L .letCmd)
    (hR : R.expansion = some (t, R2)) (hR2 : R2.expansion = some (A, u))
    (hQ : ∀ e c', Q (.error e) c' → Shown e)
    (h : Ends (Context.matchRighthandPair n n t A u) c Q) :
    Ends (Context.call n k T) c (fun r c' => Q (r.map fun _ => ()) c') := by
  cases k with
  | zero => exact Ends.fault
  | succ k =>
    unfold Context.call Context.stringOf
    rw [hT]
    refine Ends.bind (Ends.pure ?_)
    show Ends _ _ _
    rw [hTe]
    refine onError_ends ?_ fun x c' h => (hQ _ _ h).2
    cases k with
    | zero => exact Ends.fault
    | succ k =>
      unfold Context.callPair
      refine Ends.bind (Ends.get ?_)
      refine Ends.bind (Ends.ofE fun o ho => ?_)
      obtain ⟨l, hl, hlc⟩ := hL
      rw [cct_of_plain hl hlc] at ho
      cases ho
      show Ends _ _ _
      refine Ends.bind (Ends.mono (Q := fun r c' => Q (r.map fun _ => ()) c' ∧
        ∀ o, r = .ok o → o = some []) ?_ ?_)
      · unfold Context.callLet Context.executeLet
        rw [hR]
        dsimp only
        rw [hR2]
        dsimp only [Option.map_some]
        refine Ends.bind (Ends.mono (Q := fun r c' => Q (r.map fun _ => ()) c' ∧ ∀ b, r = .ok b → b = true) ?_
          fun r c' h => ?_)
        · refine onError_ends (onError_ends ?_ fun x c' h => (hQ _ _ h.1).2) fun x c' h => (hQ _ _ h.1).1
          refine Ends.bind (h.mono fun r c' h => ?_)
          cases r with
          | error e => exact ⟨h, fun b hb => by cases hb⟩
          | ok u => exact Ends.pure ⟨h, fun b hb => by cases hb; rfl⟩
        · cases r with
          | error e => exact ⟨h.1, fun o ho => by cases ho⟩
          | ok b =>
            cases h.2 b rfl
            exact Ends.pure ⟨h.1, fun o ho => by cases ho; rfl⟩
      · intro r c' h
        cases r with
        | error e => exact h.1
        | ok o =>
          cases h.2 o rfl
          exact Ends.pure h.1

/-- A reduction was removed last, or the error is one that is shown. -/
def Dropped {α : Type} (c : Ctx) (a : CId) (r : Except ZiaError α) (c' : Ctx) : Prop :=
  match r with
  | .error e => Shown e
  | .ok _ => c'.snap = c.snap ∧ ∃ x id, c.delta.update (.reduce a (.remove x)) = .ok (c'.delta, id)

/-- A command `forget t`. -/
theorem call_dropped {n k : Nat} {t L T : Syn} {a : CId} {c : Ctx}
    (hT : T.concept = none) (hTe : T.expansion = some (L, t)) (hL : OfType ⟨c.snap, c.delta⟩ L .forget)
    (ha : t.concept = some a) : Ends (Context.call n k T) c (Dropped c a) := by
  cases k with
  | zero => exact Ends.fault
  | succ k =>
    unfold Context.call Context.stringOf
    rw [hT]
    refine Ends.bind (Ends.pure ?_)
    show Ends _ _ _
    rw [hTe]
    refine onError_ends ?_ fun x c' h => h.2
    cases k with
    | zero => exact Ends.fault
    | succ k =>
      unfold Context.callPair
      refine Ends.bind (Ends.get ?_)
      refine Ends.bind (Ends.ofE fun o ho => ?_)
      obtain ⟨l, hl, hlc⟩ := hL
      rw [cct_of_plain hl hlc] at ho
      cases ho
      show Ends _ _ _
      refine Ends.bind (Ends.mono (Q := fun r c' => Dropped c a r c' ∧ ∀ o, r = .ok o → o = some []) ?_ ?_)
      · unfold Context.callForget
        rw [ha]
        dsimp only
        refine Ends.bind (Ends.exclusive (fun _ => ?_) (fun _ => ⟨⟨by simp, by simp⟩, fun o h => by cases h⟩))
        show Ends _ _ _
        refine Ends.bind (Ends.ofE fun s _ => ?_)
        show Ends _ _ _
        unfold Updater.deleteReduction
        refine Ends.bind (Ends.bind (Ends.reading fun m _ => ?_))
        show Ends _ _ _
        split
        · exact Ends.throw ⟨⟨by simp, by simp⟩, fun o h => by cases h⟩
        · refine Ends.bind (Ends.update fun d id hd => ?_)
          refine Ends.pure ?_
          exact Ends.pure ⟨⟨rfl, _, id, hd⟩, fun o h => by cases h; rfl⟩
      · intro r c' h
        cases r with
        | error e => exact h.1
        | ok o =>
          cases h.2 o rfl
          exact Ends.pure h.1

/-! ## Their effect on the store -/

/-- What was stored stays, and ids keep what they stand for. -/
structure Widened (g g' : Snap) : Prop where
  len : g.concepts.length ≤ g'.concepts.length
  specs : ∀ k, k < g.concepts.length → specs g' k = specs g k
  conv : ∀ a i, Conv g a i → Conv g' a i

theorem Widened.refl (g : Snap) : Widened g g := ⟨Nat.le_refl _, fun _ _ => rfl, fun _ _ h => h⟩

theorem Widened.trans {g g' g'' : Snap} (h : Widened g g') (h' : Widened g' g'') : Widened g g'' :=
  ⟨Nat.le_trans h.len h'.len, fun k hk => (h'.specs k (Nat.lt_of_lt_of_le hk h.len)).trans (h.specs k hk),
    fun a i ha => h'.conv a i (h.conv a i ha)⟩

theorem Widened.composed {g g' : Snap} (h : Widened g g') {i x y : Nat} (hc : ComposedOf g i x y) :
    ComposedOf g' i x y := by
  rw [composedOf_specs] at hc ⊢
  obtain ⟨sp, h7, h8⟩ := hc
  exact ⟨sp, by rw [h.specs i (specs_lt h7)]; exact h7, h8⟩

/-- The concept of a tree, in a store; those of pairs without a concept are not below `low`. -/
inductive Stands (low : Nat) (g : Snap) : Syn → CId → Prop
  | known {t : Syn} {a : CId} (h : t.concept = some a) : Stands low g t a
  | pair {t l r : Syn} {a x y : CId} {i xi yi : Nat} (h : t.concept = none) (he : t.expansion = some (l, r))
      (hl : Stands low g l x) (hr : Stands low g r y) (ha : Conv g a i) (hx : Conv g x xi) (hy : Conv g y yi)
      (hc : ComposedOf g i xi yi) (hi : low ≤ i) : Stands low g t a

theorem composition_same {g g' : Snap} (hg : RefsInv g) {x y : CId} {u : Nat} (hu : g.prev.get? u = none)
    (st : Step g (.unc u, .new (.composition ⟨x, y⟩)) g') :
    Widened g g' ∧ ∃ xi yi, Conv g' (.unc u) g.concepts.length ∧ Conv g' x xi ∧ Conv g' y yi ∧
      ComposedOf g' g.concepts.length xi yi := by
  cases st with
  | composition _ p l r cl cr hl hr hne hcl hcr hlo hro =>
    dsimp only at hl hr
    have hcon : ((g.pushNew u ((g.concepts.set l (cl.addLeft cr.id g.concepts.length)).set
        r (cr.addRight cl.id g.concepts.length))
        (Concept.mk' g.concepts.length (.abst (compOf cl cr) none))).concepts) =
      ((g.concepts.set l (cl.addLeft cr.id g.concepts.length)).set
        r (cr.addRight cl.id g.concepts.length)) ++
        [Concept.mk' g.concepts.length (.abst (compOf cl cr) none)] := rfl
    have conv : ∀ a i, Conv g a i → Conv (g.pushNew u ((g.concepts.set l (cl.addLeft cr.id g.concepts.length)).set
        r (cr.addRight cl.id g.concepts.length))
        (Concept.mk' g.concepts.length (.abst (compOf cl cr) none))) a i := by
      intro a i ha
      cases a with
      | com m => exact ha
      | unc v =>
        have : u ≠ v := by
          rintro rfl
          simp [Conv, Snap.convert, hu] at ha
        unfold Conv Snap.convert at ha ⊢
        simp only [Snap.pushNew, AMap.get?_insert]
        rw [if_neg this]
        exact ha
    refine ⟨⟨?_, ?_, conv⟩, l, r, ?_, conv _ _ hl, conv _ _ hr, ?_⟩
    · rw [hcon]; simp
    · intro k hk
      unfold specs look
      rw [hcon, List.getElem?_append_left (by simpa using hk)]
      simp only [List.getElem?_set, List.length_set]
      have h1 := lt_of_get hcl
      have h2 := lt_of_get hcr
      by_cases e1 : r = k
      · subst e1
        rw [if_pos rfl, if_pos h2, hcr]; rfl
      · rw [if_neg e1]
        by_cases e2 : l = k
        · subst e2
          rw [if_pos rfl, if_pos h1, hcl]; rfl
        · rw [if_neg e2]
    · simp [Conv, Snap.convert, Snap.pushNew, AMap.get?_insert]
    · refine ⟨Concept.mk' g.concepts.length (.abst (compOf cl cr) none), ?_, ?_⟩
      · rw [hcon, List.getElem?_append_right (by simp)]
        simp
      · simp only [Concept.composition, Concept.mk', compOf]
        rw [hg.valid.ids _ _ hcl, hg.valid.ids _ _ hcr]

theorem specs_set {cs : List Con} {i : Nat} {c c' : Con} (h : cs[i]? = some c) (hs : c'.spec = c.spec) :
    (fun k : Nat => ((cs.set i c')[k]?).map (fun x : Con => x.spec)) = fun k : Nat => (cs[k]?).map (fun x : Con => x.spec) := by
  funext k
  rw [List.getElem?_set]
  split
  · next e =>
    subst e
    rw [if_pos (lt_of_get h), h]
    simp [hs]
  · rfl

theorem specs_upd {cs : List Con} {i : Nat} {c c' : Con} (h : cs[i]? = some c) :
    (fun k : Nat => ((cs.set i c')[k]?).map (fun x : Con => x.spec)) = updS (fun k : Nat => (cs[k]?).map (fun x : Con => x.spec)) i c'.spec := by
  funext k
  rw [List.getElem?_set]
  unfold updS
  by_cases e : i = k
  · subst e
    rw [if_pos rfl, if_pos rfl, if_pos (lt_of_get h)]
    rfl
  · rw [if_neg e, if_neg (Ne.symm e)]

/-- The effect of a removed reduction on the store. -/
theorem unreduce_specs {g g' : Snap} {a x : CId} (st : Step g (a, .reduce a (.remove x)) g') :
    ∃ i mc red, g.convert a = .ok i ∧ specs g i = some (.abst mc red) ∧
      specs g' = updS (specs g) i (.abst mc none) ∧ g'.concepts.length = g.concepts.length ∧
      g'.prev = g.prev := by
  cases st with
  | reduceRemove _ b k bi ck cb mc red hk hb hne hck hcb hs =>
    refine ⟨k, mc, red, hk, by simp [specs, look, hck, hs], ?_, by simp [Snap.withConcepts], rfl⟩
    unfold specs look Snap.withConcepts
    dsimp only
    refine (specs_set (c := cb) (by rw [List.getElem?_set, if_neg hne]; exact hcb) (by rfl)).trans ?_
    exact specs_upd hck

/-- The effect of a definition on the store. -/
theorem compose_specs {g g' : Snap} (hg : RefsInv g) {c a b : CId} {ch : VChange (CompPair CId)}
    (hch : ch = .create ⟨a, b⟩ ∨ ∃ p, ch = .update p ⟨a, b⟩) (st : Step g (c, .compose c ch) g') :
    ∃ i x y mc mc' red, g.convert c = .ok i ∧ g.convert a = .ok x ∧ g.convert b = .ok y ∧
      specs g i = some (.abst mc red) ∧ specs g' = updS (specs g) i (.abst mc' red) ∧
      pairOf (.abst mc' red) = some (x, y) ∧ g'.concepts.length = g.concepts.length ∧
      g'.prev = g.prev := by
  cases st with
  | composeCreate _ p k l r ck cl cr mc red hk hl hr hkl hkr hlr hck hcl hcr hs hlo hro =>
    obtain rfl : p = ⟨a, b⟩ := by rcases hch with h | ⟨p, h⟩ <;> cases h; rfl
    refine ⟨k, l, r, mc, compOf cl cr, red, hk, hl, hr, by simp [specs, look, hck, hs], ?_, ?_,
      by simp [Snap.withConcepts], rfl⟩
    · unfold specs look Snap.withConcepts
      dsimp only
      refine (specs_set (c := cr) (by simp [List.getElem?_set, hkr, hlr, hcr]) (by rfl)).trans ?_
      refine (specs_set (c := cl) (by simp [List.getElem?_set, hkl, hcl]) (by rfl)).trans ?_
      exact specs_upd hck
    · simp only [pairOf, compOf]
      rw [hg.valid.ids _ _ hcl, hg.valid.ids _ _ hcr]
  | composeUpdate _ p q k bl br al ar ck cbl cbr cal car mc red hk hbl hbr hal har hnd hck hcbl hcbr hcal hcar hs hlo hro =>
    obtain rfl : q = ⟨a, b⟩ := by rcases hch with h | ⟨p, h⟩ <;> cases h; rfl
    simp only [List.nodup_cons, List.mem_cons, List.not_mem_nil, or_false, not_or, List.nodup_nil, and_true,
      not_false_eq_true] at hnd
    obtain ⟨⟨n1, n2, n3, n4⟩, ⟨n5, n6, n7⟩, ⟨n8, n9⟩, n10⟩ := hnd
    refine ⟨k, al, ar, mc, compOf cal car, red, hk, hal, har, by simp [specs, look, hck, hs], ?_, ?_,
      by simp [Snap.withConcepts], rfl⟩
    · unfold specs look Snap.withConcepts
      dsimp only
      refine (specs_set (c := car) (by simp [List.getElem?_set, n4, n7, n9, n10, hcar]) (by rfl)).trans ?_
      refine (specs_set (c := cal) (by simp [List.getElem?_set, n3, n6, n8, hcal]) (by rfl)).trans ?_
      refine (specs_set (c := cbr) (by simp [List.getElem?_set, n2, n5, hcbr]) (by rfl)).trans ?_
      refine (specs_set (c := cbl) (by simp [List.getElem?_set, n1, hcbl]) (by rfl)).trans ?_
      exact specs_upd hck
    · simp only [pairOf, compOf]
      rw [hg.valid.ids _ _ hcal, hg.valid.ids _ _ hcar]
  | composeRemove _ _ _ _ _ _ _ _ _ => rcases hch with h | ⟨b, h⟩ <;> cases h

theorem reduce_prev {g g' : Snap} {a : CId} {ch : VChange CId} (st : Step g (a, .reduce a ch) g') :
    g'.prev = g.prev := by
  cases st <;> rfl

theorem conv_prev {g g' : Snap} (h : g'.prev = g.prev) {a : CId} {i : Nat} : Conv g' a i ↔ Conv g a i := by
  cases a with
  | com m => rfl
  | unc u => simp only [Conv, Snap.convert, h]

/-- A tree keeps its concept when the parts of a pair stay. -/
theorem Stands.updated {low : Nat} {g g' : Snap} {t : Syn} {a : CId} (h : Stands low g t a) (hp : g'.prev = g.prev)
    (hs : ∀ i sp x y, low ≤ i → specs g i = some sp → pairOf sp = some (x, y) →
      ∃ sp', specs g' i = some sp' ∧ pairOf sp' = some (x, y)) : Stands low g' t a := by
  induction h with
  | known h => exact .known h
  | pair h0 h1 _ _ h4 h5 h6 h7 h8 ihl ihr =>
    refine .pair h0 h1 ihl ihr ((conv_prev hp).2 h4) ((conv_prev hp).2 h5) ((conv_prev hp).2 h6) ?_ h8
    rw [composedOf_specs] at h7 ⊢
    obtain ⟨sp, q1, q2⟩ := h7
    exact hs _ sp _ _ h8 q1 q2

/-- A store, the changes that give it, and what they stand for. -/
structure Play (s : Snap) (d : Nested) (g : Snap) : Prop where
  applied : s.applyAll d.order = .ok g
  sim : ∃ o, d = .base o ∧ Sim s o g

theorem Play.refs {s g : Snap} {d : Nested} (h : Play s d g) : RefsInv g := by
  obtain ⟨_, _, h⟩ := h.sim
  exact h.refs

theorem Play.composes {s g' : Snap} {o o' : Delta} {M : List (CId × CId × CId)}
    (h : ∀ g, s.applyAll (Nested.base o).order = .ok g → Play s (.base o) g) (hm : Composes o o' M)
    (hg : s.applyAll (Nested.base o').order = .ok g') :
    ∃ g, Play s (.base o) g ∧ Widened g g' ∧ Play s (.base o') g' ∧ ∀ a x y, (a, x, y) ∈ M →
      ∃ i xi yi, Conv g' a i ∧ Conv g' x xi ∧ Conv g' y yi ∧ ComposedOf g' i xi yi ∧ g.concepts.length ≤ i := by
  induction hm generalizing g' with
  | refl => exact ⟨g', h _ hg, .refl _, h _ hg, by simp⟩
  | @snoc o1 o2 M x y hC hu ih =>
    have ho : (Nested.base o2).order = (Nested.base o1).order ++ [(.unc o1.num, .new (.composition ⟨x, y⟩))] :=
      hu.order
    have hg' := hg
    rw [ho] at hg
    obtain ⟨g1, hg, hst⟩ := applyAll_snoc.1 hg
    obtain ⟨g, P, W, P1, hM⟩ := ih hg
    obtain ⟨_, e, sim⟩ := P1.sim
    cases e
    have st := applyOne_step hst
    have hnone : g1.prev.get? o1.num = none := by
      cases hx : g1.prev.get? o1.num with
      | none => rfl
      | some i => exact absurd ((sim.dom o1.num).2 ⟨i, hx⟩) (Nat.lt_irrefl _)
    obtain ⟨same, xi, yi, c1, c2, c3, c4⟩ := composition_same P1.refs hnone st
    refine ⟨g, P, W.trans same, ⟨hg', o2, rfl, sim.step hu trivial hst⟩, fun a x' y' hp => ?_⟩
    rcases List.mem_append.1 hp with hp | hp
    · obtain ⟨i, xi, yi, q1, q2, q3, q4, q5⟩ := hM a x' y' hp
      exact ⟨i, xi, yi, same.conv _ _ q1, same.conv _ _ q2, same.conv _ _ q3, same.composed q4, q5⟩
    · cases List.mem_singleton.1 hp
      exact ⟨_, xi, yi, c1, c2, c3, c4, W.len⟩

theorem Said.stands {low : Nat} {g : Snap} {M : List (CId × CId × CId)}
    (h : ∀ a x y, (a, x, y) ∈ M →
      ∃ i xi yi, Conv g a i ∧ Conv g x xi ∧ Conv g y yi ∧ ComposedOf g i xi yi ∧ low ≤ i)
    {t : Syn} {a : CId} (hs : Said M t a) : Stands low g t a := by
  induction hs with
  | known h => exact .known h
  | pair h0 h1 _ _ h3 ihl ihr =>
    obtain ⟨i, xi, yi, q1, q2, q3, q4, q5⟩ := h _ _ _ h3
    exact .pair h0 h1 ihl ihr q1 q2 q3 q4 q5

/-- What is stored in `s` is stored in `g`. -/
structure Holding (s g : Snap) : Prop where
  len : s.concepts.length ≤ g.concepts.length
  old : ∀ k, k < s.concepts.length → specs g k = specs s k

theorem Names.holding {s g g' : Snap} (hn : Names s g) (h : Widened g g') : Holding s g' := by
  refine ⟨Nat.le_trans hn.len h.len, fun k hk => ?_⟩
  rw [h.specs k (Nat.lt_of_lt_of_le hk hn.len)]
  obtain ⟨c', h1, h2, _⟩ := hn.old k _ (List.getElem?_eq_getElem hk)
  unfold specs look
  rw [h1, List.getElem?_eq_getElem hk]
  exact congrArg some h2

/-- What the store says when one concept was changed. -/
theorem changed {s g g' : Snap} {i : Nat} {sp sp' : Specific Nat} (hn : Holding s g)
    (hi : specs g i = some sp) (hg : specs g' = updS (specs g) i sp') :
    (∀ k, k < s.concepts.length → k ≠ i → specs g' k = specs s k) ∧ specs g' i = some sp' ∧
      (i < s.concepts.length → specs s i = some sp) := by
  have old := hn.old
  refine ⟨fun k hk hne => ?_, by rw [hg]; simp [updS], fun h => by rw [← old i h]; exact hi⟩
  rw [hg, ← old k hk]
  simp [updS, hne]

theorem learnt_of {s g g' s' : Snap} {i j : Nat} {mc : MComp Nat} {red : Option Nat} (hn : Holding s g)
    (hi : specs g i = some (.abst mc red)) (hg : specs g' = updS (specs g) i (.abst mc (some j)))
    (hl : g'.concepts.length = g.concepts.length) (hs : s'.concepts = g'.concepts) : Learnt s s' i j := by
  obtain ⟨h1, h2, h3⟩ := changed hn hi hg
  have e : specs s' = specs g' := by funext k; unfold specs; rw [hs]
  rw [← e] at h1 h2
  refine ⟨by rw [hs, hl]; exact hn.len, ?_, ?_, ?_, ?_, ?_⟩
  · intro m
    rw [reducesTo_specs, h2]
    simp [redOf, eq_comm]
  · intro k m hk hne
    rw [reducesTo_specs, reducesTo_specs, h1 k hk hne]
  · intro k l r hk
    rw [composedOf_specs, composedOf_specs]
    by_cases hne : k = i
    · subst hne
      rw [h2, h3 hk]
      cases mc <;> simp [pairOf]
    · rw [h1 k hk hne]
  · intro k t hk
    rw [isString_specs, isString_specs]
    by_cases hne : k = i
    · subst hne
      rw [h2, h3 hk]; simp
    · rw [h1 k hk hne]
  · intro k t hk
    rw [isBuiltIn_specs, isBuiltIn_specs]
    by_cases hne : k = i
    · subst hne
      rw [h2, h3 hk]; simp
    · rw [h1 k hk hne]

theorem unlearnt_of {s g g' s' : Snap} {i : Nat} {mc : MComp Nat} {red : Option Nat} (hn : Holding s g)
    (hi : specs g i = some (.abst mc red)) (hg : specs g' = updS (specs g) i (.abst mc none))
    (hl : g'.concepts.length = g.concepts.length) (hs : s'.concepts = g'.concepts) : Unlearnt s s' i := by
  obtain ⟨h1, h2, h3⟩ := changed hn hi hg
  have e : specs s' = specs g' := by funext k; unfold specs; rw [hs]
  rw [← e] at h1 h2
  refine ⟨by rw [hs, hl]; exact hn.len, ?_, ?_, ?_, ?_, ?_⟩
  · intro m
    rw [reducesTo_specs, h2]
    simp [redOf]
  · intro k m hk hne
    rw [reducesTo_specs, reducesTo_specs, h1 k hk hne]
  · intro k l r hk
    rw [composedOf_specs, composedOf_specs]
    by_cases hne : k = i
    · subst hne
      rw [h2, h3 hk]
      cases mc <;> simp [pairOf]
    · rw [h1 k hk hne]
  · intro k t hk
    rw [isString_specs, isString_specs]
    by_cases hne : k = i
    · subst hne
      rw [h2, h3 hk]; simp
    · rw [h1 k hk hne]
  · intro k t hk
    rw [isBuiltIn_specs, isBuiltIn_specs]
    by_cases hne : k = i
    · subst hne
      rw [h2, h3 hk]; simp
    · rw [h1 k hk hne]

theorem defined_of {s g g' s' : Snap} {i x y : Nat} {mc mc' : MComp Nat} {red : Option Nat} (hn : Holding s g)
    (hi : specs g i = some (.abst mc red)) (hg : specs g' = updS (specs g) i (.abst mc' red))
    (hp : pairOf (.abst mc' red) = some (x, y))
    (hl : g'.concepts.length = g.concepts.length) (hs : s'.concepts = g'.concepts) : Defined s s' i x y := by
  obtain ⟨h1, h2, h3⟩ := changed hn hi hg
  have e : specs s' = specs g' := by funext k; unfold specs; rw [hs]
  rw [← e] at h1 h2
  refine ⟨by rw [hs, hl]; exact hn.len, ?_, ?_, ?_, ?_, ?_⟩
  · intro l r
    rw [composedOf_specs, h2]
    simp only [Option.some.injEq, exists_eq_left', hp, Prod.mk.injEq]
    constructor <;> (rintro ⟨rfl, rfl⟩; exact ⟨rfl, rfl⟩)
  · intro k m hk
    rw [reducesTo_specs, reducesTo_specs]
    by_cases hne : k = i
    · subst hne
      rw [h2, h3 hk]
      simp [redOf]
    · rw [h1 k hk hne]
  · intro k l r hk hne
    rw [composedOf_specs, composedOf_specs, h1 k hk hne]
  · intro k t hk
    rw [isString_specs, isString_specs]
    by_cases hne : k = i
    · subst hne
      rw [h2, h3 hk]; simp
    · rw [h1 k hk hne]
  · intro k t hk
    rw [isBuiltIn_specs, isBuiltIn_specs]
    by_cases hne : k = i
    · subst hne
      rw [h2, h3 hk]; simp
    · rw [h1 k hk hne]

end Zia

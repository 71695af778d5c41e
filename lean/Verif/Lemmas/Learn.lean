import Verif.Lemmas.Trees
import Verif.Lemmas.Monad

/-!
# Teaching a reduction

What `let (x (-> y))` does once its words are concepts.
-/

namespace Zia

set_option linter.unusedSectionVars false

variable [HashOrder] {v : View} {D : CId → Prop}

/-- The tree of a word. -/
def Plain (id : CId) (t : Syn) : Prop := ∃ s k, t = .leaf (some s) (some id) k ∧ k ≠ .variable

/-- Concepts that are displayed as words, and have no definition. -/
structure Displayed (v : View) (D : CId → Prop) : Prop where
  ids : ∀ a m, v.read a = .ok m → m.id = a
  plain : ∀ a, D a → ∃ m, v.read a = .ok m ∧ m.composition = none ∧ m.string = none
  label : ∀ a n r, D a → v.label n a = .ok r → ∃ t, r = some t ∧ Syn.isVariableName t = false

theorem bindConceptToSyntax_plain {s : Str} (hs : Syn.isVariableName s = false) {id : CId} {t : Syn}
    (h : v.bindConceptToSyntax (Syn.ofStr s) id = .ok t) : Plain id t := by
  simp only [View.bindConceptToSyntax, Syn.ofStr, hs, Except.bind_eq_ok] at h
  obtain ⟨o, _, h⟩ := h
  split at h
  · cases h; exact ⟨s, _, rfl, by decide⟩
  · cases h; exact ⟨s, _, rfl, by decide⟩

/-- The words of `D` have plain trees. -/
theorem Displayed.closed (hw : Displayed v D) {e : Env} (he : e.view = v)
    (hm : ∀ id, e.mask.get id = none) : KeptBy e (fun id t => D id → Plain id t) := by
  refine ⟨fun id t ht => (by rw [hm id] at ht; cases ht), fun id m t hr hb => ?_⟩
  rw [he] at hr hb
  rw [hw.ids _ _ hr, and_self]
  intro hd
  obtain ⟨m', hm', hcomp, hstr⟩ := hw.plain id hd
  rw [hr] at hm'; cases hm'
  cases hb with
  | string hs _ => rw [hstr] at hs; cases hs
  | named _ hl ht =>
    obtain ⟨w, e, hv⟩ := hw.label id _ _ hd hl
    cases e
    exact bindConceptToSyntax_plain hv ht
  | pair _ hl _ _ _ _ => obtain ⟨w, e, hv⟩ := hw.label id _ _ hd hl; cases e
  | other _ hl _ => obtain ⟨w, e, hv⟩ := hw.label id _ _ hd hl; cases e

/-- The trees that a search finds in its memory. -/
def Cached (P : Rel) (ca : Cache) : Prop := ∀ id t, ca.syntaxTree? id = some t → P id t

theorem Framed.off : ∀ fs : List Frame, Framed (fs.map fun _ => .any) fs
  | [] => .nil
  | _ :: fs => .cons (fun _ _ _ => trivial) (Framed.off fs)

/-- A search that starts with trees in a relation ends with trees in it. -/
theorem Trees.cached {α : Type} {m : SM α} {e : Env} {P : Rel} (he : KeptBy e P)
    (hm : ∀ ms, FitsFrame e ms → Trees ms m) {ca ca' : Cache} {a : α} (h : m ca = .ok (a, ca'))
    (hc : Cached P ca) : Cached P ca' := by
  have fit : ∀ ms, FitsFrame e (P :: ms) := by intro ms Q hQ; cases hQ; exact he
  obtain ⟨fs, infs⟩ := ca
  cases fs with
  | nil =>
    have := hm [] (fun _ h => by cases h) _ _ _ .nil h
    intro id t ht
    unfold Cache.syntaxTree? at ht
    cases hf : ca'.frames with
    | nil => rw [hf] at ht; cases ht
    | cons f fs => rw [hf] at this; cases this
  | cons f fs =>
    have := hm (P :: fs.map fun _ => .any) (fit _) _ _ _ (.cons (fun id t ht => hc id t ht) (Framed.off fs)) h
    intro id t ht
    unfold Cache.syntaxTree? at ht
    cases hf : ca'.frames with
    | nil => rw [hf] at ht; cases ht
    | cons f fs =>
      rw [hf] at this ht
      cases this with
      | cons h1 _ => exact h1 id t ht

/-- The trees of words that a search finds in its memory. -/
abbrev PlainCache (D : CId → Prop) (ca : Cache) : Prop := Cached (fun id t => D id → Plain id t) ca

theorem Cached.empty {P : Rel} : Cached P .empty := by
  intro id t h
  cases h

theorem PlainCache.empty : PlainCache D .empty := Cached.empty

namespace Search

/-- The tree that is given for a concept. -/
theorem toAst_built {n : Nat} {e : Env} {P : Rel} (he : KeptBy e P) {id : CId} {ca ca' : Cache} {t : Syn}
    (hc : Cached P ca) (h : (search n).toAst e id ca = .ok (t, ca')) (hf : ca.frames ≠ []) : P id t := by
  obtain ⟨fs, infs⟩ := ca
  cases fs with
  | nil => exact absurd rfl hf
  | cons f fs =>
    exact (search_trees n).built P _ e id _ _ _ he (.cons (fun id t ht => hc id t ht) (Framed.off fs)) h

/-- The tree of a word. -/
theorem toAst_plain (hw : Displayed v D) {n : Nat} {e : Env} (he : e.view = v) {id : CId} (hd : D id)
    (hm : e.mask.get id = none) {ca ca' : Cache} {t : Syn} (hc : PlainCache D ca)
    (h : (search n).toAst e id ca = .ok (t, ca')) : Plain id t := by
  cases n with
  | zero => cases h
  | succ n =>
    change (search n).toAstF e id ca = _ at h
    unfold toAstF at h
    rw [hm] at h
    dsimp only at h
    obtain ⟨_, _, h1, h2⟩ := SM.bind_ok.1 h
    obtain ⟨rfl, rfl⟩ := SM.get_ok.1 h1
    cases hs : ca.syntaxTree? id with
    | some s => rw [hs] at h2; cases h2; exact hc _ _ hs hd
    | none =>
      rw [hs] at h2
      dsimp only at h2
      obtain ⟨c, _, h1, h2⟩ := SM.bind_ok.1 h2
      obtain ⟨hr, rfl⟩ := SM.lift_ok.1 h1
      obtain ⟨s, ca1, h3, h2⟩ := SM.bind_ok.1 h2
      obtain ⟨_, ca2, h4, h2⟩ := SM.bind_ok.1 h2
      cases h2
      rw [he] at hr
      obtain ⟨m', hm', hcomp, hstr⟩ := hw.plain id hd
      rw [hr] at hm'; cases hm'
      unfold buildAst at h3
      rw [hstr, he] at h3
      obtain ⟨s, _, h1, h⟩ := SM.bind_ok.1 h3
      have h1 := (SM.lift_ok.1 h1).1
      obtain ⟨w, rfl, hv⟩ := hw.label id _ _ hd h1
      have h := (SM.lift_ok.1 h).1
      exact bindConceptToSyntax_plain hv h

/-- A pair that is not stored. -/
theorem combine_unstored {n : Nat} {e : Env} {l r t : Syn} {ca ca' : Cache}
    (hp : ∀ a b m, l.concept = some a → r.concept = some b → e.view.read a = .ok m →
      m.findAsHand b .left = none)
    (h : (search n).combine e l r ca = .ok (t, ca')) :
    ∃ s, t = .branch (some s) none l r (Syn.pairVars l r).1 (Syn.pairVars l r).2 := by
  unfold combine at h
  obtain ⟨o, _, h1, h2⟩ := SM.bind_ok.1 h
  have h1 := (SM.lift_ok.1 h1).1
  have ho : o = none := by
    unfold pairConcept at h1
    cases hl : l.concept with
    | none => rw [hl] at h1; cases h1; rfl
    | some a =>
      cases hr : r.concept with
      | none => rw [hl, hr] at h1; cases h1; rfl
      | some b =>
        rw [hl, hr] at h1
        simp only [Except.bind_eq_ok, Except.pure_eq_ok] at h1
        obtain ⟨m, hm, rfl⟩ := h1
        exact hp a b m hl hr hm
  subst ho
  change (search n).join e l r _ = _ at h2
  unfold join at h2
  obtain ⟨s, _, _, h2⟩ := SM.bind_ok.1 h2
  cases h2
  exact ⟨s, rfl⟩

/-- Expanding a word gives its tree. -/
theorem expand_plain (hw : Displayed v D) {n : Nat} {e : Env} (he : e.view = v) {id : CId} (hd : D id)
    (hm : ∀ id, e.mask.get id = none) {ca ca' : Cache} {u t : Syn} (hu : u.concept = some id) (hc : PlainCache D ca)
    (h : (search n).expand e u ca = .ok (t, ca')) : Plain id t ∧ PlainCache D ca' := by
  refine ⟨?_, Trees.cached (hw.closed he hm) (fun ms hf => (search_trees n).expand ms e u hf) h hc⟩
  cases n with
  | zero => cases h
  | succ n =>
    change (search n).expandF e u ca = _ at h
    unfold expandF at h
    rw [hu] at h
    dsimp only at h
    obtain ⟨m, _, h1, h2⟩ := SM.bind_ok.1 h
    obtain ⟨hr, rfl⟩ := SM.lift_ok.1 h1
    obtain ⟨m', hm', hcomp, _⟩ := hw.plain id hd
    rw [he, hm'] at hr
    cases hr
    rw [hcomp] at h2
    exact toAst_plain hw he hd (hm id) hc h2

/-- Expanding a pair without a concept. -/
theorem expand_pair {n : Nat} {e : Env} {u l r t : Syn} {ca ca' : Cache} (hu : u.concept = none)
    (hx : u.expansion = some (l, r)) (h : (search (n + 1)).expand e u ca = .ok (t, ca')) :
    ∃ l' r' ca1 ca2, (search n).expand e l ca = .ok (l', ca1) ∧ (search n).expand e r ca1 = .ok (r', ca2) ∧
      (search n).combine e l' r' ca2 = .ok (t, ca') := by
  change (search n).expandF e u ca = _ at h
  unfold expandF at h
  rw [hu, hx] at h
  dsimp only at h
  obtain ⟨l', ca1, h1, h2⟩ := SM.bind_ok.1 h
  obtain ⟨r', ca2, h2, h3⟩ := SM.bind_ok.1 h2
  exact ⟨l', r', ca1, ca2, h1, h2, h3⟩

end Search

namespace CM

theorem bind_done {α β : Type} {m : CM α} {f : α → CM β} {c c' : Ctx} {b : β}
    (h : (m >>= f) c = .ok (.ok b, c')) : ∃ a c1, m c = .ok (.ok a, c1) ∧ f a c1 = .ok (.ok b, c') := by
  rw [bind_apply, Except.bind_eq_ok] at h
  obtain ⟨⟨r, c1⟩, h1, h2⟩ := h
  cases r with
  | ok a => exact ⟨a, c1, h1, h2⟩
  | error e => cases h2

theorem searching_done {α : Type} {f : Env → SM α} {c c' : Ctx} {a : α}
    (h : searching f c = .ok (.ok a, c')) : ∃ ca, f (env c) c.cache = .ok (a, ca) ∧
      c' = { c with cache := ca } := by
  simp only [searching, Except.bind_eq_ok, Except.pure_eq_ok] at h
  obtain ⟨⟨b, ca⟩, h1, h2⟩ := h
  cases h2
  exact ⟨ca, h1, rfl⟩

end CM

open CM

/-- The words of the command are concepts. -/
structure Ready (c : Ctx) (il ix ia iy : CId) : Prop where
  shown : Displayed ⟨c.snap, c.delta⟩ (· ∈ [il, ix, ia, iy])
  honest : PlainCache (· ∈ [il, ix, ia, iy]) c.cache
  letCmd : (View.mk c.snap c.delta).cct il = .ok (some .letCmd)
  reduction : (View.mk c.snap c.delta).cct ia = .ok (some .reduction)
  differ : ix ≠ iy
  unstored : ∀ m, (View.mk c.snap c.delta).read ia = .ok m → m.findAsHand iy .left = none

theorem Ready.searched {c : Ctx} {il ix ia iy : CId} (h : Ready c il ix ia iy) {ca : Cache}
    (hc : PlainCache (· ∈ [il, ix, ia, iy]) ca) : Ready { c with cache := ca } il ix ia iy :=
  ⟨h.shown, hc, h.letCmd, h.reduction, h.differ, h.unstored⟩

theorem env_mask (c : Ctx) (id : CId) : (env c).mask.get id = none := rfl

/-- The pair of two trees that is not stored. -/
theorem astFromPair_done {n : Nat} {l r t : Syn} {c c' : Ctx} {il ix ia iy : CId}
    (hr : Ready c il ix ia iy) (hl : l.isLeafVariable = false)
    (hp : ∀ a b m, l.concept = some a → r.concept = some b → (View.mk c.snap c.delta).read a = .ok m →
      m.findAsHand b .left = none)
    (h : Parser.astFromPair n l r c = .ok (.ok t, c')) :
    (∃ s, t = .branch (some s) none l r (Syn.pairVars l r).1 (Syn.pairVars l r).2) ∧
      Ready c' il ix ia iy ∧ c'.snap = c.snap ∧ c'.delta = c.delta := by
  unfold Parser.astFromPair at h
  obtain ⟨c0, _, h0, h⟩ := bind_done h
  cases h0
  obtain ⟨o, _, h1, h⟩ := bind_done h
  simp only [CM.ofE, Except.bind_eq_ok, Except.pure_eq_ok] at h1
  obtain ⟨_, _, h1⟩ := h1
  cases h1
  rw [if_neg (by rw [hl]; simp)] at h
  obtain ⟨ca, h1, rfl⟩ := searching_done h
  refine ⟨Search.combine_unstored hp h1, hr.searched ?_, rfl, rfl⟩
  exact Trees.cached (hr.shown.closed rfl fun _ => rfl) (fun ms hf => Search.combine_trees (search_trees n) _ hf _ _) h1 hr.honest

/-- What teaching a reduction leaves, or that it ended in an error that is shown. -/
def Taught {α : Type} (c : Ctx) (x y : CId) (r : Except ZiaError α) (c' : Ctx) : Prop :=
  match r with
  | .error e => e ≠ .unusedSymbol ∧ e ≠ .cannotReduceFurther
  | .ok _ => c'.snap = c.snap ∧ c'.cache = .empty ∧ ∃ ch,
      (ch = .create y ∨ ∃ b n, ch = .update b y ∧ (View.mk c.snap c.delta).normalForm n y = .ok (some b)) ∧
      ∃ id, c.delta.update (.reduce x ch) = .ok (c'.delta, id)

/-- Teaching a reduction of a word to another one: it is recorded, or the error is one that is shown. -/
theorem executeReduction_ends {n : Nat} {x y : CId} (hne : x ≠ y) {X Y : Syn} (hX : Plain x X)
    (hY : Plain y Y) (c : Ctx) : Ends (Context.executeReduction n X Y) c (Taught c x y) := by
  obtain ⟨sx, kx, rfl, hkx⟩ := hX
  obtain ⟨sy, ky, rfl, hky⟩ := hY
  unfold Context.executeReduction
  rw [if_neg (by simp [Syn.contains]), if_neg (by simp [Syn.key, Syn.syntx, Syn.concept, hne])]
  refine Ends.bind (Ends.searching fun found ca _ => ?_)
  show Ends _ _ _
  cases found with
  | some p =>
    refine Ends.bind (Ends.ofE fun a _ => ?_)
    refine Ends.bind (Ends.ofE fun b _ => ?_)
    exact Ends.throw ⟨by simp, by simp⟩
  | none =>
    refine Ends.bind (Ends.exclusive (fun _ => ?_) (fun _ => ⟨by simp, by simp⟩))
    show Ends _ _ _
    refine Ends.bind (Ends.pure ?_)
    refine Ends.bind (Ends.pure ?_)
    refine Ends.bind (Ends.ofE fun s _ => ?_)
    unfold Updater.updateReduction
    refine Ends.bind (Ends.reading fun nf hnf => ?_)
    show Ends _ _ _
    split
    · exact Ends.throw ⟨by simp, by simp⟩
    · refine Ends.bind (Ends.reading fun m _ => ?_)
      show Ends _ _ _
      split
      · exact Ends.throw ⟨by simp, by simp⟩
      · refine Ends.bind (Ends.reading fun m _ => ?_)
        show Ends _ _ _
        split
        · exact Ends.throw ⟨by simp, by simp⟩
        · refine Ends.bind (Ends.update fun d id hd => ?_)
          refine Ends.pure ⟨rfl, rfl, _, ?_, id, hd⟩
          cases nf with
          | none => exact .inl rfl
          | some b => exact .inr ⟨b, n, rfl, hnf⟩

theorem matchRighthandPair_ends {n k : Nat} {x y a : CId} (hne : x ≠ y) {X Y A : Syn} (hX : Plain x X)
    (hY : Plain y Y) (hA : A.concept = some a) (c : Ctx)
    (ha : (View.mk c.snap c.delta).cct a = .ok (some .reduction)) :
    Ends (Context.matchRighthandPair n k X A Y) c (Taught c x y) := by
  cases k with
  | zero => exact Ends.fault
  | succ k =>
    unfold Context.matchRighthandPair
    rw [hA]
    refine Ends.bind (Ends.reading fun o ho => ?_)
    rw [ha] at ho
    cases ho
    exact executeReduction_ends hne hX hY c

theorem onError_ends {α : Type} {e : ZiaError} {m h : CM α} {c : Ctx} {Q : Except ZiaError α → Ctx → Prop}
    (hm : Ends m c Q) (hQ : ∀ x c', Q (.error x) c' → x ≠ e) : Ends (Context.onError e m h) c Q := by
  refine Ends.tryCatch (hm.mono fun r c' hr => ?_)
  cases r with
  | ok a => exact hr
  | error x =>
    dsimp only
    rw [if_neg (hQ x c' hr)]
    exact Ends.throw hr

theorem callLet_ends {n : Nat} {x y a : CId} (hne : x ≠ y) {X Y A R R2 : Syn} (hX : Plain x X)
    (hY : Plain y Y) (hA : A.concept = some a) (hR : R.expansion = some (X, R2))
    (hR2 : R2.expansion = some (A, Y)) (c : Ctx)
    (ha : (View.mk c.snap c.delta).cct a = .ok (some .reduction)) :
    Ends (Context.callLet n R) c (fun r c' => Taught c x y r c' ∧ ∀ o, r = .ok o → o = some []) := by
  unfold Context.callLet Context.executeLet
  rw [hR]
  dsimp only
  rw [hR2]
  dsimp only [Option.map_some]
  refine Ends.bind (Ends.mono (Q := fun r c' => Taught c x y r c' ∧ ∀ b, r = .ok b → b = true) ?_
    fun r c' h => ?_)
  · refine onError_ends (onError_ends ?_ fun x c' h => h.1.2) fun x c' h => h.1.1
    refine Ends.bind ((matchRighthandPair_ends (k := n) hne hX hY hA c ha).mono fun r c' h => ?_)
    cases r with
    | error e => exact ⟨h, fun b hb => by cases hb⟩
    | ok u => exact Ends.pure ⟨h, fun b hb => by cases hb; rfl⟩
  · cases r with
    | error e => exact ⟨h.1, fun o ho => by cases ho⟩
    | ok b =>
      cases h.2 b rfl
      exact Ends.pure ⟨h.1, fun o ho => by cases ho; rfl⟩

theorem cct_of_plain {c : Ctx} {a : CId} {A : Syn} (hA : A.concept = some a) {o : Option CCT}
    (h : (View.mk c.snap c.delta).cct a = .ok o) : Search.cctOfAst (env c) A = .ok o := by
  unfold Search.cctOfAst
  rw [hA]
  exact h

theorem callPair_ends {n k : Nat} {x y a l : CId} (hne : x ≠ y) {X Y A R R2 L : Syn} (hX : Plain x X)
    (hY : Plain y Y) (hA : A.concept = some a) (hL : L.concept = some l) (hR : R.expansion = some (X, R2))
    (hR2 : R2.expansion = some (A, Y)) (c : Ctx)
    (hl : (View.mk c.snap c.delta).cct l = .ok (some .letCmd))
    (ha : (View.mk c.snap c.delta).cct a = .ok (some .reduction)) :
    Ends (Context.callPair n k L R) c (Taught c x y) := by
  cases k with
  | zero => exact Ends.fault
  | succ k =>
    unfold Context.callPair
    refine Ends.bind (Ends.get ?_)
    refine Ends.bind (Ends.ofE fun o ho => ?_)
    rw [cct_of_plain hL hl] at ho
    cases ho
    refine Ends.bind ((callLet_ends hne hX hY hA hR hR2 c ha).mono fun r c' h => ?_)
    cases r with
    | error e => exact h.1
    | ok o =>
      cases h.2 o rfl
      exact Ends.pure h.1

theorem call_ends {n k : Nat} {x y a l : CId} (hne : x ≠ y) {X Y A R R2 L T : Syn} (hX : Plain x X)
    (hY : Plain y Y) (hA : A.concept = some a) (hL : L.concept = some l) (hT : T.expansion = some (L, R))
    (hTc : T.concept = none) (hR : R.expansion = some (X, R2))
    (hR2 : R2.expansion = some (A, Y)) (c : Ctx)
    (hl : (View.mk c.snap c.delta).cct l = .ok (some .letCmd))
    (ha : (View.mk c.snap c.delta).cct a = .ok (some .reduction)) :
    Ends (Context.call n k T) c (Taught c x y) := by
  cases k with
  | zero => exact Ends.fault
  | succ k =>
    unfold Context.call Context.stringOf
    rw [hTc]
    refine Ends.bind (Ends.pure ?_)
    show Ends _ _ _
    rw [hT]
    exact onError_ends (callPair_ends hne hX hY hA hL hR hR2 c hl ha) fun x c' h => h.2

theorem createVariables_plain {id : CId} {t : Syn} (h : Plain id t) : Parser.createVariables t = pure t := by
  obtain ⟨s, k, rfl, hk⟩ := h
  cases k <;> first | rfl | exact absurd rfl hk

/-- The trees of the two pairs of the command. -/
theorem pairs_done {n : Nat} {il ix ia iy : CId} {c c1 c2 : Ctx} (hr : Ready c il ix ia iy)
    {X A Y R R2 : Syn} (hX : Plain ix X) (hA : Plain ia A)
    (hY : Y.concept = some iy) (h1 : Parser.astFromPair n A Y c = .ok (.ok R2, c1))
    (h2 : Parser.astFromPair n X R2 c1 = .ok (.ok R, c2)) :
    (∃ s1 s2 f1 g1 f2 g2, R = .branch s1 none X (.branch s2 none A Y f2 g2) f1 g1) ∧ Ready c2 il ix ia iy ∧
      c2.snap = c.snap ∧ c2.delta = c.delta := by
  have nv : ∀ {id : CId} {t : Syn}, Plain id t → t.isLeafVariable = false := by
    rintro id t ⟨s, k, rfl, hk⟩
    cases k <;> first | rfl | exact absurd rfl hk
  have cc : ∀ {id : CId} {t : Syn}, Plain id t → t.concept = some id := by
    rintro id t ⟨s, k, rfl, hk⟩; rfl
  obtain ⟨⟨s2, rfl⟩, hr1, e1, e1'⟩ := astFromPair_done hr (nv hA) (fun a b m ha hb hm => by
    rw [cc hA] at ha; cases ha
    rw [hY] at hb; cases hb
    exact hr.unstored m hm) h1
  obtain ⟨⟨s1, rfl⟩, hr2, e2, e2'⟩ := astFromPair_done hr1 (nv hX) (fun a b m ha hb hm => by cases hb) h2
  exact ⟨⟨_, _, _, _, _, _, rfl⟩, hr2, e2.trans e1, e2'.trans e1'⟩

/-- The rest of the command, once its words are concepts. -/
theorem learn {n : Nat} {il ix ia iy : CId} {c2 c' : Ctx} (hr2 : Ready c2 il ix ia iy)
    {L X A Y : Syn} (hL : L.concept = some il) (hX : Plain ix X) (hA : Plain ia A)
    (hY : Y.concept = some iy) {s1 s2 f1 g1 f2 g2} {r : Except ZiaError Str}
    (h3 : (do
      let t ← searching (fun e => (search n).expand e
        (Syn.newPair L (.branch s1 none X (.branch s2 none A Y f2 g2) f1 g1)))
      let t ← tryCatch (Parser.createVariables t) (fun _ => fault (.panic .executeUnwrap))
      Context.call n n t : CM Str) c2 = .ok (r, c')) : Taught c2 ix iy r c' := by
  have cc : ∀ {id : CId} {t : Syn}, Plain id t → t.concept = some id := by
    rintro id t ⟨s, k, rfl, hk⟩; rfl
  refine Ends.bind (m := searching _) (f := fun t => do
      let t ← tryCatch (Parser.createVariables t) (fun _ => fault (.panic .executeUnwrap))
      Context.call n n t) (Ends.searching fun t ca ht => ?_) r c' h3
  clear h3
  show Ends _ _ _
  have hT : ∃ s0 s1 s2 L' X' A' Y' f0 b0 f1 b1 f2 b2, Plain il L' ∧ Plain ix X' ∧ Plain ia A' ∧
      Plain iy Y' ∧ t = .branch s0 none L' (.branch s1 none X' (.branch s2 none A' Y' f2 b2) f1 b1) f0 b0 := by
    cases n with
    | zero => cases ht
    | succ n =>
      obtain ⟨L', R', ca1, ca2, x1, x2, x3⟩ := Search.expand_pair (hu := rfl) (hx := rfl) ht
      obtain ⟨pL, o1⟩ := Search.expand_plain hr2.shown rfl (by simp) (env_mask _) hL hr2.honest x1
      cases n with
      | zero => cases x2
      | succ n =>
        obtain ⟨X', R2', ca3, ca4, y1, y2, y3⟩ := Search.expand_pair (hu := rfl) (hx := rfl) x2
        obtain ⟨pX, o2⟩ := Search.expand_plain hr2.shown rfl (by simp) (env_mask _) (cc hX) o1 y1
        cases n with
        | zero => cases y2
        | succ n =>
          obtain ⟨A', Y', ca5, ca6, z1, z2, z3⟩ := Search.expand_pair (hu := rfl) (hx := rfl) y2
          obtain ⟨pA, o3⟩ := Search.expand_plain hr2.shown rfl (by simp) (env_mask _) (cc hA) o2 z1
          obtain ⟨pY, o4⟩ := Search.expand_plain hr2.shown rfl (by simp) (env_mask _) hY o3 z2
          obtain ⟨s2, rfl⟩ := Search.combine_unstored (fun a b m ha hb hm => by
            rw [cc pA] at ha; cases ha
            rw [cc pY] at hb; cases hb
            exact hr2.unstored m hm) z3
          obtain ⟨s1, rfl⟩ := Search.combine_unstored (fun a b m ha hb hm => by cases hb) y3
          obtain ⟨s0, rfl⟩ := Search.combine_unstored (fun a b m ha hb hm => by cases hb) x3
          exact ⟨_, _, _, L', X', A', Y', _, _, _, _, _, _, pL, pX, pA, pY, rfl⟩
  obtain ⟨s0, s1, s2, L', X', A', Y', f0, b0, f1, b1, f2, b2, pL, pX, pA, pY, rfl⟩ := hT
  have hcv : Parser.createVariables (.branch s0 none L' (.branch s1 none X' (.branch s2 none A' Y' f2 b2) f1 b1)
      f0 b0) = pure (.branch s0 none L' (.branch s1 none X' (.branch s2 none A' Y' f2 b2) f1 b1) f0 b0) := by
    simp only [Parser.createVariables, createVariables_plain pL, createVariables_plain pX,
      createVariables_plain pA, createVariables_plain pY, pure_bind]
  rw [hcv]
  refine Ends.bind (Ends.tryCatch (Ends.pure ?_))
  exact call_ends hr2.differ pX pY (cc pA) (cc pL) rfl rfl rfl rfl { c2 with cache := ca } hr2.letCmd
    hr2.reduction

end Zia

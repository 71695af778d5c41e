import Verif.Lemmas.Unruled
import Verif.Lemmas.Forget

/-!
# Asking what a word reduces to
-/

namespace Zia

open CM Spec

set_option linter.unusedSectionVars false

variable [HashOrder] {s : Snap} {W : Stand s} {D : Nat → Prop}

/-- What is needed of the words that are asked about. -/
structure Asked (s : Snap) (D : Nat → Prop) : Prop where
  lone : Lone s D
  word : ∀ i, D i → ∃ t, PlainWord s i t
  closed : ∀ i j, D i → ReducesTo s i j → D j
  unimplied : ∀ i k, D i → ¬ComposedOf s k (builtin .implication) i

/-- What a reduction of the concept `i` by one step may find. -/
def Right (W : Stand s) (i : Nat) (r : RR) : Prop :=
  (∀ j, ReducesTo s i j → ∃ Y why, r = some (Y, why) ∧ TreeIn W j Y) ∧ ((∀ j, ¬ReducesTo s i j) → r = none)

/-- The tree of a stored word. -/
def Spelt (W : Stand s) (i : Nat) (x : Str) (X : Syn) : Prop :=
  PlainWord s i x ∧ ∃ k, X = .leaf (some x) (some (W.ι i)) k ∧ k ≠ .variable

/-- The text `-> y`. -/
def arrowText (y : Str) : Str := str% "->" ++ ' ' :: y

/-- The text `x -> y`. -/
def claimText (x y : Str) : Str := x ++ ' ' :: arrowText y

/-- The text `assoc v`. -/
def assocText (v : Str) : Str := str% "assoc" ++ ' ' :: v

/-- The tree of `-> y`. -/
def ArrowTree (s : Snap) (j : Nat) (y : Str) (T : Syn) : Prop :=
  ∃ O Y f g, Spelt (.rest s) (builtin .reduction) (str% "->") O ∧ Spelt (.rest s) j y Y ∧
    T = .branch (some (arrowText y)) none O Y f g

/-- The tree of `x (-> y)`. -/
def ClaimTree (s : Snap) (i j : Nat) (x y : Str) (T : Syn) : Prop :=
  ∃ X A f g, Spelt (.rest s) i x X ∧ ArrowTree s j y A ∧ T = .branch (some (claimText x y)) none X A f g

/-- The concept after one step, if there is one. -/
def Next (s : Snap) (i i' : Nat) : Prop := ReducesTo s i i' ∨ i' = i ∧ ∀ k, ¬ReducesTo s i k

/-- What a reduction of `-> y` by one step finds. -/
def RightArrow (s : Snap) (j : Nat) (r : RR) : Prop :=
  (∀ j', ReducesTo s j j' → ∃ y T why, r = some (T, why) ∧ ArrowTree s j' y T) ∧ ((∀ j', ¬ReducesTo s j j') → r = none)

/-- The tree of `true` or of `false`. -/
def TruthTree (s : Snap) (b : Bool) (T : Syn) : Prop :=
  Spelt (.rest s) (builtin (if b then .tru else .fls)) (if b then str% "true" else str% "false") T

/-- What a reduction of `x (-> y)` by one step finds. -/
inductive RightClaim (s : Snap) (i j : Nat) : RR → Prop
  | same {T : Syn} {why : Reason} (e : i = j) (h : TruthTree s false T) : RightClaim s i j (some (T, why))
  | leads {T : Syn} {why : Reason} (ne : i ≠ j) (p : Relation.TransGen (ReducesTo s) i j) (h : TruthTree s true T) :
      RightClaim s i j (some (T, why))
  | reverse {T : Syn} {why : Reason} (ne : i ≠ j) (p : Relation.TransGen (ReducesTo s) j i) (h : TruthTree s false T) :
      RightClaim s i j (some (T, why))
  | stuck (ne : i ≠ j) (hi : ∀ k, ¬ReducesTo s i k) (hj : ∀ k, ¬ReducesTo s j k) : RightClaim s i j none
  | moved {T : Syn} {why : Reason} {i' j' : Nat} {x y : Str} (ne : i ≠ j) (p : ¬Relation.TransGen (ReducesTo s) i j)
      (q : ¬Relation.TransGen (ReducesTo s) j i) (m : ∃ k, ReducesTo s i k ∨ ReducesTo s j k) (hi : Next s i i')
      (hj : Next s j j') (h : ClaimTree s i' j' x y T) : RightClaim s i j (some (T, why))

/-- The text `x y`. -/
def coupleText (x y : Str) : Str := x ++ ' ' :: y

/-- The tree of `x y`. -/
def CoupleTree (W : Stand s) (i j : Nat) (x y : Str) (T : Syn) : Prop :=
  ∃ X Y f g, Spelt W i x X ∧ Spelt W j y Y ∧ T = .branch (some (coupleText x y)) none X Y f g

/-- What a reduction of `x y` by one step finds. -/
inductive RightCouple (s : Snap) (i j : Nat) : RR → Prop
  | stuck (hi : ∀ k, ¬ReducesTo s i k) (hj : ∀ k, ¬ReducesTo s j k) : RightCouple s i j none
  | moved {T : Syn} {why : Reason} {i' j' : Nat} {x y : Str} (m : ∃ k, ReducesTo s i k ∨ ReducesTo s j k)
      (hi : Next s i i') (hj : Next s j j') (h : CoupleTree (.rest s) i' j' x y T) : RightCouple s i j (some (T, why))

/-- What may be remembered about a text. -/
inductive Noted (s : Snap) (D : Nat → Prop) : Str → RR → Prop
  | assoc {v : Str} {r : RR} (h : ∀ p, r = some p → p.1.concept = none) : Noted s D (assocText v) r
  | arrow {j : Nat} {y : Str} {r : RR} (hj : D j) (hy : PlainWord s j y) (h : RightArrow s j r) :
      Noted s D (arrowText y) r
  | claim {i j : Nat} {x y : Str} {r : RR} (hi : D i) (hj : D j) (hx : PlainWord s i x) (hy : PlainWord s j y)
      (h : RightClaim s i j r) : Noted s D (claimText x y) r
  | couple {i j : Nat} {x y : Str} {r : RR} (hi : D i) (hj : D j) (hx : PlainWord s i x) (hy : PlainWord s j y)
      (h : RightCouple s i j r) : Noted s D (coupleText x y) r
  | asked {i : Nat} {x : Str} {r : RR} (hi : D i) (hx : PlainWord s i x) (h : (∀ k, ¬ReducesTo s i k) → r = none) :
      Noted s D (coupleText x (str% "->")) r

/-- The remembered reductions of the words, of the built-in concepts and of pairs of them are right. -/
structure Known (W : Stand s) (D : Nat → Prop) (ca : Cache) : Prop where
  right : ∀ f ∈ ca.frames, ∀ i T r, (D i ∨ ∃ t, IsBuiltIn s i t) → Plain (W.ι i) T → f.red.get? T.key = some r →
    Right W i r
  own : ∀ f ∈ ca.frames, ∀ k r, f.red.get? k = some r → ∀ id, k.concept = some id → W.Own id
  pairs : ∀ f ∈ ca.frames, ∀ k r, f.red.get? k = some r → k.concept = none → ∃ u, k.syn = some u ∧ Noted s D u r

theorem SameReds.known {ca ca' : Cache} (h : SameReds ca ca') (hk : Known W D ca) : Known W D ca' := by
  have : ∀ f ∈ ca'.frames, ∃ g ∈ ca.frames, g.red = f.red := by
    intro f hf
    have : f.red ∈ ca'.frames.map Frame.red := List.mem_map_of_mem hf
    rw [h] at this
    exact List.mem_map.1 this
  constructor
  · intro f hf i T r hi hT hr
    obtain ⟨g, hg, e⟩ := this f hf
    exact hk.right g hg i T r hi hT (by rw [e]; exact hr)
  · intro f hf k r hr
    obtain ⟨g, hg, e⟩ := this f hf
    exact hk.own g hg k r (by rw [e]; exact hr)
  · intro f hf k r hr
    obtain ⟨g, hg, e⟩ := this f hf
    exact hk.pairs g hg k r (by rw [e]; exact hr)

theorem Known.empty : Known W D .empty := by
  constructor
  · intro f hf i T r _ _ hr
    simp only [Cache.empty, List.mem_singleton] at hf
    subst hf
    cases hr
  · intro f hf k r hr
    simp only [Cache.empty, List.mem_singleton] at hf
    subst hf
    cases hr
  · intro f hf k r hr
    simp only [Cache.empty, List.mem_singleton] at hf
    subst hf
    cases hr

theorem Kept.empty : Kept W D .empty := by
  refine ⟨?_, ?_⟩
  · intro f hf id t ht
    simp only [Cache.empty, List.mem_singleton] at hf
    subst hf
    cases ht
  · intro i r h
    cases h

theorem Known.insert {ca : Cache} (hn : Known W D ca) {i : Nat} {X : Syn} (pX : Plain (W.ι i) X) {r : RR}
    (ho : W.Own (W.ι i)) (hr : Right W i r) : Known W D (ca.insertReduction X r) := by
  unfold Cache.insertReduction
  generalize (!X.isVariable && _) = b
  cases b with
  | false => exact hn
  | true =>
    rw [if_pos rfl]
    obtain ⟨fs, infs⟩ := ca
    cases fs with
    | nil => exact hn
    | cons f fs =>
      constructor
      · intro g hg i' T r' hi' hT hr'
        rcases List.mem_cons.1 hg with rfl | hg
        · dsimp only at hr'
          rw [AMap.get?_insert] at hr'
          split at hr'
          · next e =>
            have : i = i' := by
              have e2 : X.concept = T.concept := congrArg Key.concept e
              rw [pX.concept, hT.concept] at e2
              exact W.inj _ _ (Option.some.inj e2)
            subst this
            cases hr'
            exact hr
          · exact hn.right f (by simp) i' T r' hi' hT hr'
        · exact hn.right g (by simp [hg]) i' T r' hi' hT hr'
      · intro g hg k r' hr' id hid
        rcases List.mem_cons.1 hg with rfl | hg
        · dsimp only at hr'
          rw [AMap.get?_insert] at hr'
          split at hr'
          · next e =>
            subst e
            have hid : X.concept = some id := hid
            rw [pX.concept] at hid
            cases hid
            exact ho
          · exact hn.own f (by simp) k r' hr' id hid
        · exact hn.own g (by simp [hg]) k r' hr' id hid
      · intro g hg k r' hr' hk
        rcases List.mem_cons.1 hg with rfl | hg
        · dsimp only at hr'
          rw [AMap.get?_insert] at hr'
          split at hr'
          · next e =>
            subst e
            have hk : X.concept = none := hk
            rw [pX.concept] at hk
            cases hk
          · exact hn.pairs f (by simp) k r' hr' hk
        · exact hn.pairs g (by simp [hg]) k r' hr' hk

namespace Search

/-- No reduction of a word is inferred. -/
theorem inferReduction_none (A : Asked s D) {n : Nat} {e : Env} (he : Good W e) {i : Nat} (hi : D i) {m : Mixed}
    (hm : e.view.read (W.ι i) = .ok m) {ca ca' : Cache} {r : RR} (hk : Kept W D ca)
    (h : (search n).inferReduction e m ca = .ok (r, ca')) : r = none ∧ SameReds ca ca' := by
  have L := A.lone
  obtain ⟨c, hc, M⟩ := he.read hm
  have hid : m.id = W.ι i := (he.own L.ids hm).1
  unfold inferReduction at h
  obtain ⟨imp, _, h1, h⟩ := SM.bind_ok.1 h
  obtain ⟨h1', rfl⟩ := SM.lift_ok.1 h1
  have := he.concreteId h1'
  rw [L.imp] at this
  subst this
  dsimp only [Option.map_some] at h
  have hfind : m.findAsHand (W.ι (builtin .implication)) .right = none := by
    rw [M.find]
    cases hf : c.findAsHand (builtin .implication) .right with
    | none => rfl
    | some q =>
      obtain ⟨cq, h1, h2⟩ := (L.rev _ c (builtin .implication) q hc).2 hf
      exact absurd ⟨cq, h1, by rw [composition_eq]; exact h2⟩ (A.unimplied i q hi)
  rw [hfind] at h
  have h : (do
      match (← get).inference? m.id with
      | some r => return r
      | none => do
        let t ← (search n).toAst e m.id
        let r ← (search n).findInferred e t
        modify (fun ca => ca.insertInference m.id r)
        return r : SM RR) ca = .ok (r, ca') := h
  rw [hid] at h
  obtain ⟨ca0, _, h2, h⟩ := SM.bind_ok.1 h
  cases h2
  cases hx : ca.inference? (W.ι i) with
  | some x =>
    rw [hx] at h
    cases h
    exact ⟨(hk.infs _ _ hx).2 i hi rfl, rfl⟩
  | none =>
    rw [hx] at h
    obtain ⟨t, ca1, h3, h⟩ := SM.bind_ok.1 h
    obtain ⟨r1, ca2, h4, h⟩ := SM.bind_ok.1 h
    obtain ⟨_, ca3, h5, h⟩ := SM.bind_ok.1 h
    cases h5
    cases h
    have hS := search_calm (W := W) L n
    obtain ⟨w1, w2, _⟩ := L.words i hi
    have pt : Plain (W.ι i) t := (hS.built _ _ _ _ _ he hk h3).plain w1 w2
    have s1 := toAst_reds he w1 h3
    obtain ⟨hr, s2⟩ := leaves_reds L (fun m _ => search_calm L m) he hi pt _ _ _ (hS.toAst _ _ he _ _ _ hk h3) h4
    exact ⟨hr, s2.trans s1⟩

theorem word_nonvariable (A : Asked s D) {e : Env} (he : Good W e) {i : Nat} (hi : D i) {b : Bool}
    (h : isLeafVariable e (W.ι i) = .ok b) : b = false := by
  simp only [isLeafVariable, isFreeVariable, Except.bind_eq_ok, Except.pure_eq_ok] at h
  obtain ⟨b1, ⟨m, hm, rfl⟩, m', _, rfl⟩ := h
  obtain ⟨c, hc, M⟩ := he.read hm
  have hf : m.isFree = false := by
    rw [M.free]
    cases hx : c.isFree with
    | false => rfl
    | true =>
      refine absurd (.inl ⟨c, hc, ?_⟩) (A.lone.words i hi).2.1
      unfold Concept.isFree at hx
      unfold Concept.isAnonymous
      split at hx <;> simp_all
  simp [hf]

/-- A word is reduced by its stored reduction. -/
theorem reduceConcept_right (A : Asked s D) {n : Nat} {e : Env} (he : Good W e) {i : Nat} (hi : D i)
    {ca ca' : Cache} {r : RR} (hk : Kept W D ca) (h : (search n).reduceConcept e (W.ι i) ca = .ok (r, ca')) :
    Right W i r ∧ SameReds ca ca' := by
  unfold reduceConcept at h
  obtain ⟨m, _, h1, h⟩ := SM.bind_ok.1 h
  obtain ⟨h1', rfl⟩ := SM.lift_ok.1 h1
  obtain ⟨c, hc, M⟩ := he.read h1'
  have red := M.reduction
  have rest : ∀ {ca1 : Cache}, Kept W D ca1 → SameReds ca ca1 → (match m.reduction with
      | none => return none
      | some n' => do
        if ← isLeafVariable e n' then return (e.mask.get n').map (fun s => (s, .explicit))
        else return some (← (search n).toAst e n', .explicit) : SM RR) ca1 = .ok (r, ca') →
      Right W i r ∧ SameReds ca ca' := by
    intro ca1 hk1 s1 h
    rw [red] at h
    cases hr : c.reduction with
    | none =>
      rw [hr] at h
      cases h
      refine ⟨⟨?_, fun _ => rfl⟩, s1⟩
      rintro j ⟨c', hc', hj⟩
      rw [hc] at hc'; cases hc'
      rw [hr] at hj; cases hj
    | some j =>
      rw [hr] at h
      have hj : ReducesTo s i j := ⟨c, hc, hr⟩
      have hdj := A.closed i j hi hj
      obtain ⟨b, _, h2, h⟩ := SM.bind_ok.1 h
      obtain ⟨h2', rfl⟩ := SM.lift_ok.1 h2
      cases word_nonvariable A he hdj h2'
      obtain ⟨Y, ca2, h3, h⟩ := SM.bind_ok.1 h
      cases h
      refine ⟨⟨?_, fun hno => absurd hj (hno j)⟩, ?_⟩
      · rintro j' ⟨c', hc', hj'⟩
        rw [hc] at hc'; cases hc'
        rw [hr] at hj'; cases hj'
        exact ⟨Y, _, rfl, (search_calm (W := W) A.lone n).built _ _ _ _ _ he hk1 h3⟩
      · exact (toAst_reds he (A.lone.words j hdj).1 h3).trans s1
  split at h
  · exact rest hk rfl h
  · obtain ⟨r1, ca1, h2, h⟩ := SM.bind_ok.1 h
    obtain ⟨rfl, s1⟩ := inferReduction_none A he hi h1' hk h2
    exact rest (inferReduction_calm A.lone (search_calm (W := W) A.lone n) (unruled A.lone fun m _ => search_calm A.lone m)
      _ he _ h1' _ _ _ hk h2) s1 h

/-- One step of the reduction of a word. -/
theorem reduce_right (A : Asked s D) {n : Nat} {e : Env} (he : Good W e) {i : Nat} (hi : D i) {X : Syn}
    (pX : Plain (W.ι i) X) {ca ca' : Cache} {r : RR} (hk : Kept W D ca) (hn : Known W D ca)
    (h : (search n).reduce e X ca = .ok (r, ca')) : Right W i r ∧ Known W D ca' := by
  cases n with
  | zero => cases h
  | succ n =>
    have h : (search n).reduceF e X ca = .ok (r, ca') := h
    unfold reduceF at h
    obtain ⟨ca0, _, h0, h⟩ := SM.bind_ok.1 h
    cases h0
    have found : ∀ fs : List Frame, (∀ f ∈ fs, f ∈ ca.frames) → ∀ x, Cache.lookupIn X.key fs = some x → Right W i x := by
      intro fs
      induction fs with
      | nil => intro _ x hx; cases hx
      | cons f fs ih =>
        intro hfs x hx
        unfold Cache.lookupIn at hx
        cases hf : f.red.get? X.key with
        | some y =>
          rw [hf] at hx
          cases hx
          exact hn.right f (hfs f (by simp)) i X _ (.inl hi) pX hf
        | none =>
          rw [hf] at hx
          exact ih (fun g hg => hfs g (by simp [hg])) x hx
    cases hx : ca.reduction? X with
    | some x =>
      rw [hx] at h
      cases h
      exact ⟨found _ (fun _ h => h) _ hx, hn⟩
    | none =>
      rw [hx] at h
      obtain ⟨o, _, h1, h⟩ := SM.bind_ok.1 h
      obtain ⟨h1', rfl⟩ := SM.lift_ok.1 h1
      cases o with
      | some q =>
        cases h
        refine ⟨⟨?_, fun _ => rfl⟩, hn⟩
        rintro j ⟨c, hc, hj⟩
        exfalso
        simp only [cctOfAst, pX.concept, View.cct, Except.bind_eq_ok, Except.pure_eq_ok] at h1'
        obtain ⟨m, hm, hq⟩ := h1'
        obtain ⟨c', hc', M⟩ := he.read hm
        rw [hc] at hc'; cases hc'
        rw [M.cct] at hq
        unfold Concept.cct at hq
        unfold Concept.reduction at hj
        split at hq <;> simp_all
      | none =>
        obtain ⟨r1, ca1, h2, h⟩ := SM.bind_ok.1 h
        obtain ⟨_, ca2, h3, h⟩ := SM.bind_ok.1 h
        cases h3
        cases h
        have hnow : Right W i r ∧ SameReds ca ca1 := by
          unfold reduceNow at h2
          rw [pX.concept] at h2
          obtain ⟨x, ca2, h3, h4⟩ := SM.bind_ok.1 h2
          obtain ⟨hx', s1⟩ := reduceConcept_right A he hi hk h3
          cases x with
          | some x => cases h4; exact ⟨hx', s1⟩
          | none =>
            obtain ⟨u, kd, rfl, _⟩ := pX
            cases h4
            exact ⟨hx', s1⟩
        refine ⟨hnow.1, ?_⟩
        refine (hnow.2.known hn).insert pX ?_ hnow.1
        simp only [cctOfAst, pX.concept, View.cct, Except.bind_eq_ok] at h1'
        obtain ⟨m, hm, _⟩ := h1'
        exact (he.own A.lone.ids hm).2

/-- What repeated reduction of a word ends with. -/
theorem recReduce_right (A : Asked s D) {n : Nat} {e : Env} (he : Good W e) {i : Nat} (hi : D i) {X : Syn}
    (pX : Plain (W.ι i) X) {ca ca' : Cache} {why why' : Option Reason} {nf : Syn} (hk : Kept W D ca)
    (hn : Known W D ca) (h : (search n).recReduce e X why ca = .ok ((nf, why'), ca')) :
    Kept W D ca' ∧ Known W D ca' ∧ ∃ j, D j ∧ Relation.ReflTransGen (ReducesTo s) i j ∧ (∀ k, ¬ReducesTo s j k) ∧
      ((i = j ∧ nf = X) ∨ ((∃ k, ReducesTo s i k) ∧ TreeIn W j nf)) := by
  induction n generalizing i X ca why with
  | zero => cases h
  | succ n ih =>
    have h : (search n).recReduceF e X why ca = .ok ((nf, why'), ca') := h
    unfold recReduceF at h
    obtain ⟨r, ca1, h1, h⟩ := SM.bind_ok.1 h
    obtain ⟨hr, hn1⟩ := reduce_right A he hi pX hk hn h1
    have hk1 := (search_calm (W := W) A.lone n).reduce _ _ he _ _ _ hk h1
    cases r with
    | none =>
      cases h
      refine ⟨hk1, hn1, i, hi, .refl, ?_, .inl ⟨rfl, rfl⟩⟩
      intro k hik
      obtain ⟨Y, why, e, _⟩ := hr.1 k hik
      cases e
    | some p =>
      obtain ⟨Y, why1⟩ := p
      by_cases hj : ∃ j, ReducesTo s i j
      · obtain ⟨j, hj⟩ := hj
        obtain ⟨_, _, e, hY⟩ := hr.1 j hj
        cases e
        have hdj := A.closed i j hi hj
        obtain ⟨w1, w2, _⟩ := A.lone.words j hdj
        obtain ⟨hk2, hn2, z, hz, hjz, hirr, hnf⟩ := ih hdj (hY.plain w1 w2) hk1 hn1 h
        refine ⟨hk2, hn2, z, hz, .head hj hjz, hirr, .inr ⟨⟨j, hj⟩, ?_⟩⟩
        rcases hnf with ⟨rfl, rfl⟩ | ⟨_, h⟩
        exacts [hY, h]
      · have := hr.2 fun j hij => hj ⟨j, hij⟩
        cases this

end Search

/-- The text of a tree of a word is its name. -/
theorem TreeIn.named {i : Nat} {t : Str} {X : Syn} (h : TreeIn W i X) (hw : PlainWord s i t)
    (hv : ¬MayVary s i) : ∃ k, X = .leaf (some t) (some (W.ι i)) k ∧ k ≠ .variable := by
  cases h with
  | free h => exact absurd h.1 hv
  | leaf h hn => cases hn t hw; exact ⟨_, rfl, fun e => hv (h e).1⟩
  | pair h _ _ => exact absurd h (hw.simple _ _)

/-- The contexts in which a word is asked about. -/
structure Asking (W : Stand s) (D : Nat → Prop) (c : Ctx) : Prop where
  snap : c.snap = W.snap
  delta : c.delta = W.pend
  bound : c.bound = []
  kept : Kept W D c.cache
  known : Known W D c.cache

theorem Asking.good {c : Ctx} (h : Asking W D c) : Good W (env c) := by
  refine ⟨h.snap, ?_, ?_, h.bound⟩
  · show Ext W.pend c.delta
    rw [h.delta]
    exact .here
  · intro k t ht
    cases ht

/-- The answer to a question about a word: the name of what it reduces to in the end. -/
def Normal (s : Snap) (i : Nat) (t : Str) : Prop :=
  ∃ j, Relation.ReflTransGen (ReducesTo s) i j ∧ (∀ k, ¬ReducesTo s j k) ∧ PlainWord s j t

namespace Context

/-- How asking about a word ends. -/
theorem ask_ends (A : Asked s D) {n : Nat} : ∀ k, (∀ {i : Nat} {X : Syn} {c : Ctx}, D i → TreeIn W i X → Asking W D c →
      Ends (call n k X) c (fun r c' => Asking W D c' ∧ ∃ t, r = .ok t ∧ Normal s i t)) ∧
    ∀ {i : Nat} {X : Syn} {c : Ctx}, D i → TreeIn W i X → Asking W D c →
      Ends (tryReducing n k X) c (fun r c' => Asking W D c' ∧
        (((∀ j, ¬ReducesTo s i j) ∧ r = .error .cannotReduceFurther) ∨
          ((∃ j, ReducesTo s i j) ∧ ∃ t, r = .ok t ∧ Normal s i t))) := by
  intro k
  induction k with
  | zero =>
    constructor
    · intro i X c _ _ _; unfold call; exact Ends.fault
    · intro i X c _ _ _; unfold tryReducing; exact Ends.fault
  | succ k ih =>
    constructor
    · intro i X c hi hX hc
      obtain ⟨t, hw⟩ := A.word i hi
      obtain ⟨w1, w2, _⟩ := A.lone.words i hi
      obtain ⟨kd, rfl, hkd⟩ := hX.named hw w2
      unfold call
      unfold stringOf
      dsimp only [Syn.concept, Syn.expansion]
      refine Ends.bind (Ends.bind (Ends.reading fun m hm => ?_))
      obtain ⟨cw, hcw, M⟩ := hc.good.read hm
      refine Ends.pure ?_
      have hstr : m.string = none := by
        rw [M.string]
        cases hx : cw.string with
        | none => rfl
        | some u => exact absurd ⟨cw, hcw, hx⟩ (hw.nostring u)
      show Ends (match m.string with | some s => _ | none => _) _ _
      rw [hstr]
      refine Ends.tryCatch ((ih.2 hi hX hc).mono ?_)
      rintro r c' ⟨hc', ⟨hirr, rfl⟩ | ⟨_, t', rfl, hnf⟩⟩
      · show Ends (if _ then _ else _) _ _
        rw [if_pos rfl]
        refine Ends.ofE fun a ha => ?_
        cases ha
        exact ⟨hc', _, rfl, i, .refl, hirr, hw⟩
      · exact ⟨hc', t', rfl, hnf⟩
    · intro i X c hi hX hc
      obtain ⟨w1, w2, _⟩ := A.lone.words i hi
      have pX := hX.plain w1 w2
      unfold tryReducing
      refine Ends.bind (Ends.searching fun p ca h => ?_)
      obtain ⟨nf, why⟩ := p
      obtain ⟨k1, n1, j, hj, hij, hirr, hnf⟩ := Search.recReduce_right A hc.good hi pX hc.kept hc.known h
      have hc1 : Asking W D { c with cache := ca } := ⟨hc.snap, hc.delta, hc.bound, k1, n1⟩
      have hY : TreeIn W j nf := by
        rcases hnf with ⟨rfl, rfl⟩ | ⟨_, h⟩
        exacts [hX, h]
      obtain ⟨v1, v2, _⟩ := A.lone.words j hj
      have pY := hY.plain v1 v2
      show Ends (if nf.key = X.key then _ else _) _ _
      split
      · next e =>
        have : j = i := by
          have e2 : nf.concept = X.concept := congrArg Key.concept e
          rw [pX.concept, pY.concept] at e2
          exact W.inj _ _ (Option.some.inj e2)
        subst this
        refine Ends.bind (Ends.searching fun r ca2 h2 => ?_)
        have hcalm : Kept W D ca2 := Search.findInferred_calm (search_calm (W := W) A.lone n) _ hc1.good _ _ _ _ hc1.kept h2
        obtain ⟨rfl, s2⟩ := leaves_reds A.lone (fun m _ => search_calm A.lone m) hc1.good hi pX _ _ _ hc1.kept h2
        show Ends (MonadExcept.throw _) _ _
        exact Ends.throw ⟨⟨hc.snap, hc.delta, hc.bound, hcalm, s2.known n1⟩, .inl ⟨hirr, rfl⟩⟩
      · next e =>
        have hi' : ∃ k, ReducesTo s i k := by
          rcases hnf with ⟨rfl, rfl⟩ | ⟨h, _⟩
          · exact absurd rfl e
          · exact h
        unfold pinning
        refine Ends.bind (Ends.get ?_)
        refine Ends.bind (Ends.modify ?_)
        refine Ends.bind (Ends.tryCatch (Ends.bind ((ih.1 hj hY (c := { c with cache := ca, pinned := true })
          ⟨hc.snap, hc.delta, hc.bound, k1, n1⟩).mono ?_)))
        rintro _ c' ⟨hc', t, rfl, z, hz, hz', hzw⟩
        show Ends _ _ _
        refine Ends.pure ?_
        refine Ends.bind (Ends.modify ?_)
        refine Ends.ofR ⟨⟨hc'.snap, hc'.delta, hc'.bound, hc'.kept, hc'.known⟩, .inr ⟨hi', t, rfl, z, hij.trans hz, hz', hzw⟩⟩

end Context

theorem lex_word {x : Str} (hx : IsSymbol x) {kind : Str → Except Fault Kind} {ls : List Lexeme}
    (h : lex kind x = .ok ls) : ∃ k, ls = [⟨x, .concept k⟩] ∧ kind x = .ok k := by
  obtain ⟨stack, I⟩ := lex_inv h
  have hs := canonical_unique _ _ I.canonical (show Canonical [(.symbol, x)] from hx) (by
    have := I.text
    simp only [textOf, segments, List.map_map]
    rw [show ((fun x : Cls × Str => x.2) ∘ fun l : Lexeme => (clsOf l.category, l.text)) = (·.text) from rfl, this]
    simp)
  simp only [segments, List.map_eq_cons_iff, List.map_eq_nil_iff, Prod.mk.injEq] at hs
  obtain ⟨⟨t1, k1⟩, _, rfl, ⟨c1, rfl⟩, rfl⟩ := hs
  have hw := fun l hl => (I.wf l hl).2
  clear I h
  obtain ⟨k1, rfl⟩ : ∃ k, k1 = .concept k := by cases k1 <;> simp_all [clsOf]
  exact ⟨k1, rfl, hw ⟨t1, .concept k1⟩ (by simp) _ rfl⟩

/-- How reading a word ends. -/
theorem parse_word {n : Nat} {x : Str} (hx : IsSymbol x) (vx : Syn.isVariableName x = false) {c : Ctx} {i : CId}
    (hi : (View.mk c.snap c.delta).conceptFromLabel n x = .ok (some i)) :
    Ends (Parser.astFromExpression n x) c (fun r c' => c' = c ∧ ∃ X, Plain i X ∧ r = .ok X) := by
  unfold Parser.astFromExpression
  refine Ends.bind (Ends.reading fun ls hls => ?_)
  obtain ⟨k, rfl, h1⟩ := lex_word hx hls
  obtain ⟨X, pX, eX⟩ := leafOf_known hx vx hi h1
  have e : ((fun ls => do
      let t ← ofR (nest ls)
      let ts ← Parser.syntaxList n t
      Parser.astFromList n ts.length ts : List Lexeme → CM Syn) [⟨x, .concept k⟩]) = (do
      let ts ← (do
        let l ← leafOf n x k
        return [l])
      Parser.astFromList n ts.length ts) := rfl
  show Ends ((fun ls => do
      let t ← ofR (nest ls)
      let ts ← Parser.syntaxList n t
      Parser.astFromList n ts.length ts : List Lexeme → CM Syn) _) _ _
  rw [e, eX]
  exact Ends.pure ⟨rfl, X, pX, rfl⟩

/-- Expanding a concept without definition gives its tree. -/
theorem Search.expand_simple (A : Asked s D) {n : Nat} {e : Env} (he : Good W e) {i : Nat}
    (w1 : ∀ l r, ¬ComposedOf s i l r) {X T : Syn}
    (pX : Plain (W.ι i) X) {ca ca' : Cache} (hk : Kept W D ca) (hn : Known W D ca)
    (h : (search n).expand e X ca = .ok (T, ca')) : TreeIn W i T ∧ Kept W D ca' ∧ Known W D ca' := by
  cases n with
  | zero => cases h
  | succ n =>
    have h : (search n).expandF e X ca = .ok (T, ca') := h
    unfold expandF at h
    rw [pX.concept] at h
    obtain ⟨m, _, h1, h⟩ := SM.bind_ok.1 h
    obtain ⟨h1', rfl⟩ := SM.lift_ok.1 h1
    obtain ⟨c, hc, M⟩ := he.read h1'
    have hcomp : m.composition = none := by
      cases hx : m.composition with
      | none => rfl
      | some p =>
        obtain ⟨l', r', _, _, hp⟩ := M.composition_inv (l := p.1) (r := p.2) hx
        exact absurd ⟨c, hc, hp⟩ (w1 l' r')
    rw [hcomp] at h
    have hS := search_calm (W := W) A.lone n
    exact ⟨hS.built _ _ _ _ _ he hk h, hS.toAst _ _ he _ _ _ hk h, (toAst_reds he w1 h).known hn⟩

/-- Expanding a word gives its tree. -/
theorem Search.expand_word (A : Asked s D) {n : Nat} {e : Env} (he : Good W e) {i : Nat} (hi : D i) {X T : Syn}
    (pX : Plain (W.ι i) X) {ca ca' : Cache} (hk : Kept W D ca) (hn : Known W D ca)
    (h : (search n).expand e X ca = .ok (T, ca')) : TreeIn W i T ∧ Kept W D ca' ∧ Known W D ca' :=
  Search.expand_simple A he (A.lone.words i hi).1 pX hk hn h

/-- How the command that consists of a word ends, after the word was read. -/
theorem ask_read (A : Asked s D) {n : Nat} {x : Str} {c : Ctx} {i : Nat} (hd : D i)
    (hp : Ends (Parser.astFromExpression n x) c (fun r c' => Asking W D c' ∧ ∃ X, Plain (W.ι i) X ∧ r = .ok X)) :
    Ends (Context.command n x) c (fun r c' => Asking W D c' ∧ ∃ t, r = .ok t ∧ Normal s i t) := by
  unfold Context.command
  refine Ends.bind (hp.mono ?_)
  rintro _ c2 ⟨hc, X, pX, rfl⟩
  show Ends _ _ _
  refine Ends.bind (Ends.searching fun T ca hT => ?_)
  obtain ⟨tT, k1, n1⟩ := Search.expand_word A hc.good hd pX hc.kept hc.known hT
  obtain ⟨w1, w2, _⟩ := A.lone.words i hd
  show Ends _ _ _
  rw [createVariables_plain (tT.plain w1 w2)]
  refine Ends.bind (Ends.tryCatch (Ends.pure ?_))
  show Ends _ _ _
  exact (Context.ask_ends A n).1 hd tT ⟨hc.snap, hc.delta, hc.bound, k1, n1⟩

/-- How the command that consists of a word ends. -/
theorem ask_word (A : Asked s D) {n : Nat} {x : Str} (hx : IsSymbol x) (vx : Syn.isVariableName x = false) {c : Ctx}
    (hc : Asking W D c) {i : Nat} (hd : D i)
    (hi : (View.mk c.snap c.delta).conceptFromLabel n x = .ok (some (W.ι i))) :
    Ends (Context.command n x) c (fun r c' => Asking W D c' ∧ ∃ t, r = .ok t ∧ Normal s i t) :=
  ask_read A hd ((parse_word hx vx hi).mono fun _ _ ⟨e, h⟩ => ⟨e ▸ hc, h⟩)

/-- What asking about a word answers and leaves. -/
theorem ask_execute (A : Asked s D) (hp : s.prev = []) {n : Nat} {x r : Str} (hx : IsSymbol x)
    (vx : Syn.isVariableName x = false) {c c' : Ctx} (hc : Asking (.rest s) D c) {i : Nat} (hd : D i)
    (hi : (View.mk s Nested.default).conceptFromLabel n x = .ok (some (.com i)))
    (he : Context.execute n c x = .ok (r, c')) : Asking (.rest s) D c' ∧ Normal s i r := by
  have hl' : (View.mk c.snap c.delta).conceptFromLabel n x = .ok (some (.com i)) := by
    rw [hc.snap, hc.delta]; exact hi
  simp only [Context.execute, Context.commit, Except.bind_eq_ok, Except.pure_eq_ok] at he
  obtain ⟨⟨q, c3⟩, h4, c4, ⟨s4, h5, rfl⟩, h6⟩ := he
  obtain ⟨a, t, rfl, ht⟩ := ask_word A hx vx hc hd hl' q c3 h4
  cases h6
  rw [a.snap, a.delta] at h5
  have := apply_nothing hp h5
  subst this
  exact ⟨⟨rfl, rfl, rfl, a.kept, a.known⟩, ht⟩

/-- What asking about words, one after the other, answers. -/
theorem ask_words (A : Asked s D) (hp : s.prev = []) {n : Nat} {xs outs : List Str} {c c' : Ctx} (hc : Asking (.rest s) D c)
    (hx : ∀ x ∈ xs, IsSymbol x ∧ Syn.isVariableName x = false ∧ ∃ i, D i ∧
      (View.mk s Nested.default).conceptFromLabel n x = .ok (some (.com i)))
    (he : Context.run n c xs = .ok (outs, c')) :
    c'.snap = s ∧ List.Forall₂ (fun x t => ∃ i,
      (View.mk s Nested.default).conceptFromLabel n x = .ok (some (.com i)) ∧ Normal s i t) xs outs := by
  induction xs generalizing c outs with
  | nil => cases he; exact ⟨hc.snap, .nil⟩
  | cons x xs ih =>
    simp only [Context.run, Except.bind_eq_ok] at he
    obtain ⟨⟨r, c1⟩, h1, ⟨rs, c2⟩, h2, h3⟩ := he
    cases h3
    obtain ⟨hsym, hv, i, hi, hl⟩ := hx x (by simp)
    have hx1 := ask_execute A hp hsym hv hc hi hl h1
    obtain ⟨e, hall⟩ := ih hx1.1 (fun y hy => hx y (by simp [hy])) h2
    exact ⟨e, .cons ⟨i, hl, hx1.2⟩ hall⟩

end Zia

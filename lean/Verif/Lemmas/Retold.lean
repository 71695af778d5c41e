import Verif.Lemmas.Lost
import Verif.Lemmas.Wide
import Verif.Props.Order

/-!
# Telling about known words

How `let (x (-> y))` ends when both words are known: what is answered, and that the conditions under which a word is
answered with what it reduces to are kept when it is rejected.
-/

namespace Zia

open CM Spec Relation

set_option linter.unusedSectionVars false

variable [HashOrder] {s : Snap} {W : Stand s} {D : Nat → Prop}

/-- No key is recorded twice in the hash maps of a concept. -/
def Mapped (c : Con) : Prop := c.leftOf.WF ∧ c.rightOf.WF

/-- No key is recorded twice. -/
def Maps (cs : List Con) : Prop := ∀ (i : Nat) (c : Con), cs[i]? = some c → Mapped c

theorem Maps.set {cs : List Con} (h : Maps cs) {i : Nat} {c : Con} (h1 : Mapped c) : Maps (cs.set i c) := by
  intro j d hj
  rw [List.getElem?_set] at hj
  split at hj
  · split at hj
    · cases hj; exact h1
    · cases hj
  · exact h j d hj

theorem Maps.snoc {cs : List Con} (h : Maps cs) {c : Con} (h1 : Mapped c) : Maps (cs ++ [c]) := by
  intro j d hj
  rw [List.getElem?_append] at hj
  split at hj
  · exact h j d hj
  · rw [List.getElem?_singleton] at hj
    split at hj
    · cases hj; exact h1
    · cases hj

theorem Step.maps {s s' : Snap} {p : CId × Direct CId} (h : Maps s.concepts) (st : Step s p s') : Maps s'.concepts := by
  have g : ∀ {i : Nat} {c : Con}, s.concepts[i]? = some c → Mapped c := fun hc => h _ _ hc
  have one : ∀ a b : Nat, AMap.WF [(a, b)] := fun a b => by simp [AMap.WF]
  have reg : ∀ (s : Snap) (k : Nat) (t : Option CCT), (s.registerConcrete k t).concepts = s.concepts := by
    intro s k t; cases t <;> rfl
  have al : ∀ {c : Con} (k v), Mapped c → Mapped (c.addLeft k v) := fun k v h => ⟨h.1.insert k v, h.2⟩
  have ar : ∀ {c : Con} (k v), Mapped c → Mapped (c.addRight k v) := fun k v h => ⟨h.1, h.2.insert k v⟩
  have dl : ∀ {c : Con} (k), Mapped c → Mapped (c.dropLeft k) := fun k h => ⟨h.1.erase k, h.2⟩
  have dr : ∀ {c : Con} (k), Mapped c → Mapped (c.dropRight k) := fun k h => ⟨h.1, h.2.erase k⟩
  have sp : ∀ {c : Con} (k), Mapped c → Mapped (c.withSpec k) := fun k h => h
  have af : ∀ {c : Con} (k), Mapped c → Mapped (c.addFrom k) := fun k h => h
  have df : ∀ {c : Con} (k), Mapped c → Mapped (c.dropFrom k) := fun k h => h
  cases st <;> (try rw [reg]) <;>
    repeat' first
      | exact h
      | refine Maps.set ?_ ?_
      | refine Maps.snoc ?_ ?_
      | exact ⟨.nil, .nil⟩
      | exact ⟨one _ _, .nil⟩
      | exact ⟨.nil, one _ _⟩
      | exact ⟨one _ _, one _ _⟩
      | exact al _ _ (g (by assumption))
      | exact ar _ _ (g (by assumption))
      | exact dl _ (g (by assumption))
      | exact dr _ (g (by assumption))
      | exact sp _ (g (by assumption))
      | exact af _ (g (by assumption))
      | exact df _ (g (by assumption))
      | exact h

theorem History.maps {Q : Snap → CId × Direct CId → Prop} {c : Ctx} (h : History Q c) : Maps c.snap.concepts := by
  refine History.invariant (R := fun s => Maps s.concepts) ?_ (fun _ _ _ _ h _ st => st.maps h) (fun _ _ _ h => h) h
  have : boot0.snap.concepts.all (fun c => decide (c.leftOf.map Prod.fst).Nodup && decide (c.rightOf.map Prod.fst).Nodup) := by
    decide +kernel
  intro i c hc
  have := List.all_eq_true.1 this c (List.mem_of_getElem? hc)
  simpa [Mapped, AMap.WF] using this

/-- What is needed of the compositions of `assoc`, of `->` and of the words. -/
structure Ties (s : Snap) (D : Nat → Prop) : Prop where
  maps : Maps s.concepts
  assoc : byRight s.concrete .associativity = some (builtin .associativity)
  built : ∀ t, IsBuiltIn s (builtin t) t
  constant : ¬MayVary s (builtin .associativity)
  label : ¬MayVary s (builtin .label)
  left : ∀ k r, ¬ComposedOf s k (builtin .associativity) r
  right : ∀ w, D w ∨ w = builtin .reduction → ∀ k l, ComposedOf s k l w → l = builtin .label
  concrete : ∀ t, byRight s.concrete t = some (builtin t)
  wide : Wide s
  tidy : Tidy s D
  foreign : ∀ i t, D i → ¬IsBuiltIn s i t
  listed : ∀ d q, ListsReduced s d q → ReducesTo s q d

theorem built_simple {i : Nat} {t : CCT} (h : IsBuiltIn s i t) : ∀ l r, ¬ComposedOf s i l r := by
  obtain ⟨c, hc, ht⟩ := h
  rintro l r ⟨c', hc', hp⟩
  rw [hc] at hc'; cases hc'
  unfold Concept.cct at ht
  rw [composition_eq] at hp
  cases hs : c.spec <;> simp_all [pairOf]

theorem built_irreducible {i : Nat} {t : CCT} (h : IsBuiltIn s i t) : ∀ j, ¬ReducesTo s i j := by
  obtain ⟨c, hc, ht⟩ := h
  rintro j ⟨c', hc', hp⟩
  rw [hc] at hc'; cases hc'
  unfold Concept.cct at ht
  unfold Concept.reduction at hp
  cases hs : c.spec <;> simp_all

theorem Known.insert_other {ca : Cache} (hn : Known W D ca) {X : Syn} (hX : X.concept = none) {u : Str}
    (hu : X.syntx = some u) {r : RR} (hr : Noted s D u r) : Known W D (ca.insertReduction X r) := by
  unfold Cache.insertReduction
  generalize (!X.isVariable && _) = b
  cases b with
  | false => exact hn
  | true =>
    rw [if_pos rfl]
    obtain ⟨fs, infs⟩ := ca
    cases fs with
    | nil => exact hn
    | cons f fs =>
      constructor
      · intro g hg i' T r' hi' hT hr'
        rcases List.mem_cons.1 hg with rfl | hg
        · dsimp only at hr'
          rw [AMap.get?_insert] at hr'
          split at hr'
          · next e =>
            have e2 : X.concept = T.concept := congrArg Key.concept e
            rw [hX, hT.concept] at e2
            cases e2
          · exact hn.right f (by simp) i' T r' hi' hT hr'
        · exact hn.right g (by simp [hg]) i' T r' hi' hT hr'
      · intro g hg k r' hr' id hid
        rcases List.mem_cons.1 hg with rfl | hg
        · dsimp only at hr'
          rw [AMap.get?_insert] at hr'
          split at hr'
          · next e =>
            subst e
            have hid : X.concept = some id := hid
            rw [hX] at hid
            cases hid
          · exact hn.own f (by simp) k r' hr' id hid
        · exact hn.own g (by simp [hg]) k r' hr' id hid
      · intro g hg k r' hr' hk
        rcases List.mem_cons.1 hg with rfl | hg
        · dsimp only at hr'
          rw [AMap.get?_insert] at hr'
          split at hr'
          · next e =>
            subst e
            cases hr'
            exact ⟨u, hu, hr⟩
          · exact hn.pairs f (by simp) k r' hr' hk
        · exact hn.pairs g (by simp [hg]) k r' hr' hk

/-- What is remembered of a concept is right. -/
theorem Known.found {ca : Cache} (hn : Known W D ca) {i : Nat} (hi : D i ∨ ∃ t, IsBuiltIn s i t) {X : Syn}
    (pX : Plain (W.ι i) X) {x : RR} (hx : ca.reduction? X = some x) : Right W i x := by
  have : ∀ fs : List Frame, (∀ f ∈ fs, f ∈ ca.frames) → ∀ x, Cache.lookupIn X.key fs = some x → Right W i x := by
    intro fs
    induction fs with
    | nil => intro _ x hx; cases hx
    | cons f fs ih =>
      intro hfs x hx
      unfold Cache.lookupIn at hx
      cases hf : f.red.get? X.key with
      | some y =>
        rw [hf] at hx
        cases hx
        exact hn.right f (hfs f (by simp)) i X _ hi pX hf
      | none =>
        rw [hf] at hx
        exact ih (fun g hg => hfs g (by simp [hg])) x hx
  exact this _ (fun _ h => h) _ hx

namespace Search

/-- A built-in concept does not reduce. -/
theorem reduce_built {n : Nat} {e : Env} (he : Good W e) {i : Nat} {t : CCT} (hi : IsBuiltIn s i t) {X : Syn}
    (pX : Plain (W.ι i) X) {ca ca' : Cache} {r : RR} (hn : Known W D ca)
    (h : (search n).reduce e X ca = .ok (r, ca')) : r = none ∧ ca' = ca := by
  cases n with
  | zero => cases h
  | succ n =>
    have h : (search n).reduceF e X ca = .ok (r, ca') := h
    unfold reduceF at h
    obtain ⟨ca0, _, h0, h⟩ := SM.bind_ok.1 h
    cases h0
    cases hx : ca.reduction? X with
    | some x =>
      rw [hx] at h
      cases h
      exact ⟨(hn.found (.inr ⟨t, hi⟩) pX hx).2 (built_irreducible hi), rfl⟩
    | none =>
      rw [hx] at h
      obtain ⟨o, _, h1, h⟩ := SM.bind_ok.1 h
      obtain ⟨h1', rfl⟩ := SM.lift_ok.1 h1
      simp only [cctOfAst, pX.concept, View.cct, Except.bind_eq_ok, Except.pure_eq_ok] at h1'
      obtain ⟨m, hm, rfl⟩ := h1'
      obtain ⟨c', hc', M⟩ := he.read hm
      obtain ⟨c, hc, ht⟩ := hi
      rw [hc] at hc'; cases hc'
      rw [M.cct, ht] at h
      cases h
      exact ⟨rfl, rfl⟩

/-- A concept that may not vary is no free variable. -/
theorem free_of {e : Env} (he : Good W e) {i : Nat} (hi : ¬MayVary s i) {b : Bool}
    (h : isFreeVariable e (W.ι i) = .ok b) : b = false := by
  simp only [isFreeVariable, Except.bind_eq_ok, Except.pure_eq_ok] at h
  obtain ⟨m, hm, rfl⟩ := h
  obtain ⟨c, hc, M⟩ := he.read hm
  have hf : m.isFree = false := by
    rw [M.free]
    cases hx : c.isFree with
    | false => rfl
    | true =>
      refine absurd (.inl ⟨c, hc, ?_⟩) hi
      unfold Concept.isFree at hx
      unfold Concept.isAnonymous
      split at hx <;> simp_all
  simp [hf]

/-- A composition of concepts that do not vary matches only itself. -/
theorem checkGeneralisation_fixed {e : Env} (he : Good W e) {q a w : Nat} (hq : ComposedOf s q a w)
    (ha : ¬MayVary s a) (hw : ¬MayVary s w) {l r : Syn} (hl : l.concept ≠ some (W.ι a)) {x f g}
    {o : Option Mask} (h : checkGeneralisation e (.branch x none l r f g) (W.ι q) = .ok o) : o = none := by
  obtain ⟨c, hc, hp⟩ := hq
  simp only [checkGeneralisation, Except.bind_eq_ok] at h
  obtain ⟨b, _, h⟩ := h
  cases b with
  | false => cases h; rfl
  | true =>
    simp only [if_true, Except.bind_eq_ok] at h
    obtain ⟨m, hm, h⟩ := h
    obtain ⟨c', hc', M⟩ := he.read hm
    rw [hc] at hc'; cases hc'
    have : m.composition = some (W.ι a, W.ι w) := by
      rw [M.composition, hp]; rfl
    rw [this] at h
    simp only [Except.bind_eq_ok] at h
    obtain ⟨b1, h1, b2, h2, h⟩ := h
    cases free_of he ha h1
    cases free_of he hw h2
    dsimp only at h
    rw [if_neg (fun h => hl h.1)] at h
    cases h
    rfl

theorem genLoop_none {n : Nat} {e : Env} {t : Syn} {red : AMap Key RR} {gs : List CId}
    (hg : ∀ g ∈ gs, ∀ o, checkGeneralisation e t g = .ok o → o = none) {ca ca' : Cache} {r : RR}
    (h : (search n).genLoop e t red gs ca = .ok (r, ca')) : r = none ∧ ca' = ca := by
  induction gs with
  | nil => cases h; exact ⟨rfl, rfl⟩
  | cons g gs ih =>
    unfold genLoop at h
    obtain ⟨o, _, h1, h⟩ := SM.bind_ok.1 h
    obtain ⟨h1', rfl⟩ := SM.lift_ok.1 h1
    cases hg g (by simp) o h1'
    exact ih (fun g' hg' => hg g' (by simp [hg'])) h

/-- The compositions that the pair of two words is compared with. -/
theorem findGeneralisations_words {e : Env} (he : Good W e) (L : Lone s D) (T : Ties s D) {a w : Nat} {l r : Syn} (pl : Plain (W.ι a) l)
    (pr : Plain (W.ι w) r) {x c f g} {gs : List CId}
    (h : findGeneralisations e.view (.branch x c l r f g) = .ok gs) :
    ∀ k ∈ gs, ∃ q, k = W.ι q ∧ ((∃ z, ComposedOf s q a z) ∨ ∃ z, ComposedOf s q z w) := by
  obtain ⟨u, kd, rfl, _⟩ := pl
  obtain ⟨u', kd', rfl, _⟩ := pr
  simp only [findGeneralisations, Except.bind_eq_ok] at h
  obtain ⟨g1, h1, g2, h2, _, ⟨⟩, g3, h3, _, ⟨⟩, h4⟩ := h
  simp only [HashOrder.order_nil, compositionsOf] at h3 h4
  cases h3
  cases h4
  intro k hk
  rcases ((Props.compositionsOf_members h2).2 k).1 hk with hk | ⟨_, hm, m, hr, p, hp, rfl⟩
  · rcases ((Props.compositionsOf_members h1).2 k).1 hk with hk | ⟨_, hm, m, hr, p, hp, rfl⟩
    · cases hk
    · simp only [Syn.concept, Option.toList_some, List.mem_singleton] at hm
      subst hm
      obtain ⟨c, hc, M⟩ := he.read hr
      obtain ⟨y, q, rfl, hy⟩ := M.hands _ _ hp
      have hg := AMap.get?_of_mem _ (T.maps _ c hc).1 _ _ hy
      obtain ⟨cq, h1, h2⟩ := (L.rev _ c y q hc).1 hg
      exact ⟨q, rfl, .inl ⟨y, cq, h1, by rw [composition_eq]; exact h2⟩⟩
  · simp only [Syn.concept, Option.toList_some, List.mem_singleton] at hm
    subst hm
    obtain ⟨c, hc, M⟩ := he.read hr
    obtain ⟨y, q, rfl, hy⟩ := M.hands _ _ hp
    have hg := AMap.get?_of_mem _ (T.maps _ c hc).2 _ _ hy
    obtain ⟨cq, h1, h2⟩ := (L.rev _ c y q hc).2 hg
    exact ⟨q, rfl, .inr ⟨y, cq, h1, by rw [composition_eq]; exact h2⟩⟩

/-- Writing two words next to each other needs no search. -/
theorem displayJoint_words {S : Search} {e : Env} {a b : CId} {l r : Syn} {t : Str} (pl : Plain a l) (pr : Plain b r)
    {ca ca' : Cache} (h : S.displayJoint e l r ca = .ok (t, ca')) : ca' = ca := by
  obtain ⟨u, k, rfl, _⟩ := pl
  obtain ⟨u', k', rfl, _⟩ := pr
  unfold Search.displayJoint at h
  simp only [Syn.expansion, ite_self, pure_bind] at h
  obtain ⟨x, ca2, h3, h4⟩ := SM.bind_ok.1 h
  obtain ⟨_, rfl⟩ := SM.lift_ok.1 h3
  obtain ⟨y, ca3, h5, h6⟩ := SM.bind_ok.1 h4
  obtain ⟨_, rfl⟩ := SM.lift_ok.1 h5
  cases h6
  rfl

theorem contractPair_words {S : Search} {e : Env} {a b : CId} {l r t : Syn} (pl : Plain a l) (pr : Plain b r)
    {ca ca' : Cache} (h : S.contractPair e l r ca = .ok (t, ca')) : ca' = ca := by
  unfold Search.contractPair at h
  obtain ⟨o, ca1, h1, h2⟩ := SM.bind_ok.1 h
  obtain ⟨_, rfl⟩ := SM.lift_ok.1 h1
  cases o with
  | none =>
    obtain ⟨t', ca2, h3, h4⟩ := SM.bind_ok.1 h2
    cases h4
    exact displayJoint_words pl pr h3
  | some q =>
    obtain ⟨o, ca2, h3, h4⟩ := SM.bind_ok.1 h2
    obtain ⟨_, rfl⟩ := SM.lift_ok.1 h3
    cases o with
    | some w =>
      obtain ⟨v, ca4, h5, h8⟩ := SM.bind_ok.1 h4
      cases h5
      obtain ⟨v, ca4, h7, h8⟩ := SM.bind_ok.1 h8
      obtain ⟨_, rfl⟩ := SM.lift_ok.1 h7
      cases h8
      rfl
    | none =>
      obtain ⟨u, ca3, h5, h6⟩ := SM.bind_ok.1 h4
      obtain ⟨v, ca4, h7, h8⟩ := SM.bind_ok.1 h6
      obtain ⟨_, rfl⟩ := SM.lift_ok.1 h7
      cases h8
      exact displayJoint_words pl pr h5

/-- Asking for the associativity of a word, or of `->`, leaves what is remembered right, and the answer
is that it is right associative. -/
theorem getAssoc_right (A : Asked s D) (T : Ties s D) {n : Nat} {e : Env} (he : Good W e) {w : Nat}
    (hw : D w ∨ w = builtin .reduction) {K : Syn} (pK : Plain (W.ι w) K) {ca ca' : Cache} {x : Assoc}
    (hk : Kept W D ca) (hn : Known W D ca) (h : (search n).getAssoc e K ca = .ok (x, ca')) :
    x = .right ∧ Kept W D ca' ∧ Known W D ca' := by
  suffices hs : x = .right ∧ Known W D ca' from ⟨hs.1, (search_calm (W := W) A.lone n).getAssoc _ _ he _ _ _ hk h, hs.2⟩
  have vw : ¬MayVary s w := by
    rcases hw with hw | rfl
    · exact (A.lone.words w hw).2.1
    · exact (A.lone.builtins _ (.inr rfl)).1
  have sA := built_simple (T.built .associativity)
  cases n with
  | zero => cases h
  | succ n =>
    have h : (search n).getAssocF e K ca = .ok (x, ca') := h
    unfold getAssocF at h
    obtain ⟨o, _, h1, h⟩ := SM.bind_ok.1 h
    obtain ⟨h1', rfl⟩ := SM.lift_ok.1 h1
    have := he.concreteId h1'
    rw [T.assoc] at this
    subst this
    obtain ⟨N, ca1, h2, h⟩ := SM.bind_ok.1 h
    have hk1 := (search_calm (W := W) A.lone n).toAst _ _ he _ _ _ hk h2
    have hn1 := (toAst_reds he sA h2).known hn
    have tN := (search_calm (W := W) A.lone n).built _ _ _ _ _ he hk h2
    have pN := tN.plain sA T.constant
    obtain ⟨P, ca2, h3, hz⟩ := SM.bind_ok.1 h
    clear h
    have unstored : ∀ a b m, N.concept = some a → K.concept = some b → e.view.read a = .ok m →
        m.findAsHand b .left = none := by
      intro a b m ha hb hm
      rw [pN.concept] at ha
      rw [pK.concept] at hb
      cases ha
      cases hb
      obtain ⟨c, hc, M⟩ := he.read hm
      rw [M.find]
      cases hf : c.findAsHand w .left with
      | none => rfl
      | some q =>
        obtain ⟨cq, h1, h2⟩ := (A.lone.rev _ c w q hc).1 hf
        exact absurd ⟨cq, h1, by rw [composition_eq]; exact h2⟩ (T.left q w)
    obtain ⟨k1, rfl, q1⟩ := tN.named (T.wide.names (.associativity, str% "assoc") (by simp [spoken])) T.constant
    obtain ⟨u2, k2, rfl, q2⟩ := id pK
    obtain ⟨⟨f, g, rfl⟩, rfl⟩ := combine_spells (fun a b m ha hb => unstored a b m ha hb) h3
    obtain ⟨r, ca3, h4, h⟩ := SM.bind_ok.1 hz
    clear hz
    have done : (∀ p : Syn × Reason, r = some p → p.1.concept = none) ∧ Known W D ca3 := by
      clear h
      cases n with
      | zero => cases h4
      | succ n =>
        have h4 : (search n).reduceF e (.branch (some (assocText u2)) none (.leaf (some (str% "assoc"))
          (some (W.ι (builtin .associativity))) k1) (.leaf (some u2) (some (W.ι w)) k2) f g) ca2 = .ok (r, ca3) := h4
        unfold reduceF at h4
        obtain ⟨ca0, _, h0, h4⟩ := SM.bind_ok.1 h4
        cases h0
        cases hx : ca2.reduction? (.branch (some (assocText u2)) none (.leaf (some (str% "assoc"))
          (some (W.ι (builtin .associativity))) k1) (.leaf (some u2) (some (W.ι w)) k2) f g) with
        | some x =>
          rw [hx] at h4
          cases h4
          exact ⟨Noted.ofAssoc T.tidy (hn1.noted rfl rfl hx), hn1⟩
        | none =>
          rw [hx] at h4
          obtain ⟨o, _, h5, h4⟩ := SM.bind_ok.1 h4
          cases h5
          obtain ⟨r1, ca4, h5, h4⟩ := SM.bind_ok.1 h4
          obtain ⟨_, ca5, h6, h4⟩ := SM.bind_ok.1 h4
          cases h6
          cases h4
          suffices hh : (∀ p : Syn × Reason, r = some p → p.1.concept = none) ∧ Known W D ca4 from
            ⟨hh.1, hh.2.insert_other rfl rfl (.assoc (v := u2) hh.1)⟩
          unfold reduceNow at h5
          dsimp only [Syn.concept, Syn.expansion] at h5
          simp only [pure_bind] at h5
          unfold reducePair at h5
          dsimp only [Syn.expansion] at h5
          simp only [pure_bind] at h5
          unfold recursivelyReducePair at h5
          obtain ⟨lr, ca6, h6, h5'⟩ := SM.bind_ok.1 h5
          clear h5
          obtain ⟨rfl, rfl⟩ := reduce_built he (T.built _) pN hn1 h6
          obtain ⟨rr, ca7, h7, h5⟩ := SM.bind_ok.1 h5'
          clear h5'
          have hr : Known W D ca7 ∧ ∀ y, rr = some y → ∃ j, Plain (W.ι j) y.1 := by
            rcases hw with hw | rfl
            · obtain ⟨hR, hK⟩ := reduce_right A he hw pK hk1 hn1 h7
              refine ⟨hK, ?_⟩
              rintro y rfl
              by_cases hj : ∃ j, ReducesTo s w j
              · obtain ⟨j, hj⟩ := hj
                obtain ⟨_, _, e, hY⟩ := hR.1 j hj
                cases e
                obtain ⟨w1, w2, _⟩ := A.lone.words j (A.closed w j hw hj)
                exact ⟨j, hY.plain w1 w2⟩
              · have := hR.2 fun j hij => hj ⟨j, hij⟩
                cases this
            · obtain ⟨rfl, rfl⟩ := reduce_built he (T.built _) pK hn1 h7
              exact ⟨hn1, fun y hy => by cases hy⟩
          cases rr with
          | none =>
            dsimp only at h5
            obtain ⟨t, ca8, h8, h5⟩ := SM.bind_ok.1 h5
            obtain ⟨v, f, g, rfl⟩ := contractPair_unstored unstored h8
            cases contractPair_words pN pK h8
            obtain ⟨gs, _, h9, h5⟩ := SM.bind_ok.1 h5
            obtain ⟨h9', rfl⟩ := SM.lift_ok.1 h9
            obtain ⟨rfl, rfl⟩ := genLoop_none (fun k hk o ho => by
              obtain ⟨q, rfl, hq⟩ := findGeneralisations_words he A.lone T pN pK h9' k (HashOrder.mem_order.1 hk)
              rcases hq with ⟨z, hq⟩ | ⟨z, hq⟩
              · exact absurd hq (T.left q z)
              · cases T.right w hw q z hq
                exact checkGeneralisation_fixed he hq T.label vw (by
                  intro e
                  have e := W.inj _ _ (Option.some.inj e)
                  cases e) ho) h5
            exact ⟨(fun p hp => by cases hp), hr.1⟩
          | some y =>
            obtain ⟨y, why⟩ := y
            obtain ⟨j, pj⟩ := hr.2 _ rfl
            dsimp only at h5
            obtain ⟨t, ca8, h8, h5⟩ := SM.bind_ok.1 h5
            cases h5
            have hm : e.mask.get (W.ι (builtin .associativity)) = none := by
              cases hx : e.mask.get (W.ι (builtin .associativity)) with
              | none => rfl
              | some t => exact absurd (he.mask _ t hx).1 T.constant
            dsimp only [Syn.concept, Option.bind_some] at h8
            rw [hm] at h8
            have h8 : (search n).contractPair e (.leaf (some (str% "assoc")) (some (W.ι (builtin .associativity))) k1) y ca7 =
              .ok (t, ca4) := h8
            have hy : t.concept = none := by
              obtain ⟨v, f, g, rfl⟩ := contractPair_unstored (fun a b m ha hb hm => by
                rw [pN.concept] at ha
                rw [pj.concept] at hb
                cases ha
                cases hb
                obtain ⟨c, hc, M⟩ := he.read hm
                rw [M.find]
                cases hf : c.findAsHand j .left with
                | none => rfl
                | some q =>
                  obtain ⟨cq, h1, h2⟩ := (A.lone.rev _ c j q hc).1 hf
                  exact absurd ⟨cq, h1, by rw [composition_eq]; exact h2⟩ (T.left q j)) h8
              rfl
            cases contractPair_words pN pj h8
            exact ⟨fun p hp => by cases hp; exact hy, hr.1⟩
    cases r with
    | none => cases h; exact ⟨rfl, done.2⟩
    | some p =>
      obtain ⟨p, why⟩ := p
      obtain ⟨o, _, h5, h⟩ := SM.bind_ok.1 h
      obtain ⟨h5', rfl⟩ := SM.lift_ok.1 h5
      have ho : o = none := by
        unfold cctOfAst at h5'
        rw [done.1 _ rfl] at h5'
        cases h5'
        rfl
      subst ho
      rw [if_neg (by simp)] at h
      cases h
      exact ⟨rfl, done.2⟩

theorem getAssoc_known (A : Asked s D) (T : Ties s D) {n : Nat} {e : Env} (he : Good W e) {w : Nat}
    (hw : D w ∨ w = builtin .reduction) {K : Syn} (pK : Plain (W.ι w) K) {ca ca' : Cache} {x : Assoc}
    (hk : Kept W D ca) (hn : Known W D ca) (h : (search n).getAssoc e K ca = .ok (x, ca')) :
    Kept W D ca' ∧ Known W D ca' :=
  (getAssoc_right A T he hw pK hk hn h).2

/-- The pair of a word with an expression whose first part is a word, or `->`. -/
theorem combine_known (A : Asked s D) (T : Ties s D) {n : Nat} {e : Env} (he : Good W e) {a : CId} {w : Nat}
    (hw : D w ∨ w = builtin .reduction) {L K Y t : Syn} (pL : Plain a L) (pK : Plain (W.ι w) K) {x f g}
    {ca ca' : Cache} (hk : Kept W D ca) (hn : Known W D ca)
    (h : (search n).combine e L (.branch x none K Y f g) ca = .ok (t, ca')) :
    (Kept W D ca' ∧ Known W D ca') ∧ ∃ u, t = .branch (some u) none L (.branch x none K Y f g)
      (Syn.pairVars L (.branch x none K Y f g)).1 (Syn.pairVars L (.branch x none K Y f g)).2 := by
  refine ⟨?_, combine_unstored (fun a b m ha hb hm => by cases hb) h⟩
  unfold combine at h
  obtain ⟨o, _, h1, h⟩ := SM.bind_ok.1 h
  obtain ⟨h1', rfl⟩ := SM.lift_ok.1 h1
  have ho : o = none := by
    unfold pairConcept at h1'
    rw [pL.concept] at h1'
    cases h1'; rfl
  subst ho
  have h : (search n).join e L (.branch x none K Y f g) _ = .ok (t, ca') := h
  unfold join at h
  obtain ⟨d, ca1, h2, h⟩ := SM.bind_ok.1 h
  cases h
  obtain ⟨u, k, rfl, _⟩ := pL
  unfold displayJoint at h2
  simp only [Syn.expansion, ite_self, pure_bind] at h2
  obtain ⟨x1, ca2, h3, h4⟩ := SM.bind_ok.1 h2
  obtain ⟨_, rfl⟩ := SM.lift_ok.1 h3
  obtain ⟨y1, ca3, h5, h6⟩ := SM.bind_ok.1 h4
  obtain ⟨_, rfl⟩ := SM.lift_ok.1 h5
  generalize y1.any isWs = b at h6
  cases b with
  | false => cases h6; exact ⟨hk, hn⟩
  | true =>
    rw [if_pos rfl] at h6
    obtain ⟨as, ca5, h9, h10⟩ := SM.bind_ok.1 h6
    obtain ⟨_, _, h11, h12⟩ := SM.bind_ok.1 h10
    obtain ⟨_, rfl⟩ := SM.lift_ok.1 h11
    obtain ⟨_, _, h13, h14⟩ := SM.bind_ok.1 h12
    obtain ⟨_, rfl⟩ := SM.lift_ok.1 h13
    cases h14
    exact getAssoc_known A T he hw pK hk hn h9

end Search

/-- There is no composition of `->` and a word. -/
theorem unstored_of (A : Asked s D) (T : Ties s D) {e : Env} (he : Good W e) {j : Nat} (hj : D j) {V Y : Syn}
    (pV : Plain (W.ι (builtin .reduction)) V) (pY : Plain (W.ι j) Y) :
    ∀ a b m, V.concept = some a → Y.concept = some b → e.view.read a = .ok m → m.findAsHand b .left = none := by
  intro a b m ha hb hm
  rw [pV.concept] at ha
  rw [pY.concept] at hb
  cases ha
  cases hb
  obtain ⟨c, hc, M⟩ := he.read hm
  rw [M.find]
  cases hf : c.findAsHand j .left with
  | none => rfl
  | some q =>
    obtain ⟨cq, h1, h2⟩ := (A.lone.rev _ c j q hc).1 hf
    have := T.right j (.inl hj) q _ ⟨cq, h1, by rw [composition_eq]; exact h2⟩
    cases this

theorem isLeafVariable_plain {id : CId} {t : Syn} (h : Plain id t) : t.isLeafVariable = false := by
  obtain ⟨s, k, rfl, hk⟩ := h
  cases k <;> first | rfl | exact absurd rfl hk

theorem astFromPair_known {n : Nat} {a : CId} {l r : Syn} (pl : Plain a l) {c : Ctx}
    {Q : Except ZiaError Syn → Ctx → Prop}
    (h : ∀ t ca, (search n).combine (env c) l r c.cache = .ok (t, ca) → Q (.ok t) { c with cache := ca }) :
    Ends (Parser.astFromPair n l r) c Q := by
  unfold Parser.astFromPair
  refine Ends.bind (Ends.get ?_)
  refine Ends.bind (Ends.ofE fun o _ => ?_)
  show Ends _ _ _
  dsimp only
  rw [if_neg (by simp [isLeafVariable_plain pl])]
  exact Ends.searching h

theorem nested_pair_eq {n : Nat} {a b : NST} {u : Str} {v : Option CId} :
    Parser.astFromNested n (.parent [a, b] u v) = (do
      let l ← Parser.astFromNested n a
      let r ← Parser.astFromNested n b
      Parser.astFromPair n l r) := by
  simp only [Parser.astFromNested, Parser.astsFromNested, bind_assoc, pure_bind]

theorem nested_nest_eq {n : Nat} {a : NST} : Parser.astFromNested n a.nest = Parser.astFromNested n a := by
  simp only [NST.nest, Parser.astFromNested, Parser.astsFromNested, bind_assoc, pure_bind]
  exact bind_pure _

theorem appended {k : Kind} {s : Str} {b : NST} :
    (NST.fromConceptKind k s).appendNode b = .parent [NST.fromConceptKind k s, b] (s ++ ' ' :: b.syn) none := rfl

/-- How reading `let (x (-> y))` ends for known words. -/
theorem parse_known (A : Asked s D) (T : Ties s D) {n : Nat} {x y : Str} (hx : IsSymbol x) (hy : IsSymbol y)
    (vx : Syn.isVariableName x = false) (vy : Syn.isVariableName y = false)
    {c : Ctx} (hc : Asking W D c) {l : CId} {i j : Nat} (di : D i) (dj : D j)
    (hl : (View.mk c.snap c.delta).conceptFromLabel n (str% "let") = .ok (some l))
    (ha : (View.mk c.snap c.delta).conceptFromLabel n (str% "->") = .ok (some (W.ι (builtin .reduction))))
    (hi : (View.mk c.snap c.delta).conceptFromLabel n x = .ok (some (W.ι i)))
    (hj : (View.mk c.snap c.delta).conceptFromLabel n y = .ok (some (W.ι j))) :
    Ends (Parser.astFromExpression n (teaching x y)) c (fun r c' => Asking W D c' ∧ c'.pinned = c.pinned ∧
      ∃ L X V Y u1 u2 f1 g1 f2 g2, Plain l L ∧ Plain (W.ι i) X ∧ Plain (W.ι (builtin .reduction)) V ∧
        Plain (W.ι j) Y ∧
        r = .ok (.newPair L (.branch u1 none X (.branch u2 none V Y f2 g2) f1 g1))) := by
  unfold Parser.astFromExpression
  refine Ends.bind (Ends.reading fun ls hls => ?_)
  obtain ⟨kl, kx, ka, ky, a, b, cc, d, rfl, h1, h2, h3, h4⟩ := lex_teaching hx hy hls
  obtain ⟨L, pL, eL⟩ := leafOf_known ⟨by decide, by simp [SymbolChar]; decide⟩ (by decide) hl h1
  obtain ⟨X, pX, eX⟩ := leafOf_known hx vx hi h2
  obtain ⟨V, pV, eV⟩ := leafOf_known ⟨by decide, by simp [SymbolChar]; decide⟩ (by decide) ha h3
  obtain ⟨Y, pY, eY⟩ := leafOf_known hy vy hj h4
  show Ends _ _ _
  rw [nest_let]
  refine Ends.bind (Ends.ofR ?_)
  show Ends _ _ _
  have e : Parser.syntaxList n ((NST.fromConceptKind kl (str% "let")).appendNode
      (((NST.fromConceptKind kx x).appendNode ((NST.fromConceptKind ka (str% "->")).appendNode
        (NST.fromConceptKind ky y)).nest).nest)) = (do
      let R2 ← Parser.astFromPair n V Y
      let R ← Parser.astFromPair n X R2
      return [L, R]) := by
    rw [appended]
    simp only [Parser.syntaxList, Parser.astsFromNested, nested_nest_eq, appended, nested_pair_eq, nested_leaf, eL, eX,
      eV, eY, bind_assoc, pure_bind]
  rw [e]
  refine Ends.bind (Ends.bind (astFromPair_known pV fun t2 ca2 z2 => ?_))
  obtain ⟨u2, rfl⟩ := Search.combine_unstored (unstored_of A T hc.good dj pV pY) z2
  cases Search.combine_words pV pY z2
  show Ends _ _ _
  refine Ends.bind (astFromPair_known pX fun t1 ca1 z1 => ?_)
  obtain ⟨⟨k1, n1⟩, u1, rfl⟩ := Search.combine_known A T (by exact hc.good) (.inr rfl) pX pV hc.kept hc.known z1
  refine Ends.pure ?_
  exact Ends.pure ⟨⟨hc.snap, hc.delta, hc.bound, k1, n1⟩, rfl, L, X, V, Y, _, _, _, _, _, _, pL, pX, pV, pY, rfl⟩

/-- If the chain of a concept ends in `i`, this is what is found. -/
theorem normalForm_of {i : Nat} (hi : ∀ j, ¬ReducesTo s i j) {n j : Nat} (h : TransGen (ReducesTo s) j i)
    {nf : Option CId} (hn : (View.mk s Nested.default).normalForm n (.com j) = .ok nf) : nf = some (.com i) := by
  induction n generalizing j nf with
  | zero => cases hn
  | succ n ih =>
    simp only [View.normalForm, Except.bind_eq_ok] at hn
    obtain ⟨m, hm, hn⟩ := hn
    obtain ⟨_, c, e, hc, rfl⟩ := rest_read_inv hm
    cases e
    obtain ⟨k, hk, hki⟩ := TransGen.head'_iff.1 h
    have hr : (Mixed.ofCon c).reduction = some (.com k) := by
      obtain ⟨c', h1, h2⟩ := hk
      rw [hc] at h1; cases h1
      show c.reduction.map _ = _
      rw [h2]; rfl
    rw [hr] at hn
    simp only [Except.bind_eq_ok, Except.pure_eq_ok] at hn
    obtain ⟨o, ho, rfl⟩ := hn
    rcases hki.cases_head with rfl | ⟨k', h1, h2⟩
    · cases n with
      | zero => cases ho
      | succ n =>
        simp only [View.normalForm, Except.bind_eq_ok] at ho
        obtain ⟨m, hm, ho⟩ := ho
        obtain ⟨_, c', e, hc', rfl⟩ := rest_read_inv hm
        cases e
        have hr : (Mixed.ofCon c').reduction = none := by
          show c'.reduction.map _ = none
          cases hx : c'.reduction with
          | none => rfl
          | some q => exact absurd ⟨c', hc', hx⟩ (hi q)
        rw [hr] at ho
        cases ho
        rfl
    · rw [ih (.head' h1 h2) ho]
      rfl

/-- How the command `let (x (-> y))` ends for two words that are known. -/
def RetoldWord (W : Stand s) (D : Nat → Prop) (i j : Nat) (x : Str) (r : Except ZiaError Str) (c' : Ctx) : Prop :=
  (∃ k z, ReducesTo s i k ∧ PlainWord s k z ∧ r = .error (.existingReduction x z) ∧ Asking W D c') ∨
  ((∀ k, ¬ReducesTo s i k) ∧ TransGen (ReducesTo s) j i ∧ r = .error .cyclicReduction ∧ Asking W D c') ∨
  ((∀ k, ¬ReducesTo s i k) ∧ ¬TransGen (ReducesTo s) j i ∧ r = .ok [])

theorem executeReduction_known (A : Asked s D) {n : Nat} {i j : Nat} (hne : i ≠ j) (di : D i) (dj : D j)
    {x : Str} (wx : PlainWord s i x) {X Y : Syn} (tX : TreeIn W i X) (pY : Plain (W.ι j) Y) {c : Ctx}
    (hc : Asking W D c) (hp : c.pinned = false) :
    Ends (Context.executeReduction n X Y) c (fun r c' => RetoldWord W D i j x (r.map fun _ => []) c') := by
  obtain ⟨w1, w2, _⟩ := A.lone.words i di
  have pX := tX.plain w1 w2
  obtain ⟨kx, rfl, hkx⟩ := tX.named wx w2
  obtain ⟨sy, ky, rfl, hky⟩ := pY
  unfold Context.executeReduction
  rw [if_neg (by simp [Syn.contains]), if_neg (by
    simp only [Syn.key, Syn.syntx, Syn.concept, Key.mk.injEq, Option.some.injEq]
    exact fun e => hne (W.inj _ _ e.2))]
  refine Ends.bind (Ends.searching fun found ca hf => ?_)
  obtain ⟨r, ca1, h1, hf⟩ := SM.bind_ok.1 hf
  obtain ⟨hR, n1⟩ := Search.reduce_right A hc.good di pX hc.kept hc.known h1
  have k1 := (search_calm (W := W) A.lone n).reduce _ _ hc.good _ _ _ hc.kept h1
  show Ends _ _ _
  cases r with
  | some p =>
    cases hf
    obtain ⟨Z, why⟩ := p
    have hj : ∃ k, ReducesTo s i k := Classical.byContradiction fun h => by
      have := hR.2 fun k hk => h ⟨k, hk⟩
      cases this
    obtain ⟨k, hk⟩ := hj
    obtain ⟨_, _, e, tZ⟩ := hR.1 k hk
    cases e
    have dk := A.closed i k di hk
    obtain ⟨z, wz⟩ := A.word k dk
    obtain ⟨kz, rfl, _⟩ := tZ.named wz (A.lone.words k dk).2.1
    refine Ends.bind (Ends.ofE fun a ha => ?_)
    refine Ends.bind (Ends.ofE fun b hb => ?_)
    cases ha
    cases hb
    exact Ends.throw (.inl ⟨k, z, hk, wz, rfl, hc.snap, hc.delta, hc.bound, k1, n1⟩)
  | none =>
    have no : ∀ k, ¬ReducesTo s i k := by
      intro k hk
      obtain ⟨_, _, e, _⟩ := hR.1 k hk
      cases e
    have k2 := Search.findInferred_calm (search_calm (W := W) A.lone n) _ hc.good _ _ _ _ k1 hf
    obtain ⟨rfl, hs⟩ := leaves_reds A.lone (fun m _ => search_calm A.lone m) hc.good di pX _ _ _ k1 hf
    have n2 := hs.known n1
    have hc1 : Asking W D { c with cache := ca } := ⟨hc.snap, hc.delta, hc.bound, k2, n2⟩
    refine Ends.bind (Ends.exclusive (fun _ => ?_) (fun h => by rw [hp] at h; cases h))
    show Ends _ _ _
    refine Ends.bind (Ends.pure ?_)
    refine Ends.bind (Ends.pure ?_)
    refine Ends.bind (Ends.ofE fun u _ => ?_)
    unfold Updater.updateReduction
    refine Ends.bind (Ends.reading fun nf hnf => ?_)
    show Ends _ _ _
    have hnf : (View.mk c.snap c.delta).normalForm n (W.ι j) = .ok nf := hnf
    rw [hc.delta, hc.snap] at hnf
    obtain ⟨o, hnf', rfl⟩ := W.normalForm .here hnf
    have hread : ∀ {m}, (View.mk c.snap c.delta).read (W.ι i) = .ok m →
        m.reduction = none ∧ m.composition = none := by
      intro m hm
      obtain ⟨ci, hci, M⟩ := hc.good.read hm
      rw [M.reduction, M.composition]
      constructor
      · show ci.reduction.map _ = none
        cases hx : ci.reduction with
        | none => rfl
        | some q => exact absurd ⟨ci, hci, hx⟩ (no q)
      · show ci.composition.map _ = none
        cases hx : ci.composition with
        | none => rfl
        | some q => exact absurd ⟨ci, hci, hx⟩ (w1 q.1 q.2)
    by_cases hcy : TransGen (ReducesTo s) j i
    · have := normalForm_of no hcy hnf'
      rw [if_pos (by
        cases o with
        | none => cases this
        | some k => cases this; rfl)]
      exact Ends.throw (.inr (.inl ⟨no, hcy, rfl, hc1⟩))
    · rw [if_neg (by
        intro e
        cases o with
        | none => cases e
        | some k =>
          have := W.inj _ _ (Option.some.inj e)
          subst this
          obtain ⟨_, e, h⟩ := normalForm_inv hnf'
          cases e
          exact hcy h)]
      refine Ends.bind (Ends.reading fun m hm => ?_)
      show Ends _ _ _
      rw [if_neg (by rw [(hread hm).1]; simp)]
      refine Ends.bind (Ends.reading fun q hq => ?_)
      show Ends _ _ _
      have hq : q = W.ι i := by
        cases n with
        | zero => cases hq
        | succ n =>
          simp only [View.reductionOfComposition, Except.bind_eq_ok] at hq
          obtain ⟨m, hm, hq⟩ := hq
          rw [(hread hm).2] at hq
          cases hq
          rfl
      subst hq
      rw [if_neg (fun e => hne (W.inj _ _ e).symm)]
      refine Ends.bind (Ends.update fun d id hd => ?_)
      exact Ends.pure (.inr (.inr ⟨no, hcy, rfl⟩))

/-- How the command ends, given how its last step ends. -/
theorem call_told {n k : Nat} {a l : CId} {X Y A R R2 L U : Syn} (hA : A.concept = some a) (hL : L.concept = some l)
    (hU : U.expansion = some (L, R)) (hUc : U.concept = none) (hR : R.expansion = some (X, R2))
    (hR2 : R2.expansion = some (A, Y)) {c : Ctx} {Q : Except ZiaError Str → Ctx → Prop}
    (hl : (View.mk c.snap c.delta).cct l = .ok (some .letCmd))
    (ha : (View.mk c.snap c.delta).cct a = .ok (some .reduction))
    (hm : Ends (Context.executeReduction n X Y) c (fun r c' => Q (r.map fun _ => []) c'))
    (hQ : ∀ e c', Q (.error e) c' → e ≠ .unusedSymbol ∧ e ≠ .cannotReduceFurther) :
    Ends (Context.call n k U) c Q := by
  cases k with
  | zero => exact Ends.fault
  | succ k =>
    unfold Context.call Context.stringOf
    rw [hUc]
    refine Ends.bind (Ends.pure ?_)
    show Ends _ _ _
    rw [hU]
    refine onError_ends ?_ fun x c' h => (hQ x c' h).2
    cases k with
    | zero => exact Ends.fault
    | succ k =>
      unfold Context.callPair
      refine Ends.bind (Ends.get ?_)
      refine Ends.bind (Ends.ofE fun o ho => ?_)
      rw [cct_of_plain hL hl] at ho
      cases ho
      refine Ends.bind (Ends.mono (Q := fun r c' => Q (r.map fun _ => []) c' ∧ ∀ o, r = .ok o → o = some [])
        ?_ fun r c' h => ?_)
      · unfold Context.callLet Context.executeLet
        rw [hR]
        dsimp only
        rw [hR2]
        dsimp only [Option.map_some]
        refine Ends.bind (Ends.mono (Q := fun r c' => Q (r.map fun _ => []) c' ∧ ∀ b, r = .ok b → b = true) ?_
          fun r c' h => ?_)
        · refine onError_ends (onError_ends ?_ fun x c' h => (hQ x c' h.1).2) fun x c' h =>
            (hQ x c' h.1).1
          refine Ends.bind (Ends.mono (Q := fun r c' => Q (r.map fun _ => []) c') ?_ fun r c' h => ?_)
          · cases n with
            | zero => exact Ends.fault
            | succ n =>
              unfold Context.matchRighthandPair
              rw [hA]
              refine Ends.bind (Ends.reading fun o ho => ?_)
              rw [ha] at ho
              cases ho
              exact hm
          · cases r with
            | error e => exact ⟨h, fun b hb => by cases hb⟩
            | ok u => exact Ends.pure ⟨h, fun b hb => by cases hb; rfl⟩
        · cases r with
          | error e => exact ⟨h.1, fun o ho => by cases ho⟩
          | ok b =>
            cases h.2 b rfl
            exact Ends.pure ⟨h.1, fun o ho => by cases ho; rfl⟩
      · cases r with
        | error e => exact h.1
        | ok o =>
          cases h.2 o rfl
          exact Ends.pure h.1

/-- How telling ends, given how reading the command ends and how its last step ends. -/
theorem told_read (A : Asked s D) (T : Ties s D) {n : Nat} {u : Str} {c : Ctx} {i j : Nat} (di : D i) (dj : D j)
    (cl : ¬MayVary s (builtin .letCmd)) {Q : Except ZiaError Str → Ctx → Prop}
    (hp : Ends (Parser.astFromExpression n u) c (fun r c' => Asking W D c' ∧ c'.pinned = false ∧
      ∃ L X V Y u1 u2 f1 g1 f2 g2, Plain (W.ι (builtin .letCmd)) L ∧ Plain (W.ι i) X ∧
        Plain (W.ι (builtin .reduction)) V ∧ Plain (W.ι j) Y ∧
        r = .ok (.newPair L (.branch u1 none X (.branch u2 none V Y f2 g2) f1 g1))))
    (hx : ∀ X Y c', TreeIn W i X → TreeIn W j Y → Asking W D c' → c'.pinned = false →
      Ends (Context.executeReduction n X Y) c' (fun r c' => Q (r.map fun _ => []) c'))
    (hQ : ∀ e c', Q (.error e) c' → e ≠ .unusedSymbol ∧ e ≠ .cannotReduceFurther) :
    Ends (Context.command n u) c Q := by
  unfold Context.command
  refine Ends.bind (hp.mono ?_)
  rintro _ c2 ⟨hc2, ep, L, X, V, Y, u1, u2, f1, g1, f2, g2, pL, pX, pV, pY, rfl⟩
  show Ends _ _ _
  refine Ends.bind (Ends.searching fun t ca ht => ?_)
  show Ends _ _ _
  have hT : ∃ s0 s1 s2 L' X' V' Y' f0 b0 f1 b1 f2 b2, Plain (W.ι (builtin .letCmd)) L' ∧ TreeIn W i X' ∧
      Plain (W.ι (builtin .reduction)) V' ∧ TreeIn W j Y' ∧
      t = .branch s0 none L' (.branch s1 none X' (.branch s2 none V' Y' f2 b2) f1 b1) f0 b0 ∧
      Kept W D ca ∧ Known W D ca := by
    have sl := built_simple (T.built .letCmd)
    have sr := built_simple (T.built .reduction)
    have cr := (A.lone.builtins _ (.inr rfl)).1
    obtain ⟨w1, w2, _⟩ := A.lone.words i di
    obtain ⟨w3, w4, _⟩ := A.lone.words j dj
    have he := hc2.good
    cases n with
    | zero => cases ht
    | succ n =>
      obtain ⟨L', R', ca1, ca2, x1, x2, x3⟩ := Search.expand_pair (hu := rfl) (hx := rfl) ht
      obtain ⟨tL, k1, n1⟩ := Search.expand_simple A he sl pL hc2.kept hc2.known x1
      cases n with
      | zero => cases x2
      | succ n =>
        obtain ⟨X', R2', ca3, ca4, y1, y2, y3⟩ := Search.expand_pair (hu := rfl) (hx := rfl) x2
        obtain ⟨tX, k2, n2⟩ := Search.expand_word A he di pX k1 n1 y1
        cases n with
        | zero => cases y2
        | succ n =>
          obtain ⟨V', Y', ca5, ca6, z1, z2, z3⟩ := Search.expand_pair (hu := rfl) (hx := rfl) y2
          obtain ⟨tV, k3, n3⟩ := Search.expand_simple A he sr pV k2 n2 z1
          obtain ⟨tY, k4, n4⟩ := Search.expand_word A he dj pY k3 n3 z2
          have pL' := tL.plain sl cl
          have pX' := tX.plain w1 w2
          have pV' := tV.plain sr cr
          have pY' := tY.plain w3 w4
          obtain ⟨s2, rfl⟩ := Search.combine_unstored (unstored_of A T he dj pV' pY') z3
          cases Search.combine_words pV' pY' z3
          obtain ⟨⟨k5, n5⟩, s1, rfl⟩ := Search.combine_known A T he (.inr rfl) pX' pV' k4 n4 y3
          obtain ⟨⟨k6, n6⟩, s0, rfl⟩ := Search.combine_known A T he (.inl di) pL' pX' k5 n5 x3
          exact ⟨_, _, _, L', X', V', Y', _, _, _, _, _, _, pL', tX, pV', tY, rfl, k6, n6⟩
  obtain ⟨s0, s1, s2, L', X', V', Y', f0, b0, f1, b1, f2, b2, pL', tX, pV', tY, rfl, k6, n6⟩ := hT
  obtain ⟨w1, w2, _⟩ := A.lone.words i di
  obtain ⟨w3, w4, _⟩ := A.lone.words j dj
  have pX' := tX.plain w1 w2
  have pY' := tY.plain w3 w4
  have hcv : Parser.createVariables (.branch s0 none L' (.branch s1 none X' (.branch s2 none V' Y' f2 b2) f1 b1)
      f0 b0) = pure (.branch s0 none L' (.branch s1 none X' (.branch s2 none V' Y' f2 b2) f1 b1) f0 b0) := by
    simp only [Parser.createVariables, createVariables_plain pL', createVariables_plain pX',
      createVariables_plain pV', createVariables_plain pY', pure_bind]
  rw [hcv]
  refine Ends.bind (Ends.tryCatch (Ends.pure ?_))
  have cct : ∀ t, (View.mk c2.snap c2.delta).cct (W.ι (builtin t)) = .ok (some t) := by
    intro t
    rw [hc2.delta, hc2.snap]
    exact W.cct_built (T.built t)
  exact call_told pV'.concept pL'.concept rfl rfl rfl rfl (cct _) (cct _)
    (hx X' Y' _ tX tY ⟨hc2.snap, hc2.delta, hc2.bound, k6, n6⟩ ep) hQ

/-- Telling about two words. -/
theorem retold_read (A : Asked s D) (T : Ties s D) {n : Nat} {u x : Str} {c : Ctx} {i j : Nat} (hne : i ≠ j)
    (di : D i) (dj : D j) (wx : PlainWord s i x) (cl : ¬MayVary s (builtin .letCmd))
    (hp : Ends (Parser.astFromExpression n u) c (fun r c' => Asking W D c' ∧ c'.pinned = false ∧
      ∃ L X V Y u1 u2 f1 g1 f2 g2, Plain (W.ι (builtin .letCmd)) L ∧ Plain (W.ι i) X ∧
        Plain (W.ι (builtin .reduction)) V ∧ Plain (W.ι j) Y ∧
        r = .ok (.newPair L (.branch u1 none X (.branch u2 none V Y f2 g2) f1 g1)))) :
    Ends (Context.command n u) c (RetoldWord W D i j x) := by
  obtain ⟨w3, w4, _⟩ := A.lone.words j dj
  refine told_read A T di dj cl hp (fun X Y c' tX tY hc hpin =>
    executeReduction_known A hne di dj wx tX (tY.plain w3 w4) hc hpin) ?_
  rintro e c' (⟨k, z, _, _, h, _⟩ | ⟨_, _, h, _⟩ | ⟨_, _, h⟩) <;> cases h <;> exact ⟨by simp, by simp⟩

/-- Telling that a word reduces to itself: what is known about it is forgotten. -/
theorem itself_read (A : Asked s D) (T : Ties s D) {n : Nat} {u x : Str} {c : Ctx} {i : Nat}
    (di : D i) (wx : PlainWord s i x) (cl : ¬MayVary s (builtin .letCmd))
    (hp : Ends (Parser.astFromExpression n u) c (fun r c' => Asking W D c' ∧ c'.pinned = false ∧
      ∃ L X V Y u1 u2 f1 g1 f2 g2, Plain (W.ι (builtin .letCmd)) L ∧ Plain (W.ι i) X ∧
        Plain (W.ι (builtin .reduction)) V ∧ Plain (W.ι i) Y ∧
        r = .ok (.newPair L (.branch u1 none X (.branch u2 none V Y f2 g2) f1 g1)))) :
    Ends (Context.command n u) c (ForgotWord W D W.pend i x) := by
  obtain ⟨w1, w2, _⟩ := A.lone.words i di
  refine told_read A T di di cl hp (fun X Y c' tX tY hc hpin => ?_) ?_
  · obtain ⟨kx, rfl, _⟩ := tX.named wx w2
    obtain ⟨ky, rfl, _⟩ := tY.named wx w2
    unfold Context.executeReduction
    rw [if_neg (by simp [Syn.contains]), if_pos (by simp [Syn.key, Syn.syntx, Syn.concept])]
    intro r c'' h
    have hf := callForget_word hc hpin (i := i) (x := x) (k := kx)
    have e : Context.callForget (.leaf (some x) (some (W.ι i)) kx) =
        (do Context.tryRemovingReduction (.leaf (some x) (some (W.ι i)) kx); return some []) := by
      unfold Context.callForget Context.tryRemovingReduction
      dsimp only [Syn.concept]
      simp only [bind_assoc]
    rw [e] at hf
    have := (hf (r.map fun _ => some []) c'' (by
      rw [bind_apply, h]
      cases r <;> rfl)).1
    cases r <;> exact this
  · rintro e c' (⟨_, _, h, _⟩ | ⟨_, _, h⟩) <;> cases h
    exact ⟨by simp, by simp⟩

/-- Telling about two words that are known. -/
theorem retold_word (A : Asked s D) (T : Ties s D) {n : Nat} {x y : Str} (hx : IsSymbol x) (hy : IsSymbol y)
    {c : Ctx} (hc : Asking W D c) (hp : c.pinned = false) {i j : Nat} (hne : i ≠ j) (di : D i) (dj : D j)
    (wx : PlainWord s i x) (wy : PlainWord s j y) (cl : ¬MayVary s (builtin .letCmd))
    (hl : (View.mk c.snap c.delta).conceptFromLabel n (str% "let") = .ok (some (W.ι (builtin .letCmd))))
    (ha : (View.mk c.snap c.delta).conceptFromLabel n (str% "->") = .ok (some (W.ι (builtin .reduction))))
    (hi : (View.mk c.snap c.delta).conceptFromLabel n x = .ok (some (W.ι i)))
    (hj : (View.mk c.snap c.delta).conceptFromLabel n y = .ok (some (W.ι j))) :
    Ends (Context.command n (teaching x y)) c (RetoldWord W D i j x) :=
  retold_read A T hne di dj wx cl
    ((parse_known A T hx hy wx.constant wy.constant hc di dj hl ha hi hj).mono fun _ _ ⟨h1, h2, h3⟩ =>
      ⟨h1, h2.trans hp, h3⟩)

end Zia

import Verif.Lemmas.Retold

/-!
# Questions about the reduction of words
-/

namespace Zia
open CM Spec Relation
set_option linter.unusedSectionVars false

variable [HashOrder] {s : Snap} {W : Stand s} {D : Nat → Prop}

omit [HashOrder] in
theorem reducesTo_unique {i j k : Nat} (h : ReducesTo s i j) (h' : ReducesTo s i k) : j = k := by
  obtain ⟨c, h1, h2⟩ := h
  obtain ⟨c', h3, h4⟩ := h'
  rw [h1] at h3; cases h3
  rw [h2] at h4; cases h4
  rfl

omit [HashOrder] in
theorem composedOf_unique {k l r l' r' : Nat} (h : ComposedOf s k l r) (h' : ComposedOf s k l' r') : l = l' ∧ r = r' := by
  obtain ⟨c, h1, h2⟩ := h
  obtain ⟨c', h3, h4⟩ := h'
  rw [h1] at h3; cases h3
  rw [h2] at h4; cases h4
  exact ⟨rfl, rfl⟩

omit [HashOrder] in
/-- Where the chain of a concept leads. -/
theorem leads_step {i k j : Nat} (h : ReducesTo s i k) : TransGen (ReducesTo s) i j ↔ k = j ∨ TransGen (ReducesTo s) k j := by
  constructor
  · intro hj
    obtain ⟨k', h1, h2⟩ := TransGen.head'_iff.1 hj
    cases reducesTo_unique h h1
    rcases h2.cases_head with rfl | ⟨m, h3, h4⟩
    · exact .inl rfl
    · exact .inr (.head' h3 h4)
  · rintro (rfl | hj)
    · exact .single h
    · exact .head h hj

theorem Spelt.plain {i : Nat} {x : Str} {X : Syn} (h : Spelt W i x X) : Plain (W.ι i) X := by
  obtain ⟨_, k, rfl, hk⟩ := h
  exact ⟨x, k, rfl, hk⟩

theorem TreeIn.spelt {i : Nat} {x : Str} {X : Syn} (h : TreeIn W i X) (hw : PlainWord s i x) (hv : ¬MayVary s i) :
    Spelt W i x X := by
  obtain ⟨k, rfl, hk⟩ := h.named hw hv
  exact ⟨hw, k, rfl, hk⟩

/-- The trees of two words have the same key if and only if the words are the same. -/
theorem Spelt.key (T : Tidy s D) {i j : Nat} {x y : Str} {X Y : Syn} (hi : D i) (hX : Spelt (.rest s) i x X) (hY : Spelt (.rest s) j y Y) :
    X.key = Y.key ↔ i = j := by
  obtain ⟨wx, kx, rfl, _⟩ := hX
  obtain ⟨wy, ky, rfl, _⟩ := hY
  constructor
  · intro e
    have := congrArg Key.concept e
    cases this
    rfl
  · rintro rfl
    cases T.named _ _ _ hi wx wy
    rfl

namespace Search

/-- One step of the reduction of a word. -/
theorem reduce_spelt (A : Asked s D) {n : Nat} {e : Env} (he : Good W e) {i : Nat} (hi : D i) {x : Str} {X : Syn}
    (hX : Spelt W i x X) {ca ca' : Cache} {r : RR} (hk : Kept W D ca) (hn : Known W D ca)
    (h : (search n).reduce e X ca = .ok (r, ca')) :
    ((∃ k y Y why, ReducesTo s i k ∧ D k ∧ Spelt W k y Y ∧ r = some (Y, why)) ∨ (∀ k, ¬ReducesTo s i k) ∧ r = none) ∧
      Kept W D ca' ∧ Known W D ca' := by
  obtain ⟨hR, hn'⟩ := reduce_right A he hi hX.plain hk hn h
  refine ⟨?_, (search_calm (W := W) A.lone n).reduce _ _ he _ _ _ hk h, hn'⟩
  by_cases hj : ∃ k, ReducesTo s i k
  · obtain ⟨k, hj⟩ := hj
    obtain ⟨Y, why, rfl, hY⟩ := hR.1 k hj
    have hd := A.closed i k hi hj
    obtain ⟨y, wy⟩ := A.word k hd
    exact .inl ⟨k, y, Y, why, hj, hd, hY.spelt wy (A.lone.words k hd).2.1, rfl⟩
  · have hj : ∀ k, ¬ReducesTo s i k := fun k hk => hj ⟨k, hk⟩
    exact .inr ⟨hj, hR.2 hj⟩

/-- Evidence is found exactly if the one word leads to the other. -/
theorem evidence_right (A : Asked s D) (T : Tidy s D) {n : Nat} {e : Env} (he : Good (.rest s) e) {i j : Nat} (hi : D i)
    {x y : Str} {X Y : Syn} (hX : Spelt (.rest s) i x X) (hY : Spelt (.rest s) j y Y) {ca ca' : Cache} {r : Option Reason}
    (hk : Kept (.rest s) D ca) (hn : Known (.rest s) D ca) (h : (search n).evidence e X Y ca = .ok (r, ca')) :
    (r.isSome ↔ TransGen (ReducesTo s) i j) ∧ Kept (.rest s) D ca' ∧ Known (.rest s) D ca' := by
  induction n generalizing i x X ca ca' r with
  | zero => cases h
  | succ n ih =>
    have h : (search n).evidenceF e X Y ca = .ok (r, ca') := h
    unfold evidenceF at h
    obtain ⟨r1, ca1, h1, h⟩ := SM.bind_ok.1 h
    obtain ⟨⟨k, z, Z, why, hz, dk, hZ, rfl⟩ | ⟨hno, rfl⟩, k1, n1⟩ := reduce_spelt A he hi hX hk hn h1
    · dsimp only at h
      split at h
      · next e =>
        cases h
        have := (hZ.key T dk hY).1 e
        subst this
        exact ⟨⟨fun _ => .single hz, fun _ => rfl⟩, k1, n1⟩
      · next e =>
        obtain ⟨r2, ca2, h2, h⟩ := SM.bind_ok.1 h
        obtain ⟨hr, k2, n2⟩ := ih dk hZ k1 n1 h2
        have ne : k ≠ j := fun h => e ((hZ.key T dk hY).2 h)
        cases r2 with
        | none =>
          cases h
          refine ⟨⟨fun h => (by cases h), fun h => ?_⟩, k2, n2⟩
          rcases (leads_step hz).1 h with h | h
          · exact absurd h ne
          · exact hr.2 h
        | some w =>
          cases h
          exact ⟨⟨fun _ => (leads_step hz).2 (.inr (hr.1 rfl)), fun _ => rfl⟩, k2, n2⟩
    · cases h
      refine ⟨⟨fun h => (by cases h), fun h => ?_⟩, k1, n1⟩
      obtain ⟨k, h1, _⟩ := TransGen.head'_iff.1 h
      exact absurd h1 (hno k)

/-- The truth of a claim, if it is found at once. -/
inductive Decided (s : Snap) (i j : Nat) : Option Bool → Prop
  | same (e : i = j) : Decided s i j (some false)
  | leads (ne : i ≠ j) (p : TransGen (ReducesTo s) i j) : Decided s i j (some true)
  | reverse (ne : i ≠ j) (p : TransGen (ReducesTo s) j i) : Decided s i j (some false)
  | open_ (ne : i ≠ j) (p : ¬TransGen (ReducesTo s) i j) (q : ¬TransGen (ReducesTo s) j i) : Decided s i j none

theorem reductionTruth_right (A : Asked s D) (T : Tidy s D) {n : Nat} {e : Env} (he : Good (.rest s) e) {i j : Nat}
    (hi : D i) (hj : D j) {x y : Str} {X Y : Syn} (hX : Spelt (.rest s) i x X) (hY : Spelt (.rest s) j y Y) {ca ca' : Cache}
    {r : Option (Bool × Reason)} (hk : Kept (.rest s) D ca) (hn : Known (.rest s) D ca)
    (h : (search n).reductionTruth e X Y ca = .ok (r, ca')) :
    Decided s i j (r.map Prod.fst) ∧ Kept (.rest s) D ca' ∧ Known (.rest s) D ca' := by
  unfold reductionTruth at h
  split at h
  · next e =>
    cases h
    exact ⟨.same ((hX.key T hi hY).1 e), hk, hn⟩
  · next e =>
    have ne : i ≠ j := fun h => e ((hX.key T hi hY).2 h)
    obtain ⟨r1, ca1, h1, h⟩ := SM.bind_ok.1 h
    obtain ⟨e1, k1, n1⟩ := evidence_right A T he hi hX hY hk hn h1
    obtain ⟨r2, ca2, h2, h⟩ := SM.bind_ok.1 h
    obtain ⟨e2, k2, n2⟩ := evidence_right A T he hj hY hX k1 n1 h2
    cases r1 with
    | some w1 =>
      cases r2 with
      | some w2 => cases h
      | none => cases h; exact ⟨.leads ne (e1.1 rfl), k2, n2⟩
    | none =>
      cases r2 with
      | some w2 => cases h; exact ⟨.reverse ne (e2.1 rfl), k2, n2⟩
      | none =>
        cases h
        exact ⟨.open_ ne (fun p => by cases e1.2 p) (fun p => by cases e2.2 p), k2, n2⟩

/-- What does not vary matches nothing else. -/
theorem checkGeneralisation_constant {W : Stand s} {e : Env} (he : Good W e) {q : Nat} (hq : ¬MayVary s q) {t : Syn}
    {o : Option Mask} (h : checkGeneralisation e t (W.ι q) = .ok o) : o = none := by
  have can : ∀ {b}, canGeneralise e t (W.ι q) = .ok b → b = false := by
    intro b hb
    simp only [canGeneralise, Except.bind_eq_ok] at hb
    obtain ⟨b1, h1, hb⟩ := hb
    cases free_of he hq h1
    cases hb
    rfl
  cases t with
  | leaf =>
    simp only [checkGeneralisation, Except.bind_eq_ok] at h
    obtain ⟨b, hb, h⟩ := h
    cases can hb
    cases h
    rfl
  | branch =>
    simp only [checkGeneralisation, Except.bind_eq_ok] at h
    obtain ⟨b, hb, h⟩ := h
    cases can hb
    cases h
    rfl

/-- Words are not masked. -/
theorem unmasked {W : Stand s} {e : Env} (he : Good W e) {i : Nat} (hi : ¬MayVary s i) : e.mask.get (W.ι i) = none := by
  cases hx : e.mask.get (W.ι i) with
  | none => rfl
  | some t => exact absurd (he.mask _ t hx).1 hi

/-- One step of the reduction of `-> y`. -/
theorem reduce_arrow (A : Asked s D) (T : Ties s D) {n : Nat} {e : Env} (he : Good (.rest s) e) {j : Nat} (hj : D j)
    {y : Str} {X : Syn} (hX : ArrowTree s j y X) {ca ca' : Cache} {r : RR} (hk : Kept (.rest s) D ca)
    (hn : Known (.rest s) D ca) (h : (search n).reduce e X ca = .ok (r, ca')) :
    RightArrow s j r ∧ Kept (.rest s) D ca' ∧ Known (.rest s) D ca' := by
  suffices hs : RightArrow s j r ∧ Known (.rest s) D ca' from
    ⟨hs.1, (search_calm (W := .rest s) A.lone n).reduce _ _ he _ _ _ hk h, hs.2⟩
  obtain ⟨O, Y, f, g, hO, hY, rfl⟩ := hX
  have pO := hO.plain
  have pY := hY.plain
  have rc := (A.lone.builtins _ (.inr rfl)).1
  cases n with
  | zero => cases h
  | succ n =>
    have h : (search n).reduceF e (.branch (some (arrowText y)) none O Y f g) ca = .ok (r, ca') := h
    unfold reduceF at h
    obtain ⟨ca0, _, h0, h⟩ := SM.bind_ok.1 h
    cases h0
    cases hx : ca.reduction? (.branch (some (arrowText y)) none O Y f g) with
    | some x =>
      rw [hx] at h
      cases h
      exact ⟨Noted.ofArrow T.tidy hj hY.1 (hn.noted rfl rfl hx), hn⟩
    | none =>
      rw [hx] at h
      obtain ⟨o, _, h1, h⟩ := SM.bind_ok.1 h
      cases h1
      obtain ⟨r1, ca1, h1, h⟩ := SM.bind_ok.1 h
      obtain ⟨_, ca2, h2, h⟩ := SM.bind_ok.1 h
      cases h2
      cases h
      suffices hh : RightArrow s j r ∧ Known (.rest s) D ca1 from
        ⟨hh.1, hh.2.insert_other rfl rfl (.arrow hj hY.1 hh.1)⟩
      unfold reduceNow at h1
      dsimp only [Syn.concept, Syn.expansion] at h1
      simp only [pure_bind] at h1
      unfold reducePair at h1
      obtain ⟨_, ko, eO, _⟩ := id hO
      obtain ⟨wy, ky, eY, _⟩ := id hY
      have xO : O.expansion = none := by rw [eO]; rfl
      have xY : Y.expansion = none := by rw [eY]; rfl
      rw [xO, xY] at h1
      simp only [pure_bind] at h1
      unfold recursivelyReducePair at h1
      obtain ⟨lr, ca2, h2, h1'⟩ := SM.bind_ok.1 h1
      clear h1
      obtain ⟨rfl, rfl⟩ := reduce_built he (T.built _) pO hn h2
      obtain ⟨rr, ca3, h3, h1⟩ := SM.bind_ok.1 h1'
      clear h1'
      obtain ⟨⟨k, z, Z, why, hz, dk, hZ, rfl⟩ | ⟨hno, rfl⟩, k3, n3⟩ := reduce_spelt A he hj hY hk hn h3
      · dsimp only at h1
        obtain ⟨t, ca4, h4, h1⟩ := SM.bind_ok.1 h1
        cases h1
        have hm := unmasked he rc
        rw [pO.concept, Option.bind_some, hm] at h4
        have h4 : (search n).contractPair e O Z ca3 = .ok (t, ca1) := h4
        have un := unstored_of A T he dk pO hZ.plain
        obtain ⟨wz, kz, eZ, hkz⟩ := id hZ
        rw [eO, eZ] at h4 un
        obtain ⟨⟨f', g', rfl⟩, rfl⟩ := contractPair_spells (fun a b m ha hb => un a b m ha hb) h4
        refine ⟨⟨fun j' hj' => ?_, fun hno => absurd hz (hno k)⟩, n3⟩
        cases reducesTo_unique hz hj'
        subst eO eZ
        exact ⟨z, _, _, rfl, _, _, f', g', hO, hZ, rfl⟩
      · dsimp only at h1
        obtain ⟨t, ca4, h4, h1⟩ := SM.bind_ok.1 h1
        have un := unstored_of A T he hj pO pY
        obtain ⟨v, f', g', rfl⟩ := contractPair_unstored un h4
        cases contractPair_words pO pY h4
        obtain ⟨gs, _, h5, h1⟩ := SM.bind_ok.1 h1
        obtain ⟨h5', rfl⟩ := SM.lift_ok.1 h5
        obtain ⟨rfl, rfl⟩ := genLoop_none (fun k hk o ho => by
          obtain ⟨q, rfl, hq⟩ := findGeneralisations_words he A.lone T pO pY h5' k (HashOrder.mem_order.1 hk)
          rcases hq with ⟨z, hq⟩ | ⟨z, hq⟩
          · exact checkGeneralisation_constant he (T.wide.arrows q z hq) ho
          · cases T.right j (.inl hj) q z hq
            exact checkGeneralisation_fixed he hq T.label (A.lone.words j hj).2.1 (by
              rw [pO.concept]
              intro e
              cases e) ho) h1
        exact ⟨⟨fun j' hj' => absurd hj' (hno j'), fun _ => rfl⟩, n3⟩

/-- The text of a claim. -/
theorem displayJoint_claim (A : Asked s D) (T : Ties s D) {n : Nat} {e : Env} (he : Good (.rest s) e) {i j : Nat}
    (hi : D i) {x y : Str} {X Y : Syn} (hX : Spelt (.rest s) i x X) (hY : ArrowTree s j y Y) {ca ca' : Cache} {t : Str}
    (hk : Kept (.rest s) D ca) (hn : Known (.rest s) D ca)
    (h : (search n).displayJoint e X Y ca = .ok (t, ca')) :
    t = claimText x y ∧ Kept (.rest s) D ca' ∧ Known (.rest s) D ca' := by
  obtain ⟨wx, kx, rfl, _⟩ := hX
  obtain ⟨O, Z, f, g, hO, hZ, rfl⟩ := hY
  have pO := hO.plain
  obtain ⟨_, ko, rfl, _⟩ := hO
  obtain ⟨wz, kz, rfl, _⟩ := hZ
  unfold displayJoint at h
  simp only [Syn.expansion, ite_self, pure_bind] at h
  obtain ⟨x1, ca2, h3, h4⟩ := SM.bind_ok.1 h
  obtain ⟨h3', rfl⟩ := SM.lift_ok.1 h3
  cases h3'
  obtain ⟨y1, ca3, h5, h6⟩ := SM.bind_ok.1 h4
  obtain ⟨h5', rfl⟩ := SM.lift_ok.1 h5
  cases h5'
  rw [if_pos (by simp [arrowText, isWs])] at h6
  obtain ⟨as, ca5, h9, h10⟩ := SM.bind_ok.1 h6
  obtain ⟨_, _, h11, h12⟩ := SM.bind_ok.1 h10
  obtain ⟨h11', rfl⟩ := SM.lift_ok.1 h11
  cases h11'
  obtain ⟨_, _, h13, h14⟩ := SM.bind_ok.1 h12
  obtain ⟨h13', rfl⟩ := SM.lift_ok.1 h13
  cases h13'
  cases h14
  obtain ⟨rfl, k1, n1⟩ := getAssoc_right A T he (.inr rfl) pO hk hn h9
  exact ⟨rfl, k1, n1⟩

theorem arrow_concept {j : Nat} {y : Str} {Y : Syn} (h : ArrowTree s j y Y) : Y.concept = none := by
  obtain ⟨O, Z, f, g, _, _, rfl⟩ := h
  rfl

theorem contractPair_claim (A : Asked s D) (T : Ties s D) {n : Nat} {e : Env} (he : Good (.rest s) e) {i j : Nat}
    (hi : D i) {x y : Str} {X Y t : Syn} (hX : Spelt (.rest s) i x X) (hY : ArrowTree s j y Y) {ca ca' : Cache}
    (hk : Kept (.rest s) D ca) (hn : Known (.rest s) D ca)
    (h : (search n).contractPair e X Y ca = .ok (t, ca')) :
    (∃ f g, t = .branch (some (claimText x y)) none X Y f g) ∧ Kept (.rest s) D ca' ∧ Known (.rest s) D ca' := by
  unfold contractPair at h
  obtain ⟨q, ca1, h1, h2⟩ := SM.bind_ok.1 h
  obtain ⟨h1', rfl⟩ := SM.lift_ok.1 h1
  have hq := pairConcept_unstored (fun a b m ha hb => by rw [arrow_concept hY] at hb; cases hb) h1'
  subst hq
  obtain ⟨u, ca2, h3, h4⟩ := SM.bind_ok.1 h2
  cases h4
  obtain ⟨rfl, k1, n1⟩ := displayJoint_claim A T he hi hX hY hk hn h3
  exact ⟨⟨_, _, rfl⟩, k1, n1⟩

theorem combine_claim (A : Asked s D) (T : Ties s D) {n : Nat} {e : Env} (he : Good (.rest s) e) {i j : Nat}
    (hi : D i) {x y : Str} {X Y t : Syn} (hX : Spelt (.rest s) i x X) (hY : ArrowTree s j y Y) {ca ca' : Cache}
    (hk : Kept (.rest s) D ca) (hn : Known (.rest s) D ca)
    (h : (search n).combine e X Y ca = .ok (t, ca')) :
    ClaimTree s i j x y t ∧ Kept (.rest s) D ca' ∧ Known (.rest s) D ca' := by
  unfold combine at h
  obtain ⟨q, ca1, h1, h2⟩ := SM.bind_ok.1 h
  obtain ⟨h1', rfl⟩ := SM.lift_ok.1 h1
  have hq := pairConcept_unstored (fun a b m ha hb => by rw [arrow_concept hY] at hb; cases hb) h1'
  subst hq
  have h2 : (search n).join e X Y _ = .ok (t, ca') := h2
  unfold join at h2
  obtain ⟨u, ca2, h3, h4⟩ := SM.bind_ok.1 h2
  cases h4
  obtain ⟨rfl, k1, n1⟩ := displayJoint_claim A T he hi hX hY hk hn h3
  exact ⟨⟨X, Y, _, _, hX, hY, rfl⟩, k1, n1⟩

/-- The tree of `true` or `false`. -/
theorem concreteAst_truth (A : Asked s D) (T : Ties s D) {n : Nat} {e : Env} (he : Good (.rest s) e) {b : Bool}
    {ca ca' : Cache} {o : Option Syn} (hk : Kept (.rest s) D ca) (hn : Known (.rest s) D ca)
    (h : (search n).concreteAst e (if b then .tru else .fls) ca = .ok (o, ca')) :
    (∃ t, o = some t ∧ TruthTree s b t) ∧ Kept (.rest s) D ca' ∧ Known (.rest s) D ca' := by
  unfold concreteAst at h
  obtain ⟨o1, _, h1, h⟩ := SM.bind_ok.1 h
  obtain ⟨h1', rfl⟩ := SM.lift_ok.1 h1
  have := he.concreteId h1'
  rw [T.concrete] at this
  subst this
  dsimp only [Option.map_some] at h
  obtain ⟨t, ca1, h2, h⟩ := SM.bind_ok.1 h
  cases h
  have hS := search_calm (W := .rest s) A.lone n
  refine ⟨⟨t, rfl, ?_⟩, hS.toAst _ _ he _ _ _ hk h2,
    (toAst_reds he (built_simple (T.built _)) h2).known hn⟩
  refine (hS.built _ _ _ _ _ he hk h2).spelt ?_ ?_
  · cases b
    · exact T.wide.names (.fls, str% "false") (by simp [spoken])
    · exact T.wide.names (.tru, str% "true") (by simp [spoken])
  · refine T.wide.constant _ ?_
    cases b <;> simp

/-- There are no compositions that a claim about two words is compared with. -/
theorem findGeneralisations_claim (A : Asked s D) (T : Ties s D) {e : Env} (he : Good (.rest s) e) {i j : Nat}
    (hi : D i) (hj : D j) {x y : Str} {X Y : Syn} (hX : Spelt (.rest s) i x X) (hY : ArrowTree s j y Y) {u f g} {gs : List CId}
    (h : findGeneralisations e.view (.branch u none X Y f g) = .ok gs) : ∀ k, k ∉ gs := by
  obtain ⟨wx, kx, rfl, _⟩ := hX
  obtain ⟨O, Z, f', g', hO, hZ, rfl⟩ := hY
  simp only [findGeneralisations, Except.bind_eq_ok] at h
  obtain ⟨g1, h1, g2, h2, _, ⟨⟩, g3, h3, g4, h4, h5⟩ := h
  simp only [HashOrder.order_nil, compositionsOf, Syn.concept, Option.toList_none] at h2 h3
  cases h2
  cases h3
  have h4 : findGeneralisations e.view (.branch (some (arrowText y)) none O Z f' g') = .ok g4 := by
    simp only [findGeneralisations, Except.bind_eq_ok]
    exact h4
  intro k hk
  rcases ((Props.compositionsOf_members h5).2 k).1 hk with hk | ⟨q, hm, m, hr, p, hp, rfl⟩
  · rcases ((Props.compositionsOf_members h1).2 k).1 hk with hk | ⟨_, hm, m, hr, p, hp, rfl⟩
    · cases hk
    · simp only [Syn.concept, Option.toList_some, List.mem_singleton] at hm
      subst hm
      obtain ⟨c, hc, M⟩ := he.read (W := .rest s) (k := i) hr
      obtain ⟨y, q, e, hy⟩ := M.hands _ _ hp
      have hg := AMap.get?_of_mem _ (T.maps _ c hc).1 _ _ hy
      obtain ⟨cq, h1, h2⟩ := (A.lone.rev _ c y q hc).1 hg
      exact (A.lone.words i hi).2.2 q y ⟨cq, h1, by rw [composition_eq]; exact h2⟩
  · obtain ⟨q, rfl, hq⟩ := findGeneralisations_words he A.lone T hO.plain hZ.plain h4 q (HashOrder.mem_order.1 hm)
    obtain ⟨c, hc, M⟩ := he.read hr
    obtain ⟨z, v, e, hy⟩ := M.hands _ _ hp
    have hg := AMap.get?_of_mem _ (T.maps _ c hc).2 _ _ hy
    obtain ⟨cq, h1, h2⟩ := (A.lone.rev _ c z v hc).2 hg
    have hv : ComposedOf s v z q := ⟨cq, h1, by rw [composition_eq]; exact h2⟩
    rcases hq with ⟨w, hq⟩ | ⟨w, hq⟩
    · exact (T.wide.above v z q w hv).1 hq
    · cases T.right j (.inl hj) q w hq
      exact (T.wide.above v z q j hv).2 hq

/-- One step of the reduction of `x (-> y)`. -/
theorem reduce_claim (A : Asked s D) (T : Ties s D) {n : Nat} {e : Env} (he : Good (.rest s) e) {i j : Nat} (hi : D i)
    (hj : D j) {x y : Str} {U : Syn} (hU : ClaimTree s i j x y U) {ca ca' : Cache} {r : RR} (hk : Kept (.rest s) D ca)
    (hn : Known (.rest s) D ca) (h : (search n).reduce e U ca = .ok (r, ca')) :
    RightClaim s i j r ∧ Kept (.rest s) D ca' ∧ Known (.rest s) D ca' := by
  suffices hs : RightClaim s i j r ∧ Known (.rest s) D ca' from
    ⟨hs.1, (search_calm (W := .rest s) A.lone n).reduce _ _ he _ _ _ hk h, hs.2⟩
  obtain ⟨X, Y, f, g, hX, hY, rfl⟩ := hU
  have wy : PlainWord s j y := by
    obtain ⟨_, _, _, _, _, hZ, _⟩ := hY
    exact hZ.1
  cases n with
  | zero => cases h
  | succ n =>
    have h : (search n).reduceF e (.branch (some (claimText x y)) none X Y f g) ca = .ok (r, ca') := h
    unfold reduceF at h
    obtain ⟨ca0, _, h0, h⟩ := SM.bind_ok.1 h
    cases h0
    cases hx : ca.reduction? (.branch (some (claimText x y)) none X Y f g) with
    | some x =>
      rw [hx] at h
      cases h
      exact ⟨Noted.ofClaim T.tidy hi hj hX.1 wy (hn.noted rfl rfl hx), hn⟩
    | none =>
      rw [hx] at h
      obtain ⟨o, _, h1, h⟩ := SM.bind_ok.1 h
      cases h1
      obtain ⟨r1, ca1, h1, h⟩ := SM.bind_ok.1 h
      obtain ⟨_, ca2, h2, h⟩ := SM.bind_ok.1 h
      cases h2
      cases h
      suffices hh : RightClaim s i j r ∧ Known (.rest s) D ca1 from
        ⟨hh.1, hh.2.insert_other rfl rfl (.claim hi hj hX.1 wy hh.1)⟩
      unfold reduceNow at h1
      dsimp only [Syn.concept, Syn.expansion] at h1
      simp only [pure_bind] at h1
      unfold reducePair at h1
      have xX : X.expansion = none := by
        obtain ⟨_, _, rfl, _⟩ := hX
        rfl
      obtain ⟨O, Z, f', g', hO, hZ, eY⟩ := id hY
      have xY : Y.expansion = some (O, Z) := by rw [eY]; rfl
      rw [xY, xX] at h1
      obtain ⟨r2, ca2, h2, h1⟩ := SM.bind_ok.1 h1
      unfold reduceByRight at h2
      obtain ⟨o, _, h3, h2⟩ := SM.bind_ok.1 h2
      obtain ⟨h3', rfl⟩ := SM.lift_ok.1 h3
      have : o = some .reduction := by
        simp only [cctOfAst, hO.plain.concept, View.cct, Except.bind_eq_ok, Except.pure_eq_ok] at h3'
        obtain ⟨m, hm, rfl⟩ := h3'
        obtain ⟨c', hc', M⟩ := he.read hm
        obtain ⟨c, hc, ht⟩ := T.built .reduction
        rw [hc] at hc'; cases hc'
        rw [M.cct, ht]
      subst this
      dsimp only at h2
      obtain ⟨tr, ca3, h4, h2⟩ := SM.bind_ok.1 h2
      obtain ⟨hd, k3, n3⟩ := reductionTruth_right A T.tidy he hi hj hX hZ hk hn h4
      cases tr with
      | some p =>
        obtain ⟨b, why⟩ := p
        dsimp only at h2
        obtain ⟨o, ca4, h5, h2⟩ := SM.bind_ok.1 h2
        obtain ⟨⟨t, rfl, ht⟩, k4, n4⟩ := concreteAst_truth A T he k3 n3 h5
        cases h2
        cases h1
        refine ⟨?_, n4⟩
        cases hd with
        | same e => exact .same e ht
        | leads ne p => exact .leads ne p ht
        | reverse ne p => exact .reverse ne p ht
      | none =>
        cases h2
        dsimp only at h1
        simp only [pure_bind] at h1
        cases hd with
        | open_ ne p q =>
        unfold recursivelyReducePair at h1
        obtain ⟨lr, ca4, h5, h1'⟩ := SM.bind_ok.1 h1
        clear h1
        obtain ⟨hl, k4, n4⟩ := reduce_spelt A he hi hX k3 n3 h5
        obtain ⟨rr, ca5, h6, h1⟩ := SM.bind_ok.1 h1'
        clear h1'
        obtain ⟨hr, k5, n5⟩ := reduce_arrow A T he hj hY k4 n4 h6
        have mX := unmasked he (A.lone.words i hi).2.1
        rcases hl with ⟨k, z, Z', why, hz, dk, hZ', rfl⟩ | ⟨hno, rfl⟩
        · by_cases hj' : ∃ j', ReducesTo s j j'
          · obtain ⟨j', hj'⟩ := hj'
            obtain ⟨y', Y', why', rfl, hY'⟩ := hr.1 j' hj'
            dsimp only at h1
            obtain ⟨t, ca6, h7, h1⟩ := SM.bind_ok.1 h1
            cases h1
            obtain ⟨⟨f1, g1, rfl⟩, k6, n6⟩ := contractPair_claim A T he dk hZ' hY' k5 n5 h7
            exact ⟨.moved ne p q ⟨k, .inl hz⟩ (.inl hz) (.inl hj') ⟨_, _, _, _, hZ', hY', rfl⟩, n6⟩
          · have hj' : ∀ k, ¬ReducesTo s j k := fun k hk => hj' ⟨k, hk⟩
            cases hr.2 hj'
            dsimp only at h1
            obtain ⟨t, ca6, h7, h1⟩ := SM.bind_ok.1 h1
            cases h1
            rw [arrow_concept hY] at h7
            have h7 : (search n).contractPair e Z' Y ca5 = .ok (t, ca1) := h7
            obtain ⟨⟨f1, g1, rfl⟩, k6, n6⟩ := contractPair_claim A T he dk hZ' hY k5 n5 h7
            exact ⟨.moved ne p q ⟨k, .inl hz⟩ (.inl hz) (.inr ⟨rfl, hj'⟩) ⟨_, _, _, _, hZ', hY, rfl⟩, n6⟩
        · by_cases hj' : ∃ j', ReducesTo s j j'
          · obtain ⟨j', hj'⟩ := hj'
            obtain ⟨y', Y', why', rfl, hY'⟩ := hr.1 j' hj'
            dsimp only at h1
            obtain ⟨t, ca6, h7, h1⟩ := SM.bind_ok.1 h1
            cases h1
            rw [hX.plain.concept, Option.bind_some, mX] at h7
            have h7 : (search n).contractPair e X Y' ca5 = .ok (t, ca1) := h7
            obtain ⟨⟨f1, g1, rfl⟩, k6, n6⟩ := contractPair_claim A T he hi hX hY' k5 n5 h7
            exact ⟨.moved ne p q ⟨j', .inr hj'⟩ (.inr ⟨rfl, hno⟩) (.inl hj') ⟨_, _, _, _, hX, hY', rfl⟩, n6⟩
          · have hj' : ∀ k, ¬ReducesTo s j k := fun k hk => hj' ⟨k, hk⟩
            cases hr.2 hj'
            dsimp only at h1
            obtain ⟨t, ca6, h7, h1⟩ := SM.bind_ok.1 h1
            obtain ⟨⟨f1, g1, rfl⟩, k6, n6⟩ := contractPair_claim A T he hi hX hY k5 n5 h7
            obtain ⟨gs, _, h8, h1⟩ := SM.bind_ok.1 h1
            obtain ⟨h8', rfl⟩ := SM.lift_ok.1 h8
            obtain ⟨rfl, rfl⟩ := genLoop_none (fun k hk o ho =>
              absurd (HashOrder.mem_order.1 hk) (findGeneralisations_claim A T he hi hj hX hY h8' k)) h1
            exact ⟨.stuck ne hno hj', n6⟩

/-- What the answer to the question whether `i` reduces to `j` is: a truth value, or a question that stays open. -/
inductive _root_.Zia.Judgement (s : Snap) : Nat → Nat → Bool ⊕ (Nat × Nat) → Prop
  | same {i : Nat} : Judgement s i i (.inl false)
  | leads {i j : Nat} (ne : i ≠ j) (p : TransGen (ReducesTo s) i j) : Judgement s i j (.inl true)
  | reverse {i j : Nat} (ne : i ≠ j) (p : TransGen (ReducesTo s) j i) : Judgement s i j (.inl false)
  | stuck {i j : Nat} (ne : i ≠ j) (hi : ∀ k, ¬ReducesTo s i k) (hj : ∀ k, ¬ReducesTo s j k) :
      Judgement s i j (.inr (i, j))
  | moved {i j i' j' : Nat} {v : Bool ⊕ (Nat × Nat)} (ne : i ≠ j) (p : ¬TransGen (ReducesTo s) i j)
      (q : ¬TransGen (ReducesTo s) j i) (m : ∃ k, ReducesTo s i k ∨ ReducesTo s j k) (hi : Next s i i')
      (hj : Next s j j') (h : Judgement s i' j' v) : Judgement s i j v

/-- The tree of the answer. -/
def _root_.Zia.JudgedTree (s : Snap) (D : Nat → Prop) (t : Syn) : Bool ⊕ (Nat × Nat) → Prop
  | .inl b => TruthTree s b t
  | .inr (p, q) => D p ∧ D q ∧ p ≠ q ∧ (∀ k, ¬ReducesTo s p k) ∧ (∀ k, ¬ReducesTo s q k) ∧ ∃ x y, ClaimTree s p q x y t

theorem _root_.Zia.Next.word (A : Asked s D) {i k : Nat} (hi : D i) (h : Next s i k) : D k := by
  rcases h with h | ⟨rfl, _⟩
  · exact A.closed _ _ hi h
  · exact hi

theorem recReduce_truth (T : Ties s D) {n : Nat} {e : Env} (he : Good (.rest s) e) {b : Bool} {t : Syn}
    (ht : TruthTree s b t) {ca ca' : Cache} (hn : Known (.rest s) D ca) {why why' : Option Reason} {nf : Syn}
    (h : (search n).recReduce e t why ca = .ok ((nf, why'), ca')) : nf = t ∧ ca' = ca := by
  cases n with
  | zero => cases h
  | succ n =>
    have h : (search n).recReduceF e t why ca = .ok ((nf, why'), ca') := h
    unfold recReduceF at h
    obtain ⟨r, ca1, h1, hz⟩ := SM.bind_ok.1 h
    clear h
    obtain ⟨rfl, rfl⟩ := reduce_built he (T.built _) ht.plain hn h1
    cases hz
    exact ⟨rfl, rfl⟩

/-- What repeated reduction of `x (-> y)` ends with. -/
theorem recReduce_claim (A : Asked s D) (T : Ties s D) {n : Nat} {e : Env} (he : Good (.rest s) e) {i j : Nat} (hi : D i)
    (hj : D j) {x y : Str} {U : Syn} (hU : ClaimTree s i j x y U) {ca ca' : Cache} {why why' : Option Reason} {nf : Syn}
    (hk : Kept (.rest s) D ca) (hn : Known (.rest s) D ca)
    (h : (search n).recReduce e U why ca = .ok ((nf, why'), ca')) :
    (∃ v, Judgement s i j v ∧ JudgedTree s D nf v) ∧ Kept (.rest s) D ca' ∧ Known (.rest s) D ca' := by
  induction n generalizing i j x y U ca why with
  | zero => cases h
  | succ n ih =>
    have h : (search n).recReduceF e U why ca = .ok ((nf, why'), ca') := h
    unfold recReduceF at h
    obtain ⟨r, ca1, h1, h⟩ := SM.bind_ok.1 h
    obtain ⟨hr, k1, n1⟩ := reduce_claim A T he hi hj hU hk hn h1
    cases hr with
    | same e ht =>
      subst e
      obtain ⟨rfl, rfl⟩ := recReduce_truth T he ht n1 h
      exact ⟨⟨_, .same, ht⟩, k1, n1⟩
    | leads ne p ht =>
      obtain ⟨rfl, rfl⟩ := recReduce_truth T he ht n1 h
      exact ⟨⟨_, .leads ne p, ht⟩, k1, n1⟩
    | reverse ne p ht =>
      obtain ⟨rfl, rfl⟩ := recReduce_truth T he ht n1 h
      exact ⟨⟨_, .reverse ne p, ht⟩, k1, n1⟩
    | stuck ne h2 h3 =>
      cases h
      exact ⟨⟨_, .stuck ne h2 h3, hi, hj, ne, h2, h3, _, _, hU⟩, k1, n1⟩
    | moved ne p q m h2 h3 ht =>
      obtain ⟨⟨v, h4, h5⟩, k2, n2⟩ := ih (h2.word A hi) (h3.word A hj) ht k1 n1 h
      exact ⟨⟨v, .moved ne p q m h2 h3 h4, h5⟩, k2, n2⟩

end Search

end Zia

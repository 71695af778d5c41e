import Verif.Lemmas.Told
import Verif.Lemmas.Forget
import Verif.Lemmas.Query

/-!
# Asking after forgetting

What the store is after `forget x`, concept by concept, and that the conditions under which a word is answered with
what it reduces to are kept.
-/

namespace Zia
open CM Spec Relation
set_option linter.unusedSectionVars false

/-- The reduction of `i` to `j` was forgotten. -/
structure Lost (s s' : Snap) (i j : Nat) : Prop where
  rest : Forgotten s s' i
  before : ReducesTo s i j
  self : ∃ mc red, specs s i = some (.abst mc red) ∧ specs s' i = some (.abst mc none)
  old : ∀ k, k ≠ i → specs s' k = specs s k
  others : ∀ k, k ≠ j → froms s' k = froms s k
  fewer : ∀ k a, ListsReduced s' k a → ListsReduced s k a
  table : s'.stringMap = s.stringMap

variable {s s' : Snap} {i j : Nat}

/-- Forgetting does that. -/
theorem lost_of [HashOrder] {c : Ctx} {d : Nested} (hs : RefsInv c.snap) (hd : c.delta = Nested.default)
    {id : CId} (hj : ReducesTo c.snap i j)
    (hu : c.delta.update (.reduce (.com i) (.remove (.com j))) = .ok (d, id))
    (ha : c.snap.apply d = .ok s') : Lost c.snap s' i j := by
  have hF := forgotten_store hs hd hu ha
  rw [hd] at hu
  obtain ⟨o, e, hid, hup⟩ := Nested.update_base hu
  have ho := Nested.update_order hu
  rw [e] at ha ho
  obtain ⟨g, g', h1, h2, rfl⟩ := apply_base ha
  have ho : o.order = [(id, .reduce (.com i) (.remove (.com j)))] := ho
  have hid : id = .com i := hid
  subst hid
  have hstr : o.string = [] := by
    rw [hup.string.2 fun t e => by cases e]
    rfl
  rw [ho] at h1
  rw [hstr] at h2
  cases h2
  have h1 : c.snap.applyOne (.com i, .reduce (.com i) (.remove (.com j))) = .ok g := by
    simp only [Snap.applyAll, Except.bind_eq_ok] at h1
    obtain ⟨a, b, d⟩ := h1
    cases d
    exact b
  have st := applyOne_step h1
  cases st with
  | reduceRemove _ _ k bi ck cb mc red hk hb hne hck hcb hs' =>
    cases hk
    cases hb
    have l1 := lt_of_get hck
    have l2 := lt_of_get hcb
    have hsp : ∀ m, specs { c.snap.withConcepts ((c.snap.concepts.set i (ck.withSpec (.abst mc none))).set j
        (cb.dropFrom ck.id)) with prev := [] } m = updS (specs c.snap) i (.abst mc none) m := by
      intro m
      simp only [specs, look, Snap.withConcepts, updS, List.getElem?_set, List.length_set]
      by_cases e1 : j = m
      · subst e1
        rw [if_pos rfl, if_pos l2, if_neg (fun e => hne e.symm), hcb]; rfl
      · rw [if_neg e1]
        by_cases e2 : i = m
        · subst e2
          rw [if_pos rfl, if_pos rfl, if_pos l1]; rfl
        · rw [if_neg e2, if_neg (fun e => e2 e.symm)]
    refine ⟨hF, hj, ⟨mc, red, by rw [specs_get hck, hs'], (hsp i).trans (by simp [updS])⟩, ?_, ?_, ?_, rfl⟩
    · intro k hk
      exact (hsp k).trans (by simp [updS, hk])
    · intro k hk
      simp only [froms, Snap.withConcepts, List.getElem?_set, List.length_set]
      rw [if_neg (fun e => hk e.symm)]
      by_cases e2 : i = k
      · subst e2
        rw [if_pos rfl, if_pos l1, hck]; rfl
      · rw [if_neg e2]
    · rintro k a ⟨c', hc', hm⟩
      simp only [Snap.withConcepts, List.getElem?_set, List.length_set] at hc'
      by_cases e1 : j = k
      · subst e1
        rw [if_pos rfl, if_pos l2] at hc'
        cases hc'
        exact ⟨cb, hcb, (List.mem_filter.1 hm).1⟩
      · rw [if_neg e1] at hc'
        by_cases e2 : i = k
        · subst e2
          rw [if_pos rfl, if_pos l1] at hc'
          cases hc'
          exact ⟨ck, hck, hm⟩
        · rw [if_neg e2] at hc'
          exact ⟨c', hc', hm⟩

namespace Lost

variable (T : Lost s s' i j)
include T

theorem reduces {a b : Nat} : ReducesTo s' a b ↔ a ≠ i ∧ ReducesTo s a b := by
  by_cases e : a = i
  · subst e
    exact ⟨fun h => absurd h (T.rest.gone b), fun h => absurd rfl h.1⟩
  · rw [T.rest.reductions a b e]
    exact ⟨fun h => ⟨e, h⟩, fun h => h.2⟩

theorem chain {a b : Nat} (h : ReflTransGen (ReducesTo s') a b) : ReflTransGen (ReducesTo s) a b :=
  ReflTransGen.mono (fun _ _ h => (T.reduces.1 h).2) _ _ h

/-- The name of a concept is kept, if what was forgotten does not lead to a string. -/
theorem named (off : ∀ q t, ReflTransGen (ReducesTo s) i q → ¬IsString s q t) {z : Nat} {t : Str} :
    HasName s' z t ↔ HasName s z t := by
  constructor
  · rintro ⟨k, q, h1, h2, h3⟩
    exact ⟨k, q, (T.rest.definitions _ _ _).1 h1, TransGen.mono (fun _ _ h => (T.reduces.1 h).2) _ _ h2,
      (T.rest.strings _ _).1 h3⟩
  · rintro ⟨k, q, h1, h2, h3⟩
    refine ⟨k, q, (T.rest.definitions _ _ _).2 h1, ?_, (T.rest.strings _ _).2 h3⟩
    clear h1
    induction h2 using TransGen.head_induction_on with
    | single h =>
      refine .single (T.reduces.2 ⟨?_, h⟩)
      rintro rfl
      exact off _ _ (.single h) h3
    | head h h' ih =>
      refine .head (T.reduces.2 ⟨?_, h⟩) ih
      rintro rfl
      exact off _ _ (.head h h'.to_reflTransGen) h3

theorem shown (off : ∀ q t, ReflTransGen (ReducesTo s) i q → ¬IsString s q t) {k : Nat} (h : ShownAsVariable s' k) :
    ShownAsVariable s k := by
  obtain ⟨z, t, h1, h2, h3⟩ := h
  exact ⟨z, t, T.chain h1, (T.named off).1 h2, h3⟩

theorem ofVariables {k : Nat} (h : OfVariables s' k) : OfVariables s k := by
  obtain ⟨c', hc', ha⟩ := h
  have hsp := specs_get hc'
  by_cases e : k = i
  · subst e
    obtain ⟨mc, red, h1, h2⟩ := T.self
    rw [h2] at hsp
    simp only [Option.some.injEq] at hsp
    simp only [specs, look, Option.map_eq_some_iff] at h1
    obtain ⟨c, hc, e⟩ := h1
    refine ⟨c, hc, ?_⟩
    unfold Concept.isAnonymous at ha ⊢
    rw [← hsp] at ha
    rw [e]
    cases mc with
    | comp => exact ha
    | leaf l => cases l <;> exact ha
  · rw [T.old k e] at hsp
    simp only [specs, look, Option.map_eq_some_iff] at hsp
    obtain ⟨c, hc, e⟩ := hsp
    refine ⟨c, hc, ?_⟩
    unfold Concept.isAnonymous at ha ⊢
    rw [e]
    exact ha

variable (off : ∀ q t, ReflTransGen (ReducesTo s) i q → ¬IsString s q t)
include off

theorem varies {k : Nat} (h : MayVary s' k) : MayVary s k :=
  h.imp T.ofVariables (T.shown off)

/-- A concept with a name and without definition stays such. -/
theorem keepsPlain {q : Nat} {t : Str} (ht : PlainWord s q t) : PlainWord s' q t :=
  ⟨(T.named off).2 ht.name, fun l r h => ht.simple l r ((T.rest.definitions _ _ _).1 h),
    fun u h => ht.nostring u ((T.rest.strings _ _).1 h), ht.constant⟩

theorem keepsWord {q : Nat} {t : Str} (ht : PlainWord s q t) (hu : Unconnected s q) :
    PlainWord s' q t ∧ Unconnected s' q :=
  ⟨⟨(T.named off).2 ht.name, fun l r h => ht.simple l r ((T.rest.definitions _ _ _).1 h),
      fun u h => ht.nostring u ((T.rest.strings _ _).1 h), ht.constant⟩,
    fun k r h => hu.left k r ((T.rest.definitions _ _ _).1 h), fun k l h => hu.right k l ((T.rest.definitions _ _ _).1 h),
    fun h => hu.constant (T.varies off h)⟩

/-- There still is no rule about everything. -/
theorem noBlanketRule (hr : NoBlanketRule s) : NoBlanketRule s' := by
  have D := fun k l r => T.rest.definitions k l r
  refine ⟨fun k l r h hs => hr.names k l r ((D _ _ _).1 h) (T.shown off hs),
    fun t ht hs => hr.operators t ht (T.shown off hs), ?_, ?_⟩
  · intro e r h hv
    obtain ⟨l', r', h'⟩ := hr.conclusions e r ((D _ _ _).1 h) (T.varies off hv)
    exact ⟨l', r', (D _ _ _).2 h'⟩
  · intro e l r q p d hc hl hq hpd hp
    obtain ⟨h1, h2⟩ := hr.rules e l r q p d ((D _ _ _).1 hc) (hl.imp_right (T.varies off))
      (hq.imp_right (T.fewer _ _)) ((D _ _ _).1 hpd) (T.varies off hp)
    refine ⟨fun hd => ?_, fun l' r' hd => ?_⟩
    · obtain ⟨l', r', h3⟩ := h1 (T.varies off hd)
      exact ⟨l', r', (D _ _ _).2 h3⟩
    · obtain ⟨h3, h4⟩ := h2 l' r' ((D _ _ _).1 hd)
      exact ⟨h3, fun hv => h4 (T.varies off hv)⟩

omit off in
/-- What is read of a concept other than the one that was reduced to is what was read before. -/
theorem sameRead {k : Nat} {c : Con} (hk : s.concepts[k]? = some c) : ∃ c', s'.concepts[k]? = some c' ∧
      c'.composition = c.composition ∧ (k ≠ j → c'.redFrom = c.redFrom) ∧ c'.cct = c.cct := by
  have hlen : k < s'.concepts.length := by rw [T.rest.same]; exact lt_of_get hk
  have hk' : s'.concepts[k]? = some s'.concepts[k] := List.getElem?_eq_getElem hlen
  refine ⟨_, hk', ?_⟩
  have hfr : k ≠ j → s'.concepts[k].redFrom = c.redFrom := by
    intro hkj
    have h1 := T.others k hkj
    unfold froms at h1
    rw [hk, hk'] at h1
    simpa using h1
  by_cases e : k = i
  · subst e
    obtain ⟨mc, red, h3, h2⟩ := T.self
    rw [specs_get hk'] at h2
    rw [specs_get hk] at h3
    simp only [Option.some.injEq] at h2 h3
    exact ⟨by rw [composition_eq, composition_eq, h2, h3]; cases mc <;> rfl, hfr, by simp [Concept.cct, h2, h3]⟩
  · have h2 := T.old k e
    rw [specs_get hk', specs_get hk] at h2
    simp only [Option.some.injEq] at h2
    exact ⟨by rw [composition_eq, composition_eq, h2], hfr, by simp [Concept.cct, h2]⟩

omit off in
theorem sameCct {k : Nat} {c : Con} (hk : s.concepts[k]? = some c) :
    (View.mk s' Nested.default).cct (.com k) = (View.mk s Nested.default).cct (.com k) := by
  obtain ⟨c', h1, _, _, h2⟩ := T.sameRead hk
  unfold View.cct
  rw [rest_read hk, rest_read h1]
  exact congrArg Except.ok h2

theorem sameLoop [HashOrder] (hs : RefsInv s) (hv : RedRev (look s.concepts)) {z : Nat} {t : Str}
    (hz : IsString s z t) : ∀ (n : Nat) (L : List CId),
    (∀ a ∈ L, ∃ k, a = .com k ∧ TransGen (ReducesTo s) k z) →
    (View.mk s' Nested.default).labelleeLoop n L = (View.mk s Nested.default).labelleeLoop n L := by
  intro n
  induction n with
  | zero => intros; rfl
  | succ n ih =>
    intro L hL
    cases L with
    | nil => rfl
    | cons a L =>
      obtain ⟨k, rfl, hk⟩ := hL a List.mem_cons_self
      have hlt : k < s.concepts.length := by
        cases hk using TransGen.head_induction_on with
        | single h => exact (reducesTo_lt hs h).1
        | head h _ _ => exact (reducesTo_lt hs h).1
      have hc : s.concepts[k]? = some s.concepts[k] := List.getElem?_eq_getElem hlt
      have hkj : k ≠ j := by
        rintro rfl
        exact off z t (.head T.before hk.to_reflTransGen) hz
      obtain ⟨c', h1, h2, h3, _⟩ := T.sameRead hc
      have h3 := h3 hkj
      have e1 : (Mixed.ofCon c').reducesFrom = (Mixed.ofCon s.concepts[k]).reducesFrom := by
        show (((HashOrder.order c'.redFrom).map CId.com).filter _) ++ _ = _
        rw [h3]; rfl
      have e2 : (Mixed.ofCon c').composition = (Mixed.ofCon s.concepts[k]).composition := by
        show c'.composition.map _ = s.concepts[k].composition.map _
        rw [h2]
      have next : ∀ a ∈ L ++ (Mixed.ofCon s.concepts[k]).reducesFrom,
          ∃ k, a = .com k ∧ TransGen (ReducesTo s) k z := by
        intro a ha
        rcases List.mem_append.1 ha with ha | ha
        · exact hL a (List.mem_cons_of_mem _ ha)
        · obtain ⟨j, rfl, hj⟩ := ofCon_reducesFrom.1 ha
          exact ⟨j, rfl, .head (reducesTo_iff.2 (hv k _ j hc hj)) hk⟩
      have ih := ih _ next
      have hr : ∀ r x, (Mixed.ofCon s.concepts[k]).composition = some (r, x) →
          (View.mk s' Nested.default).cct r = (View.mk s Nested.default).cct r := by
        intro r x h
        have h : s.concepts[k].composition.map (fun p => (CId.com p.1, CId.com p.2)) = some (r, x) := h
        cases hp : s.concepts[k].composition with
        | none => rw [hp] at h; cases h
        | some p =>
          rw [hp] at h
          cases h
          have := (composedOf_lt hs (k := k) (l := p.1) (r := p.2) ⟨_, hc, hp⟩).1
          exact T.sameCct (List.getElem?_eq_getElem this)
      simp only [View.labelleeLoop]
      rw [rest_read hc, rest_read h1]
      simp only [bind, Except.bind, e1, e2, ih]
      cases hm : (Mixed.ofCon s.concepts[k]).composition with
      | none => rfl
      | some p =>
        obtain ⟨r, x⟩ := p
        simp only [hr r x hm]

/-- Every word stands for what it stood for before. -/
theorem sameLookup [HashOrder] (hs : Nameable s) (hv : RedRev (look s.concepts)) (t : Str) (n : Nat) :
    (View.mk s' Nested.default).conceptFromLabel n t = (View.mk s Nested.default).conceptFromLabel n t := by
  have e : (View.mk s' Nested.default).stringConcept t = (View.mk s Nested.default).stringConcept t := by
    show Except.ok ((s'.stringMap.get? t).map CId.com) = Except.ok ((s.stringMap.get? t).map CId.com)
    rw [T.table]
  unfold View.conceptFromLabel
  rw [e]
  cases hz : s.stringMap.get? t with
  | none =>
    have : (View.mk s Nested.default).stringConcept t = .ok none := by
      show Except.ok ((s.stringMap.get? t).map CId.com) = _
      rw [hz]; rfl
    rw [this]; rfl
  | some z =>
    have : (View.mk s Nested.default).stringConcept t = .ok (some (.com z)) := by
      show Except.ok ((s.stringMap.get? t).map CId.com) = _
      rw [hz]; rfl
    rw [this]
    show (View.mk s' Nested.default).labellee n (.com z) = (View.mk s Nested.default).labellee n (.com z)
    have hzt : IsString s z t := isString_iff.2 (hs.strings t z (AMap.mem_of_get? _ _ _ hz))
    obtain ⟨cz, hcz, _⟩ := id hzt
    obtain ⟨c', h1, _, h3, _⟩ := T.sameRead hcz
    have h3 := h3 (by
      rintro rfl
      exact off z t (.single T.before) hzt)
    unfold View.labellee
    rw [rest_read hcz, rest_read h1]
    have e1 : (Mixed.ofCon c').reducesFrom = (Mixed.ofCon cz).reducesFrom := by
      show (((HashOrder.order c'.redFrom).map CId.com).filter _) ++ _ = _
      rw [h3]; rfl
    simp only [bind, Except.bind, e1]
    exact T.sameLoop off hs.refs hv hzt n _ fun a ha => by
      obtain ⟨k, rfl, hk⟩ := ofCon_reducesFrom.1 ha
      exact ⟨k, rfl, .single (reducesTo_iff.2 (hv z cz k hcz hk))⟩

end Lost

/-! ## The command -/

variable [HashOrder] {W : Stand s} {D : Nat → Prop}

/-- The pair of two words is written without a search. -/
theorem Search.combine_words {S : Search} {e : Env} {a b : CId} {l r t : Syn} (pl : Plain a l) (pr : Plain b r)
    {ca ca' : Cache} (h : S.combine e l r ca = .ok (t, ca')) : ca' = ca := by
  obtain ⟨u, k, rfl, _⟩ := pl
  obtain ⟨u', k', rfl, _⟩ := pr
  have join : ∀ {t ca ca'}, S.join e (.leaf (some u) (some a) k) (.leaf (some u') (some b) k') ca = .ok (t, ca') →
      ca' = ca := by
    intro t ca ca' h
    unfold Search.join at h
    obtain ⟨w, ca1, h1, h2⟩ := SM.bind_ok.1 h
    cases h2
    unfold Search.displayJoint at h1
    simp only [Syn.expansion, ite_self, pure_bind] at h1
    obtain ⟨x, ca2, h3, h4⟩ := SM.bind_ok.1 h1
    obtain ⟨_, rfl⟩ := SM.lift_ok.1 h3
    obtain ⟨y, ca3, h5, h6⟩ := SM.bind_ok.1 h4
    obtain ⟨_, rfl⟩ := SM.lift_ok.1 h5
    cases h6
    rfl
  unfold Search.combine at h
  obtain ⟨o, ca1, h1, h2⟩ := SM.bind_ok.1 h
  obtain ⟨_, rfl⟩ := SM.lift_ok.1 h1
  cases o with
  | none => exact join h2
  | some q =>
    obtain ⟨t', ca2, h3, h4⟩ := SM.bind_ok.1 h2
    obtain ⟨_, rfl⟩ := SM.lift_ok.1 h4
    exact join h3

/-- The built-in concepts are recognised. -/
theorem Stand.cct_built (W : Stand s) {k : Nat} {t : CCT} (h : IsBuiltIn s k t) :
    (View.mk W.snap W.pend).cct (W.ι k) = .ok (some t) := by
  obtain ⟨ck, h1, h2⟩ := h
  obtain ⟨m, hm⟩ := W.readOf k ck h1
  obtain ⟨_, h1', M⟩ := W.read k m hm
  rw [h1] at h1'; cases h1'
  unfold View.cct
  rw [hm]
  show Except.ok m.cct = _
  rw [M.cct, h2]

/-- How the command `forget x` ends, for a word that may be asked about. -/
def ForgotWord (W : Stand s) (D : Nat → Prop) (d0 : Nested) (i : Nat) (x : Str) (r : Except ZiaError Str) (c' : Ctx) : Prop :=
  (∃ j, ReducesTo s i j ∧ r = .ok [] ∧ c'.cache = .empty ∧ ∃ id,
      d0.update (.reduce (W.ι i) (.remove (W.ι j))) = .ok (c'.delta, id)) ∨
    (∀ j, ¬ReducesTo s i j) ∧ Asking W D c' ∧ r = .error (.redundantReduction x)

theorem callForget_word {c : Ctx} (hc : Asking W D c) (hp : c.pinned = false) {i : Nat} {x : Str} {k : SLeaf} :
    Ends (Context.callForget (.leaf (some x) (some (W.ι i)) k)) c (fun r c' =>
      ForgotWord W D W.pend i x (r.map fun _ => []) c' ∧ ∀ o, r = .ok o → o = some []) := by
  unfold Context.callForget
  dsimp only [Syn.concept]
  refine Ends.bind (Ends.exclusive (fun _ => ?_) (fun h => by rw [hp] at h; cases h))
  show Ends _ _ _
  refine Ends.bind (Ends.ofE fun u hu => ?_)
  have hu : u = x := by cases hu; rfl
  subst hu
  show Ends _ _ _
  unfold Updater.deleteReduction
  refine Ends.bind (Ends.bind (Ends.reading fun m hm => ?_))
  show Ends _ _ _
  obtain ⟨ck, hk, M⟩ := hc.good.read hm
  cases hred : ck.reduction with
  | none =>
    have : m.reduction = none := by
      rw [M.reduction, hred]; rfl
    rw [this]
    refine Ends.throw ⟨.inr ⟨?_, ⟨hc.snap, hc.delta, hc.bound, hc.kept, hc.known⟩, rfl⟩, by simp⟩
    rintro j ⟨c1, h1, h2⟩
    rw [hk] at h1; cases h1
    rw [hred] at h2; cases h2
  | some j =>
    have : m.reduction = some (W.ι j) := by
      rw [M.reduction, hred]; rfl
    rw [this]
    refine Ends.bind (Ends.update fun d id h => ?_)
    refine Ends.pure ?_
    refine Ends.pure ⟨.inl ⟨j, ⟨ck, hk, hred⟩, rfl, rfl, id, hc.delta ▸ h⟩, ?_⟩
    rintro o ⟨⟩
    rfl

/-- How the command ends, given how reading it ends. -/
theorem forget_read (A : Asked s D) {n : Nat} {c0 : Ctx} {x : Str} {i : Nat} (hi : D i) (wx : PlainWord s i x)
    (cf : ¬MayVary s (builtin .forget)) (sf : ∀ l r, ¬ComposedOf s (builtin .forget) l r)
    (bf : IsBuiltIn s (builtin .forget) .forget)
    (hp : Ends (Parser.astFromExpression n (forgetting x)) c0 (fun r c => Asking W D c ∧ c.pinned = false ∧
      ∃ F X, Plain (W.ι (builtin .forget)) F ∧ Plain (W.ι i) X ∧ r = .ok (.newPair F X))) :
    Ends (Context.command n (forgetting x)) c0 (ForgotWord W D W.pend i x) := by
  unfold Context.command
  refine Ends.bind (hp.mono ?_)
  rintro _ c ⟨hc, hpin, F, X, pF, pX, rfl⟩
  show Ends _ _ _
  refine Ends.bind (Ends.searching fun t ca ht => ?_)
  show Ends _ _ _
  cases n with
  | zero => cases ht
  | succ n =>
    obtain ⟨F', X', ca1, ca2, x1, x2, x3⟩ := Search.expand_pair (hu := rfl) (hx := rfl) ht
    obtain ⟨tF, k1, n1⟩ := Search.expand_simple A hc.good sf pF hc.kept hc.known x1
    obtain ⟨tX, k2, n2⟩ := Search.expand_word A hc.good hi pX k1 n1 x2
    have pF' := tF.plain sf cf
    obtain ⟨w1, w2, _⟩ := A.lone.words i hi
    have pX' := tX.plain w1 w2
    have e3 := Search.combine_words pF' pX' x3
    obtain ⟨u, o, rfl, hk, _⟩ := Search.combine_paired x3
    subst e3
    generalize (Syn.pairVars F' X').1 = f, (Syn.pairVars F' X').2 = b at *
    generalize some u = u at *
    have hc1 : Asking W D { c with cache := ca } := ⟨hc.snap, hc.delta, hc.bound, k2, n2⟩
    have hcv : Parser.createVariables (.branch u o F' X' f b) = pure (.branch u o F' X' f b) := by
      simp only [Parser.createVariables, createVariables_plain pF', createVariables_plain pX', pure_bind]
    rw [hcv]
    refine Ends.bind (Ends.tryCatch (Ends.pure ?_))
    show Ends _ _ _
    unfold Context.call
    have hstr : Ends (Context.stringOf (.branch u o F' X' f b)) { c with cache := ca }
        (fun r c' => r = .ok none ∧ c' = { c with cache := ca }) := by
      unfold Context.stringOf
      cases o with
      | none => exact Ends.pure ⟨rfl, rfl⟩
      | some k =>
        obtain ⟨a, d, m, e1, e2, hm, hk⟩ := hk k rfl
        rw [pF'.concept] at e1; cases e1
        rw [pX'.concept] at e2; cases e2
        obtain ⟨cw, hcw, M⟩ := hc.good.read hm
        rw [M.find] at hk
        cases hfh : cw.findAsHand i .left with
        | none => rw [hfh] at hk; cases hk
        | some q =>
          rw [hfh] at hk; cases hk
          obtain ⟨cq, h1, h2⟩ := (A.lone.rev _ cw i q hcw).1 hfh
          dsimp only [Syn.concept]
          refine Ends.bind (Ends.reading fun m hm => ?_)
          obtain ⟨cw', hcw', M'⟩ := hc1.good.read hm
          have : cw' = cq := by
            have h1 : s.concepts[q]? = some cq := h1
            rw [hcw'] at h1; cases h1; rfl
          subst this
          refine Ends.pure ⟨?_, rfl⟩
          congr 1
          rw [M'.string]
          unfold Concept.string
          cases hsp : cw'.spec <;> simp [hsp, pairOf] at h2 ⊢
    refine Ends.bind (hstr.mono ?_)
    rintro _ _ ⟨rfl, rfl⟩
    show Ends _ _ _
    dsimp only [Syn.expansion]
    refine onError_ends ?_ (fun e c' h => ?_)
    · cases n with
      | zero => exact Ends.fault
      | succ n =>
        unfold Context.callPair
        refine Ends.bind (Ends.get ?_)
        refine Ends.bind (Ends.ofE fun q hq => ?_)
        have hcct : (View.mk c.snap c.delta).cct (W.ι (builtin .forget)) = .ok (some .forget) := by
          rw [hc.delta, hc.snap]
          exact W.cct_built bf
        rw [cct_of_plain pF'.concept (c := { c with cache := ca }) hcct] at hq
        cases hq
        obtain ⟨kd, rfl, hkd⟩ := tX.named wx w2
        refine Ends.bind ((callForget_word hc1 hpin).mono fun r c' h => ?_)
        cases r with
        | error e => exact h.1
        | ok o =>
          cases h.2 o rfl
          exact Ends.pure h.1
    · rcases h with ⟨_, _, h, _⟩ | ⟨_, _, h⟩ <;> cases h
      simp

theorem forget_word (A : Asked s D) {n : Nat} {c : Ctx} (hc : Asking W D c) (hp : c.pinned = false)
    {x : Str} (hx : IsSymbol x) {i : Nat} (hi : D i) (wx : PlainWord s i x)
    (cf : ¬MayVary s (builtin .forget)) (sf : ∀ l r, ¬ComposedOf s (builtin .forget) l r)
    (bf : IsBuiltIn s (builtin .forget) .forget)
    (lf : (View.mk c.snap c.delta).conceptFromLabel n (str% "forget") = .ok (some (W.ι (builtin .forget))))
    (lx : (View.mk c.snap c.delta).conceptFromLabel n x = .ok (some (W.ι i))) :
    Ends (Context.command n (forgetting x)) c (ForgotWord W D W.pend i x) :=
  forget_read A hi wx cf sf bf ((parse_forgetting hx wx.constant lf lx).mono fun _ _ ⟨e, h⟩ =>
    e ▸ ⟨hc, hp, h⟩)

end Zia

import Verif.Lemmas.Naming

/-!
# Giving a concept another name
-/

namespace Zia
open Spec Relation

/-- The changes pending after the name of a concept was taken away: `k` is `label_of` it. -/
def unnamedDelta (k r : Nat) : Delta :=
  ⟨[], 0, [(.com k, .reduce (.com k) (.remove (.com r)))],
    [(.com k, [.direct (.reduce (.com k) (.remove (.com r)))]),
     (.com r, [.indirect (.noLongerReducesFrom (.com k))])]⟩

theorem unnamed_update {k r : Nat} (hne : k ≠ r) :
    Nested.default.update (.reduce (.com k) (.remove (.com r))) =
      .ok (.base (unnamedDelta k r), .com k) := by
  have : (CId.com k = CId.com r) = False := by simp [hne]
  simp only [Nested.update, Nested.default, Nested.overlay, Delta.update, Delta.empty,
    Delta.insertExisting, AMap.get?, AMap.insert, bind, Except.bind, this, if_false, pure, Except.pure,
    Nested.setOverlay, unnamedDelta, List.nil_append]

/-- ... and after the new string was added. -/
def spelledDelta (k r : Nat) (t : Str) : Delta :=
  ⟨[(t, .create (.unc 0))], 1,
    [(.com k, .reduce (.com k) (.remove (.com r))), (.unc 0, .new (.str t))],
    [(.com k, [.direct (.reduce (.com k) (.remove (.com r)))]),
     (.com r, [.indirect (.noLongerReducesFrom (.com k))]),
     (.unc 0, [.direct (.new (.str t))])]⟩

theorem spelled_update (k r : Nat) (t : Str) :
    (Nested.base (unnamedDelta k r)).update (.new (.str t)) = .ok (.base (spelledDelta k r t), .unc 0) := by
  rfl

/-- ... and after the new name was given. -/
def namedDelta (k r : Nat) (t : Str) : Delta :=
  ⟨[(t, .create (.unc 0))], 1,
    [(.com k, .reduce (.com k) (.remove (.com r))), (.unc 0, .new (.str t)),
     (.com k, .reduce (.com k) (.create (.unc 0)))],
    [(.com k, [.direct (.reduce (.com k) (.remove (.com r))), .direct (.reduce (.com k) (.create (.unc 0)))]),
     (.com r, [.indirect (.noLongerReducesFrom (.com k))]),
     (.unc 0, [.direct (.new (.str t)), .indirect (.reducesFrom (.com k))])]⟩

theorem named_update {k r : Nat} (t : Str) (hne : k ≠ r) :
    (Nested.base (spelledDelta k r t)).update (.reduce (.com k) (.create (.unc 0))) =
      .ok (.base (namedDelta k r t), .com k) := by
  have : (CId.com k = CId.com r) = False := by simp [hne]
  simp [Nested.update, Nested.overlay, Delta.update, spelledDelta,
    Delta.insertExisting, AMap.get?, AMap.insert, bind, Except.bind, pure, Except.pure,
    Nested.setOverlay, namedDelta]

theorem concreteStep_keeps {id : CId} {acc : Option (Option CId)} {L : List CDelta}
    (h : ∀ e ∈ L, (∀ d, e ≠ .direct (.new d)) ∧ ∀ x, e ≠ .direct (.remove x)) :
    View.concreteStep id acc L = .ok acc := by
  induction L with
  | nil => rfl
  | cons e L ih =>
    have ih := ih fun e he => h e (List.mem_cons_of_mem _ he)
    obtain ⟨h1, h2⟩ := h e List.mem_cons_self
    cases e with
    | indirect i => exact ih
    | direct d =>
      cases d with
      | new d => exact absurd rfl (h1 d)
      | remove x => exact absurd rfl (h2 x)
      | compose _ _ => exact ih
      | reduce _ _ => exact ih

theorem concreteLoop_keeps {v : View} {cc : CCT} {acc : Option (Option CId)}
    {L : List (CId × List CDelta)} {o : Option (Option CId)}
    (h : ∀ p ∈ L, ∀ e ∈ p.2, (∀ d, e ≠ .direct (.new d)) ∧ ∀ x, e ≠ .direct (.remove x))
    (ho : v.concreteLoop cc acc L = .ok o) : o = acc := by
  induction L with
  | nil => cases ho; rfl
  | cons p L ih =>
    obtain ⟨id, ds⟩ := p
    have ih := ih fun p hp => h p (List.mem_cons_of_mem _ hp)
    simp only [View.concreteLoop, Except.bind_eq_ok] at ho
    obtain ⟨t, ht, ho⟩ := ho
    rw [concreteStep_keeps (h _ List.mem_cons_self)] at ho
    split at ho
    · exact ih ho
    · exact ih ho

section
variable [HashOrder]

theorem unnamed_label {s : Snap} (hs : Nameable s) {k r : Nat} {o : Option CId}
    (h : (View.mk s (.base (unnamedDelta k r))).concreteId .label = .ok o) :
    o = some (.com (builtin .label)) := by
  simp only [View.concreteId, Except.bind_eq_ok] at h
  obtain ⟨a, ha, h⟩ := h
  have := concreteLoop_keeps (by
    intro p hp e he
    rw [HashOrder.mem_order] at hp
    simp only [Nested.iterConcepts, unnamedDelta, List.mem_cons, List.not_mem_nil, or_false] at hp
    rcases hp with rfl | rfl
    · simp only [List.mem_cons, List.not_mem_nil, or_false] at he
      subst he
      exact ⟨by simp, by simp⟩
    · simp only [List.mem_cons, List.not_mem_nil, or_false] at he
      subst he
      exact ⟨by simp, by simp⟩) ha
  subst this
  dsimp only at h
  rw [hs.table] at h
  cases h
  rfl

/-- Nothing about compositions is pending. -/
theorem unnamed_hand {s : Snap} {k r l : Nat} {c : Con} (hc : s.concepts[l]? = some c) (hne : k ≠ l)
    {m : Mixed} (h : (View.mk s (.base (unnamedDelta k r))).read (.com l) = .ok m) (o : CId) (hd : Hand) :
    m.findAsHand o hd = (Mixed.ofCon c).findAsHand o hd := by
  have h1 : (CId.com k = CId.com l) = False := by simp [hne]
  simp only [View.read, View.maybeRead, Nested.getConcept, unnamedDelta, AMap.get?, h1, if_false,
    View.getConcept, hc, Option.map_some] at h
  by_cases hr : r = l
  · subst hr
    simp only [if_true] at h
    cases h
    cases hd <;> rfl
  · have h2 : (CId.com r = CId.com l) = False := by simp [hr]
    simp only [h2, if_false] at h
    cases h
    rfl

/-- What a successful change of name leaves pending. -/
theorem relabel_eq {s : Snap} (hs : Nameable s) (hf : CompFwd (look s.concepts)) {y k r : Nat} {ck : Con}
    (hk : s.concepts[k]? = some ck) (hp : ck.composition = some (builtin .label, y))
    (hr : ck.reduction = some r) (hne : k ≠ r) {n : Nat} {syn t : Str} {ca : Cache} {vs : AMap Str CId}
    {b : List Key} {p : Bool} : CM.Ends (Updater.relabel n (.com y) syn t) ⟨s, Nested.default, ca, vs, b, p⟩
      (fun x c' => x = .ok () → c'.snap = s ∧ c'.delta = .base (namedDelta k r t)) := by
  have hp' := hp
  rw [composition_eq] at hp'
  obtain ⟨⟨cl, hcl, hgl⟩, cy, hy, hgy⟩ := hf k ck _ _ hk hp'
  obtain ⟨cl', hcl', hspec⟩ := (hs.concrete _).2 rfl
  have hlk : k ≠ builtin .label := by
    rintro rfl
    rw [hk] at hcl'; cases hcl'
    simp only [Concept.composition, hspec] at hp
    cases hp
  refine CM.Ends.bind ?_
  unfold Updater.unlabel
  refine CM.Ends.bind (CM.Ends.reading fun o ho => ?_)
  rw [rest_conceptOfLabel hs hy] at ho
  have ho' : o = some (.com k) := by
    have : cy.findAsHand (builtin .label) .right = some k := hgy
    rw [this] at ho
    cases ho; rfl
  subst ho'
  unfold Updater.deleteReduction
  refine CM.Ends.bind (CM.Ends.reading fun m hm => ?_)
  rw [rest_read hk] at hm
  cases hm
  have hmr : (Mixed.ofCon ck).reduction = some (.com r) := by
    show ck.reduction.map _ = _
    rw [hr]; rfl
  simp only [CM.Cont, hmr]
  refine CM.Ends.bind (CM.Ends.update fun d id hd => ?_)
  rw [unnamed_update hne] at hd
  cases hd
  refine CM.Ends.pure ?_
  unfold Updater.label
  refine CM.Ends.bind (CM.Ends.reading fun o ho => ?_)
  cases unnamed_label hs ho
  refine CM.Ends.bind ?_
  unfold Updater.findOrInsertComposition
  refine CM.Ends.bind (CM.Ends.reading fun m hm => ?_)
  have hh := unnamed_hand hcl hlk hm (.com y) .left
  rw [ofCon_findAsHand] at hh
  have : cl.findAsHand y .left = some k := hgl
  rw [this] at hh
  simp only [CM.Cont, hh]
  refine CM.Ends.pure ?_
  refine CM.Ends.bind (CM.Ends.get ?_)
  refine CM.Ends.bind (CM.Ends.ofE fun o ho => ?_)
  cases ho
  refine CM.Ends.bind (CM.Ends.update fun d id hd => ?_)
  rw [spelled_update] at hd
  cases hd
  unfold Updater.updateReduction
  refine CM.Ends.bind (CM.Ends.reading fun nf hnf => ?_)
  have hnf' : nf = none := by
    cases n with
    | zero => cases hnf
    | succ n =>
      rw [View.normalForm] at hnf
      cases hnf
      rfl
  subst hnf'
  simp only [CM.Cont]
  rw [if_neg (by simp)]
  refine CM.Ends.bind (CM.Ends.reading fun m hm => ?_)
  simp only [CM.Cont]
  split
  · exact CM.Ends.throw fun h => by cases h
  refine CM.Ends.bind (CM.Ends.reading fun m hm => ?_)
  simp only [CM.Cont]
  split
  · exact CM.Ends.throw fun h => by cases h
  refine CM.Ends.bind (CM.Ends.update fun d id hd => ?_)
  rw [named_update t hne] at hd
  cases hd
  exact CM.Ends.pure fun _ => ⟨rfl, rfl⟩

end

/-- The store after a concept got another name. -/
def renamed (s : Snap) (k r : Nat) (ck cr : Con) (mc : MComp Nat) (t : Str) : Snap :=
  { s with
    stringMap := (s.stringMap.insert t s.concepts.length).insert t s.concepts.length
    concepts := ((s.concepts.set k { ck with spec := .abst mc (some s.concepts.length) }).set r
      (cr.dropFrom k)) ++ [⟨s.concepts.length, [], [], [k], .str t⟩] }

theorem commit_renamed {s : Snap} (hs : RefsInv s) (hp : s.prev = []) {k r : Nat} {ck cr : Con}
    (hk : s.concepts[k]? = some ck) (hr : s.concepts[r]? = some cr) (hne : k ≠ r) {mc : MComp Nat}
    {o : Option Nat} (hspec : ck.spec = .abst mc o) (t : Str) :
    s.apply (.base (namedDelta k r t)) = .ok (renamed s k r ck cr mc t) := by
  have idk := hs.valid.ids _ _ hk
  have hlk := lt_of_get hk
  have hlr := lt_of_get hr
  obtain ⟨sm, cs, conc, prev⟩ := s
  cases hp
  dsimp only at hk hr hlk hlr
  have e1 : Snap.applyOne ⟨sm, cs, conc, []⟩ (.com k, .reduce (.com k) (.remove (.com r))) = .ok
      ⟨sm, (cs.set k { ck with spec := .abst mc none }).set r (cr.dropFrom k), conc, []⟩ := by
    have g : get2 cs k r = some (ck, cr) := get2_eq_some.2 ⟨hne, hk, hr⟩
    simp only [Snap.applyOne, if_true, Snap.applyReduce, Snap.convert, bind, Except.bind, g, orDisjoint,
      Concept.makeNoLongerReduceTo, hspec, pure, Except.pure, Concept.dropFrom, idk]
  have e2 : Snap.applyOne ⟨sm, (cs.set k { ck with spec := .abst mc none }).set r (cr.dropFrom k), conc, []⟩
      (.unc 0, .new (.str t)) = .ok
      ⟨sm.insert t cs.length, (cs.set k { ck with spec := .abst mc none }).set r (cr.dropFrom k) ++
        [Concept.mk' cs.length (.str t)], conc, [(0, cs.length)]⟩ := by
    show Except.ok (Snap.mk (sm.insert t ((cs.set k _).set r _).length)
      ((cs.set k _).set r _ ++ [Concept.mk' ((cs.set k _).set r _).length (.str t)]) conc
      [(0, ((cs.set k _).set r _).length)]) = _
    simp only [List.length_set]
  have e3 : Snap.applyOne ⟨sm.insert t cs.length,
        (cs.set k { ck with spec := .abst mc none }).set r (cr.dropFrom k) ++
        [Concept.mk' cs.length (.str t)], conc, [(0, cs.length)]⟩
      (.com k, .reduce (.com k) (.create (.unc 0))) = .ok
      ⟨sm.insert t cs.length, (cs.set k { ck with spec := .abst mc (some cs.length) }).set r
        (cr.dropFrom k) ++ [⟨cs.length, [], [], [k], .str t⟩], conc, [(0, cs.length)]⟩ := by
    have g : get2 ((cs.set k { ck with spec := .abst mc none }).set r (cr.dropFrom k) ++
        [Concept.mk' cs.length (.str t)]) k cs.length =
        some ({ ck with spec := .abst mc none }, Concept.mk' cs.length (.str t)) := by
      refine get2_eq_some.2 ⟨by omega, ?_, ?_⟩
      · rw [List.getElem?_append_left (by simpa using hlk), List.getElem?_set_ne (Ne.symm hne),
          List.getElem?_set_self hlk]
      · rw [List.getElem?_append_right (by simp)]
        simp
    simp only [idk] at g
    simp only [Snap.applyOne, if_true, Snap.applyReduce, Snap.convert, AMap.get?, bind, Except.bind, g,
      orDisjoint, Concept.makeReduceTo, pure, Except.pure, idk]
    rw [List.set_append_left _ _ (by simpa using hlk), List.set_append_right _ _ (by simp)]
    simp only [List.length_set, Nat.sub_self, List.set_cons_zero, Concept.mk', setInsert]
    rw [List.set_comm _ _ (Ne.symm hne), List.set_set]
    rfl
  unfold Snap.apply
  simp only [Nested.order, namedDelta, Nested.iterString, Snap.applyAll, e1, e2, e3, bind, Except.bind,
    pure, Except.pure]
  rfl

section
variable {s : Snap} {k r : Nat} {ck cr : Con} {mc : MComp Nat} {t : Str}

theorem renamed_string : (renamed s k r ck cr mc t).concepts[s.concepts.length]? =
    some ⟨s.concepts.length, [], [], [k], .str t⟩ := by
  simp only [renamed]
  rw [List.getElem?_append_right (by simp)]
  simp

theorem renamed_comp (hk : s.concepts[k]? = some ck) (hne : k ≠ r) :
    (renamed s k r ck cr mc t).concepts[k]? =
      some { ck with spec := .abst mc (some s.concepts.length) } := by
  have hlk := lt_of_get hk
  simp only [renamed]
  rw [List.getElem?_append_left (by simpa using hlk), List.getElem?_set_ne (Ne.symm hne),
    List.getElem?_set_self hlk]

theorem renamed_old (hr : s.concepts[r]? = some cr) :
    (renamed s k r ck cr mc t).concepts[r]? = some (cr.dropFrom k) := by
  have hlr := lt_of_get hr
  simp only [renamed]
  rw [List.getElem?_append_left (by simpa using hlr), List.getElem?_set_self (by simpa using hlr)]

theorem renamed_other {i : Nat} (hi : i < s.concepts.length) (h1 : k ≠ i) (h2 : r ≠ i) :
    (renamed s k r ck cr mc t).concepts[i]? = s.concepts[i]? := by
  simp only [renamed]
  rw [List.getElem?_append_left (by simpa using hi), List.getElem?_set_ne h2, List.getElem?_set_ne h1]

theorem renamed_len : (renamed s k r ck cr mc t).concepts.length = s.concepts.length + 1 := by
  simp [renamed]

/-- What a concept of the new store was before. -/
theorem renamed_get (hk : s.concepts[k]? = some ck) (hr : s.concepts[r]? = some cr) (hne : k ≠ r)
    {i : Nat} {c : Con} (h : (renamed s k r ck cr mc t).concepts[i]? = some c) :
    (i = s.concepts.length ∧ c = ⟨s.concepts.length, [], [], [k], .str t⟩) ∨
    (i = k ∧ c = { ck with spec := .abst mc (some s.concepts.length) }) ∨
    (i = r ∧ c = cr.dropFrom k) ∨ (i < s.concepts.length ∧ i ≠ k ∧ i ≠ r ∧ s.concepts[i]? = some c) := by
  have hlt := lt_of_get h
  rw [renamed_len] at hlt
  by_cases h0 : i = s.concepts.length
  · subst h0
    rw [renamed_string] at h; cases h
    exact .inl ⟨rfl, rfl⟩
  by_cases h1 : i = k
  · subst h1
    rw [renamed_comp hk hne] at h; cases h
    exact .inr (.inl ⟨rfl, rfl⟩)
  by_cases h2 : i = r
  · subst h2
    rw [renamed_old hr] at h; cases h
    exact .inr (.inr (.inl ⟨rfl, rfl⟩))
  rw [renamed_other (by omega) (Ne.symm h1) (Ne.symm h2)] at h
  exact .inr (.inr (.inr ⟨by omega, h1, h2, h⟩))

/-- Compositions stay. -/
theorem renamed_composedOf (hk : s.concepts[k]? = some ck) (hr : s.concepts[r]? = some cr) (hne : k ≠ r)
    {o : Option Nat} (hspec : ck.spec = .abst mc o) {i a b : Nat} :
    ComposedOf (renamed s k r ck cr mc t) i a b ↔ ComposedOf s i a b := by
  constructor
  · rintro ⟨c, hc, hp⟩
    rcases renamed_get hk hr hne hc with ⟨rfl, rfl⟩ | ⟨rfl, rfl⟩ | ⟨rfl, rfl⟩ | ⟨_, _, _, h⟩
    · cases hp
    · exact ⟨ck, hk, by rw [composition_eq] at hp ⊢; rw [hspec]; cases mc <;> exact hp⟩
    · exact ⟨cr, hr, hp⟩
    · exact ⟨c, h, hp⟩
  · rintro ⟨c, hc, hp⟩
    by_cases h1 : i = k
    · subst h1
      rw [hk] at hc; cases hc
      refine ⟨_, renamed_comp hk hne, ?_⟩
      rw [composition_eq] at hp ⊢; rw [hspec] at hp; cases mc <;> exact hp
    by_cases h2 : i = r
    · subst h2
      rw [hr] at hc; cases hc
      exact ⟨_, renamed_old hr, hp⟩
    exact ⟨c, by rw [renamed_other (lt_of_get hc) (Ne.symm h1) (Ne.symm h2)]; exact hc, hp⟩

/-- Reductions but that of the name stay. -/
theorem renamed_reducesTo (hk : s.concepts[k]? = some ck) (hr : s.concepts[r]? = some cr) (hne : k ≠ r)
    {i j : Nat} : ReducesTo (renamed s k r ck cr mc t) i j ↔
      if i = k then j = s.concepts.length else ReducesTo s i j := by
  by_cases h1 : i = k
  · rw [if_pos h1]
    subst h1
    constructor
    · rintro ⟨c, hc, hp⟩
      rw [renamed_comp hk hne] at hc; cases hc
      rw [reduction_eq] at hp
      cases hp; rfl
    · rintro rfl
      exact ⟨_, renamed_comp hk hne, by rw [reduction_eq]; rfl⟩
  rw [if_neg h1]
  constructor
  · rintro ⟨c, hc, hp⟩
    rcases renamed_get hk hr hne hc with ⟨rfl, rfl⟩ | ⟨rfl, rfl⟩ | ⟨rfl, rfl⟩ | ⟨_, _, _, h⟩
    · cases hp
    · exact absurd rfl h1
    · exact ⟨cr, hr, hp⟩
    · exact ⟨c, h, hp⟩
  · rintro ⟨c, hc, hp⟩
    by_cases h2 : i = r
    · subst h2
      rw [hr] at hc; cases hc
      exact ⟨_, renamed_old hr, hp⟩
    exact ⟨c, by rw [renamed_other (lt_of_get hc) (Ne.symm h1) (Ne.symm h2)]; exact hc, hp⟩

theorem renamed_redRev (hv : RedRev (look s.concepts)) (hk : s.concepts[k]? = some ck)
    (hr : s.concepts[r]? = some cr) (hne : k ≠ r) (hred : ReducesTo s k r) : RedRev (look (renamed s k r ck cr mc t).concepts) := by
  intro j c i hj hi
  rw [← reducesTo_iff, renamed_reducesTo hk hr hne]
  have old : ∀ c', s.concepts[j]? = some c' → i ∈ c'.redFrom → ReducesTo s i j :=
    fun c' h h' => reducesTo_iff.2 (hv j c' i h h')
  have uniq : ∀ j', ReducesTo s k j' → j' = r := by
    rintro j' ⟨c, hc, h⟩
    obtain ⟨c', hc', h'⟩ := hred
    rw [hc] at hc'; cases hc'
    rw [h] at h'; cases h'; rfl
  rcases renamed_get hk hr hne hj with ⟨rfl, rfl⟩ | ⟨rfl, rfl⟩ | ⟨rfl, rfl⟩ | ⟨hlt, hjk, hjr, h⟩
  · rw [List.mem_singleton.1 hi, if_pos rfl]
  · have := old ck hk hi
    rw [if_neg]
    · exact this
    · rintro rfl
      exact hne (uniq _ this)
  · simp only [Concept.dropFrom, List.mem_filter, decide_eq_true_eq] at hi
    rw [if_neg hi.2]
    exact old cr hr hi.1
  · have := old c h hi
    rw [if_neg]
    · exact this
    · rintro rfl
      exact hjr (uniq _ this)

theorem renamed_compFwd (hf : CompFwd (look s.concepts)) (hk : s.concepts[k]? = some ck)
    (hr : s.concepts[r]? = some cr) (hne : k ≠ r) {o : Option Nat} (hspec : ck.spec = .abst mc o) :
    CompFwd (look (renamed s k r ck cr mc t).concepts) := by
  have fwd : ∀ i c, look s.concepts i = some c → ∃ c',
      look (renamed s k r ck cr mc t).concepts i = some c' ∧ c'.leftOf = c.leftOf ∧ c'.rightOf = c.rightOf := by
    intro i c hc
    by_cases h1 : i = k
    · subst h1
      have : ck = c := by
        have hc : s.concepts[i]? = some c := hc
        rw [hk] at hc; cases hc; rfl
      subst this
      exact ⟨_, renamed_comp hk hne, rfl, rfl⟩
    by_cases h2 : i = r
    · subst h2
      have : cr = c := by
        have hc : s.concepts[i]? = some c := hc
        rw [hr] at hc; cases hc; rfl
      subst this
      exact ⟨_, renamed_old hr, rfl, rfl⟩
    exact ⟨c, (renamed_other (lt_of_get hc) (Ne.symm h1) (Ne.symm h2)).trans hc, rfl, rfl⟩
  intro i c a b hc hp
  have : ComposedOf s i a b :=
    (renamed_composedOf hk hr hne hspec).1 ⟨c, hc, by rw [composition_eq]; exact hp⟩
  obtain ⟨c0, hc0, hp0⟩ := this
  rw [composition_eq] at hp0
  obtain ⟨⟨x, hx, gx⟩, y, hy, gy⟩ := hf i c0 a b hc0 hp0
  obtain ⟨x', hx', e1, _⟩ := fwd a x hx
  obtain ⟨y', hy', _, e2⟩ := fwd b y hy
  exact ⟨⟨x', hx', by rw [e1]; exact gx⟩, y', hy', by rw [e2]; exact gy⟩

theorem applyAll_refsInv {s g : Snap} {L : List (CId × Direct CId)} (hs : RefsInv s)
    (h : s.applyAll L = .ok g) : RefsInv g := by
  induction L generalizing s with
  | nil => cases h; exact hs
  | cons p L ih =>
    simp only [Snap.applyAll, Except.bind_eq_ok] at h
    obtain ⟨g1, h1, h2⟩ := h
    exact ih ((applyOne_step h1).refsInv hs) h2

theorem renamed_nameable (hs : Nameable s) (h0 : s.prev = []) (hk : s.concepts[k]? = some ck)
    (hr : s.concepts[r]? = some cr) (hne : k ≠ r) {o : Option Nat} (hspec : ck.spec = .abst mc o) :
    Nameable (renamed s k r ck cr mc t) := by
  refine ⟨?_, ?_, ?_, hs.table⟩
  · obtain ⟨g, g', h1, h2, e⟩ := apply_base (commit_renamed hs.refs h0 hk hr hne hspec t)
    rw [e]
    refine RefsInv.noPrev (applyStrings_refs (applyAll_refsInv hs.refs h1) ?_ h2)
    intro p hp
    simp only [namedDelta, List.mem_singleton] at hp
    subst hp
    exact ⟨0, rfl⟩
  · intro t' i hi
    have new : StrAt (renamed s k r ck cr mc t) s.concepts.length t := ⟨_, renamed_string, rfl⟩
    simp only [renamed] at hi
    rcases mem_insert_or hi with e | hi
    · cases e; exact new
    rcases mem_insert_or hi with e | hi
    · cases e; exact new
    obtain ⟨c, hc, hsp⟩ := hs.strings t' i hi
    by_cases h1 : i = k
    · subst h1
      rw [hk] at hc; cases hc
      rw [hspec] at hsp; cases hsp
    by_cases h2 : i = r
    · subst h2
      rw [hr] at hc; cases hc
      exact ⟨_, renamed_old hr, hsp⟩
    exact ⟨c, by rw [renamed_other (lt_of_get hc) (Ne.symm h1) (Ne.symm h2)]; exact hc, hsp⟩
  · intro i
    rw [← hs.concrete i]
    constructor
    · rintro ⟨c, hc, hsp⟩
      rcases renamed_get hk hr hne hc with ⟨rfl, rfl⟩ | ⟨rfl, rfl⟩ | ⟨rfl, rfl⟩ | ⟨_, _, _, h⟩
      · cases hsp
      · cases hsp
      · exact ⟨cr, hr, hsp⟩
      · exact ⟨c, h, hsp⟩
    · rintro ⟨c, hc, hsp⟩
      by_cases h1 : i = k
      · subst h1
        rw [hk] at hc; cases hc
        rw [hspec] at hsp; cases hsp
      by_cases h2 : i = r
      · subst h2
        rw [hr] at hc; cases hc
        exact ⟨_, renamed_old hr, hsp⟩
      exact ⟨c, by rw [renamed_other (lt_of_get hc) (Ne.symm h1) (Ne.symm h2)]; exact hc, hsp⟩

/-- The renamed concept has the new name and no other. -/
theorem renamed_hasName (hf : CompFwd (look s.concepts)) (hk : s.concepts[k]? = some ck)
    (hr : s.concepts[r]? = some cr) (hne : k ≠ r) {o : Option Nat} (hspec : ck.spec = .abst mc o) {y : Nat}
    (hp : ComposedOf s k (builtin .label) y) {u : Str} :
    HasName (renamed s k r ck cr mc t) y u ↔ u = t := by
  constructor
  · rintro ⟨k', i, hk', hred, hi⟩
    rw [renamed_composedOf hk hr hne hspec] at hk'
    have : k' = k := by
      obtain ⟨c, hc, h⟩ := hp
      obtain ⟨c', hc', h'⟩ := hk'
      rw [composition_eq] at h h'
      obtain ⟨⟨x, hx, gx⟩, _⟩ := hf k c _ _ hc h
      obtain ⟨⟨x', hx', gx'⟩, _⟩ := hf k' c' _ _ hc' h'
      rw [hx] at hx'; cases hx'
      rw [gx] at gx'; cases gx'; rfl
    subst this
    have : i = s.concepts.length := by
      have last : ∀ j, ¬ ReducesTo (renamed s k' r ck cr mc t) s.concepts.length j := by
        rintro j ⟨c, hc, h⟩
        rw [renamed_string] at hc; cases hc
        cases h
      have first : ∀ j, ReducesTo (renamed s k' r ck cr mc t) k' j → j = s.concepts.length := by
        intro j h
        rw [renamed_reducesTo hk hr hne, if_pos rfl] at h
        exact h
      clear hi
      induction hred with
      | single h => exact first _ h
      | tail _ h ih => rw [ih] at h; exact (last _ h).elim
    subst this
    obtain ⟨c, hc, h⟩ := hi
    rw [renamed_string] at hc; cases hc
    cases h; rfl
  · rintro rfl
    refine ⟨k, s.concepts.length, (renamed_composedOf hk hr hne hspec).2 hp, .single ?_,
      ⟨_, renamed_string, rfl⟩⟩
    rw [renamed_reducesTo hk hr hne, if_pos rfl]

/-- The new symbol is looked up to the renamed concept. -/
theorem renamed_lookup [HashOrder] (hs : Nameable s) (hk : s.concepts[k]? = some ck)
    (hr : s.concepts[r]? = some cr) (hne : k ≠ r) {o : Option Nat} (hspec : ck.spec = .abst mc o) {y : Nat}
    (hp : ck.composition = some (builtin .label, y)) {n : Nat} (hn : 1 ≤ n) :
    (View.mk (renamed s k r ck cr mc t) Nested.default).conceptFromLabel n t = .ok (some (.com y)) := by
  obtain ⟨n, rfl⟩ : ∃ m, n = m + 1 := ⟨n - 1, by omega⟩
  have hst : (View.mk (renamed s k r ck cr mc t) Nested.default).stringConcept t =
      .ok (some (.com s.concepts.length)) := by
    show Except.ok (((renamed s k r ck cr mc t).stringMap.get? t).map CId.com) = _
    simp only [renamed, AMap.get?_insert, if_true]
    rfl
  obtain ⟨cl, hcl, hl⟩ : ∃ cl, (renamed s k r ck cr mc t).concepts[builtin .label]? = some cl ∧
      cl.spec = .concrete .label := by
    obtain ⟨cl, hcl, hl⟩ := (hs.concrete _).2 rfl
    by_cases h1 : k = builtin .label
    · subst h1
      rw [hk] at hcl; cases hcl
      rw [hspec] at hl; cases hl
    by_cases h2 : r = builtin .label
    · subst h2
      rw [hr] at hcl; cases hcl
      exact ⟨_, renamed_old hr, hl⟩
    exact ⟨cl, by rw [renamed_other (lt_of_get hcl) h1 h2]; exact hcl, hl⟩
  unfold View.conceptFromLabel
  rw [hst]
  show (View.mk (renamed s k r ck cr mc t) Nested.default).labellee (n + 1) (.com s.concepts.length) = _
  unfold View.labellee
  rw [rest_read renamed_string]
  show View.labelleeLoop _ (n + 1) (Mixed.reducesFrom _) = _
  have hred : (Mixed.ofCon ⟨s.concepts.length, [], [], [k], .str t⟩).reducesFrom = [.com k] := by
    simp only [Mixed.ofCon, Mixed.reducesFrom, HashOrder.order_nil, HashOrder.order_singleton]
    rfl
  rw [hred, View.labelleeLoop, rest_read (renamed_comp hk hne)]
  have hcomp : (Mixed.ofCon { ck with spec := Specific.abst mc (some s.concepts.length) }).composition =
      some (.com (builtin .label), .com y) := by
    show (Concept.composition _).map _ = _
    rw [composition_eq] at hp ⊢
    rw [hspec] at hp
    have : pairOf (Specific.abst mc (some s.concepts.length)) = some (builtin .label, y) := by
      cases mc <;> exact hp
    rw [this]; rfl
  have hcct : (View.mk (renamed s k r ck cr mc t) Nested.default).cct (.com (builtin .label)) =
      .ok (some .label) := by
    unfold View.cct
    rw [rest_read hcl]
    show Except.ok cl.cct = _
    simp only [Concept.cct, hl]
  simp only [bind, Except.bind, hcomp, hcct, if_true]
  rfl

end

end Zia

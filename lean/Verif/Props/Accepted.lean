import Verif.Lemmas.Accepted
import Verif.Lemmas.Asserted
import Verif.Lemmas.Remembered
import Verif.Lemmas.Fits
import Verif.Props.Store
import Verif.Lemmas.Quiet
import Verif.Witness.Learn

/-!
# An accepted command makes it so
-/

namespace Zia.Props

open Spec CM

section
variable [HashOrder]

theorem readAs_command {n : Nat} {c c1 : Ctx} {s : Str} {T : Syn} (h : ReadAs n c s T c1) :
    Context.command n s c = Context.call n n T c1 := by
  unfold ReadAs at h
  unfold Context.command
  obtain ⟨t1, d1, h1, h⟩ := bind_done h
  obtain ⟨t2, d2, h2, h⟩ := bind_done h
  rw [bind_apply, h1]
  show (_ >>= _ : CM Str) d1 = _
  rw [bind_apply, h2]
  show (_ >>= _ : CM Str) d2 = _
  rw [bind_apply, h]
  rfl

theorem readAs_play {n : Nat} {c c1 : Ctx} {s : Str} {T : Syn} (hc : Reachable c) (h : ReadAs n c s T c1) :
    c1.snap = c.snap ∧ ∃ o, c1.delta = .base o ∧ KeysOk o ∧ DWF o ∧ (∃ g, c.snap.applyAll (Nested.base o).order = .ok g) ∧
      ∀ g, c.snap.applyAll (Nested.base o).order = .ok g →
      Play c.snap (.base o) g ∧ Names c.snap g := by
  have hs := History.settled hc
  have k : Keeps Adds (do
      let t ← Parser.astFromExpression n s
      let t ← searching (fun e => (search n).expand e t)
      tryCatch (Parser.createVariables t) (fun _ => fault (.panic .executeUnwrap)) : CM Syn) :=
    Keeps.bind adds_closed (Parser.astFromExpression_adds n s) fun t =>
      Keeps.bind adds_closed (Keeps.searching adds_closed _) fun t =>
        Keeps.tryCatch adds_closed (Parser.createVariables_adds t) fun _ => Keeps.fault _
  have t : Traced (do
      let t ← Parser.astFromExpression n s
      let t ← searching (fun e => (search n).expand e t)
      tryCatch (Parser.createVariables t) (fun _ => fault (.panic .executeUnwrap)) : CM Syn) :=
    Traced.bind (Parser.astFromExpression_traced n s) fun t =>
      Traced.bind (Traced.searching _) fun t =>
        Traced.tryCatch (Parser.createVariables_traced t) fun _ => Traced.fault _
  obtain ⟨e1, L, hL, hq⟩ := k c _ _ h
  obtain ⟨_, ht⟩ := t c _ _ h
  rw [hs.delta] at ht hL
  have hi : ∀ p ∈ c1.delta.order, Introduces p := fun p hp => by
    rw [hL] at hp
    rcases List.mem_append.1 hp with hp | hp
    · cases hp
    · exact hq p hp
  obtain ⟨o, e, hr⟩ := trace_names (History.nameable hc) hs.prev ht hi
  obtain ⟨_, e', hk⟩ := KeysOk.trace ht hi
  rw [e] at e'
  cases e'
  obtain ⟨_, e', hw⟩ := Trace.wf ht
  rw [e] at e'
  cases e'
  obtain ⟨_, g, e', hg, _⟩ := Trace.introduces hs.refs hs.prev ht hi
  rw [e] at e' hg
  cases e'
  refine ⟨e1, o, e, hk, hw, ⟨g, hg⟩, fun g hg => ?_⟩
  obtain ⟨sim, nm⟩ := hr g (by rw [e]; exact hg)
  exact ⟨⟨hg, o, rfl, sim⟩, nm⟩

/-- What an accepted command left before the commit. -/
theorem accepted {n : Nat} {c c1 c' : Ctx} {s : Str} {T : Syn} (hc : Reachable c) (h : ReadAs n c s T c1)
    (he : Context.execute n c s = .ok ([], c')) {Q : Except ZiaError Str → Ctx → Prop}
    (hQ : Ends (Context.call n n T) c1 Q) :
    ∃ c2 g, Context.command n s c = .ok (.ok [], c2) ∧ Q (.ok []) c2 ∧
      c.snap.applyAll c2.delta.order = .ok g ∧ c'.snap.concepts = g.concepts ∧
      Corresponds ⟨c2.snap, c2.delta⟩ c'.snap (standsFor g) := by
  obtain ⟨x, c2, hcmd, ht, ha, _, _, _, e⟩ := execute_command he
  have : x = .ok [] := by
    cases x with
    | ok a => rw [e]
    | error err => exact absurd e.symm (message_ne err)
  subst this
  obtain ⟨g, h1, h2, h3⟩ := stored_correspond hc hcmd ha
  exact ⟨c2, g, hcmd, hQ _ _ ((readAs_command h).symm.trans hcmd), h1, h2, h3⟩

omit [HashOrder] in
theorem Stands.denotes {low : Nat} {g s' : Snap} (hs : s'.concepts = g.concepts) {t : Syn} {a : CId} {i : Nat}
    (h : Stands low g t a) (hi : Conv g a i) : Denotes (standsFor g) s' t i := by
  induction h generalizing i with
  | known h => exact .known h (standsFor_iff.2 hi)
  | pair h0 h1 _ _ h4 h5 h6 h7 _ ihl ihr =>
    obtain rfl := hi.unique h4
    refine .pair h0 h1 (ihl h5) (ihr h6) ?_
    unfold ComposedOf at h7 ⊢
    rw [hs]
    exact h7

/-! ## C60 -/

/-- C60, rules: if a command read as `let (t (-> nf))` is accepted, the concept of `t` reduces to that of `nf`
afterwards and nothing else about the stored concepts changed. What the trees stand for is said by the
correspondence `f` of C27 between the pending ids and the stored concepts. Partial: every part of the trees has a
concept, or is a pair that is not stored yet and whose text is not a name. -/
theorem rule_accepted_partial {n : Nat} {c c1 c' : Ctx} {s : Str} {T L R t A O nf : Syn} (h : Reachable c)
    (hr : ReadAs n c s T c1) (hT : T.concept = none) (hTe : T.expansion = some (L, R))
    (hL : OfType ⟨c1.snap, c1.delta⟩ L .letCmd) (hR : R.expansion = some (t, A))
    (hA : A.expansion = some (O, nf)) (hO : OfType ⟨c1.snap, c1.delta⟩ O .reduction)
    (hne : t.key ≠ nf.key) (hs : Sayable ⟨c1.snap, c1.delta⟩ t) (hs' : Sayable ⟨c1.snap, c1.delta⟩ nf)
    (he : Context.execute n c s = .ok ([], c')) :
    ∃ c2 f i j, Context.command n s c = .ok (.ok [], c2) ∧ Corresponds ⟨c2.snap, c2.delta⟩ c'.snap f ∧
      Denotes f c'.snap t i ∧ Denotes f c'.snap nf j ∧ Learnt c.snap c'.snap i j := by
  obtain ⟨e1, o, ed, hk, _, _, hp⟩ := readAs_play h hr
  obtain ⟨c2, g, hc2, ⟨e2, a, b, d, M, ch, id, hC, hA', hB', hch, hu⟩, hg, hcon, hcor⟩ := accepted h hr he
    (call_let hT hTe hL hR hA (fun _ _ h => h)
      (matchRighthandPair_told (.inl ⟨hO, executeReduction_ruled hne hk ed hs hs'⟩)))
  rw [Nested.update_order hu] at hg
  obtain ⟨g2, hg2, hst⟩ := applyAll_snoc.1 hg
  obtain ⟨g1, p1, same, p2, hM⟩ := Play.composes (fun g hg => (hp g hg).1) hC hg2
  have st1 := hA'.stands hM
  have st2 := hB'.stands hM
  obtain ⟨o', _, hid, _⟩ := Nested.update_base hu
  have hid : id = a := hid
  subst hid
  have st := applyOne_step hst
  obtain ⟨i, j, mc, red, hi, hj, hsp, hsp', hlen⟩ := reduce_specs p2.refs hch st
  have pv := reduce_prev st
  have keep : ∀ k sp x y, specs g2 k = some sp → pairOf sp = some (x, y) →
      ∃ sp', specs g k = some sp' ∧ pairOf sp' = some (x, y) := by
    intro k sp x y h1 h2
    rw [hsp']
    by_cases e : k = i
    · subst e
      rw [hsp] at h1
      cases h1
      refine ⟨_, by simp [updS]; rfl, ?_⟩
      cases mc <;> exact h2
    · exact ⟨sp, by simp [updS, e, h1], h2⟩
  exact ⟨c2, standsFor g, i, j, hc2, hcor,
    Stands.denotes hcon (st1.updated pv fun k sp x y _ => keep k sp x y) ((conv_prev pv).2 hi),
    Stands.denotes hcon (st2.updated pv fun k sp x y _ => keep k sp x y) ((conv_prev pv).2 hj),
    learnt_of ((hp g1 p1.applied).2.holding same) hsp hsp' hlen hcon⟩

/-- Reading a command keeps the memory of the built-in concepts right. -/
theorem readAs_cacheOk {n : Nat} {c c1 : Ctx} {s : Str} {T : Syn} (hc : Lived c) (h : ReadAs n c s T c1) :
    CacheOk c1.cache := by
  have k : Related Mindful (do
      let t ← Parser.astFromExpression n s
      let t ← searching (fun e => (search n).expand e t)
      tryCatch (Parser.createVariables t) (fun _ => fault (.panic .executeUnwrap)) : CM Syn) :=
    Related.bind mindful (Parser.astFromExpression_related mindful n s) fun t =>
      Related.bind mindful (Related.searching mindful (by sound_search)) fun t =>
        Related.tryCatch mindful
          (Parser.createVariables_related mindful (fun _ _ h => ⟨rfl, h, fun _ h => h⟩) t) fun _ => Related.fault _
  have t : Traced (do
      let t ← Parser.astFromExpression n s
      let t ← searching (fun e => (search n).expand e t)
      tryCatch (Parser.createVariables t) (fun _ => fault (.panic .executeUnwrap)) : CM Syn) :=
    Traced.bind (Parser.astFromExpression_traced n s) fun t =>
      Traced.bind (Traced.searching _) fun t =>
        Traced.tryCatch (Parser.createVariables_traced t) fun _ => Traced.fault _
  exact k.keeps t (Reachable.snapOk hc.reachable) ((History.settled hc.reachable).delta ▸ .default) hc.cacheOk h

/-- C60, assertions: if a command read as `let t` that is no rule or definition is accepted, the concept of `t`
reduces to the built-in concept `true` afterwards and nothing else about the stored concepts changed. Partial: every
part of the tree has a concept, or is a pair that is not stored yet and whose text is not a name. Unlike for rules,
the cache matters (`Lived`): a foreign tree remembered for `true` would be what the assertion stores. -/
theorem assertion_accepted_partial {n : Nat} {c c1 c' : Ctx} {s : Str} {T L t : Syn} (hlive : Lived c)
    (hr : ReadAs n c s T c1) (hT : T.concept = none) (hTe : T.expansion = some (L, t))
    (hL : OfType ⟨c1.snap, c1.delta⟩ L .letCmd) (ht : Asserts ⟨c1.snap, c1.delta⟩ t)
    (hne : t.concept ≠ some (.com (builtin .tru))) (hs : Sayable ⟨c1.snap, c1.delta⟩ t)
    (he : Context.execute n c s = .ok ([], c')) :
    ∃ c2 f i, Context.command n s c = .ok (.ok [], c2) ∧ Corresponds ⟨c2.snap, c2.delta⟩ c'.snap f ∧
      Denotes f c'.snap t i ∧ Learnt c.snap c'.snap i (builtin .tru) := by
  have h := hlive.reachable
  have hca := readAs_cacheOk hlive hr
  obtain ⟨e1, o, ed, hk, hw, ⟨g0, hg0⟩, hp⟩ := readAs_play h hr
  have tree : ∀ r ca, (search n).concreteAst (env c1) .tru c1.cache = .ok (r, ca) →
      ∃ u, r = some u ∧ u.concept = some (.com (builtin .tru)) := by
    intro r ca hra
    obtain ⟨⟨_, _, ed0, sim⟩, nm⟩ := hp g0 hg0
    cases ed0
    obtain ⟨q, _, hq, _⟩ := SM.bind_ok.1 hra
    obtain ⟨hq', _⟩ := SM.lift_ok.1 hq
    change (View.mk c1.snap c1.delta).concreteId .tru = _ at hq'
    have hb : q = some (.com (builtin .tru)) := by
      have h1 := hq'
      rw [e1, ed] at h1
      rw [concreteId_introduced nm sim hw h1, (History.concrete h).1]
      rfl
    subst hb
    refine concreteAst_tree hq' ?_ (fun t ht => hca.remembers ht) hra
    intro m hm
    rw [e1, ed] at hm
    refine ⟨?_, sim.read_id (History.settled h).refs hm⟩
    obtain ⟨k, sp, hl, hsp, hag⟩ := sim.read hm
    obtain ⟨rfl, hlt⟩ := hl
    have hcomp := hag.comp
    rw [((nm.holding (.refl _)).old _ hlt)] at hsp
    obtain ⟨k, hk', hs'⟩ := ((History.concrete h).2 (builtin .tru) .tru).2 ((conc_boot0 _ _).2 rfl)
    simp only [specs, look, hk', Option.map_some, Option.some.injEq] at hsp
    rw [← hsp, hs'] at hcomp
    change Option.Rel _ m.composition none at hcomp
    cases hmc : m.composition with
    | none => rfl
    | some p => rw [hmc] at hcomp; cases hcomp
  obtain ⟨c2, g, hc2, ⟨e2, u, hu, a, b, d, M, ch, id, hC, hA', hB', hch, hu'⟩, hg, hcon, hcor⟩ := accepted h hr he
    (call_asserts (Q := fun r c' => match r with
        | .error e => Shown e
        | .ok _ => c'.snap = c1.snap ∧ ∃ u : Syn, u.concept = some (.com (builtin .tru)) ∧ ∃ a b o' M ch id,
          Composes o o' M ∧ Said M t a ∧ Said M u b ∧ (ch = .create b ∨ ∃ x, ch = .update x b) ∧
          (Nested.base o').update (.reduce a ch) = .ok (c'.delta, id)) hT hTe hL ht (fun _ _ h => h) fun r ca hra => by
      obtain ⟨u, rfl, hu⟩ := tree r ca hra
      refine ⟨u, rfl, ((executeReduction_ruled (c := { c1 with cache := ca }) ?_ hk ed hs
        (.known (by rw [hu]; rfl))).mono fun r c' hr => ?_)⟩
      · intro e
        exact hne ((congrArg Key.concept e).trans hu)
      · cases r with
        | error e => exact hr
        | ok _ => exact ⟨hr.1, u, hu, hr.2⟩)
  rw [Nested.update_order hu'] at hg
  obtain ⟨g2, hg2, hst⟩ := applyAll_snoc.1 hg
  obtain ⟨g1, p1, same, p2, hM⟩ := Play.composes (fun g hg => (hp g hg).1) hC hg2
  have st1 := hA'.stands hM
  obtain ⟨o', _, hid, _⟩ := Nested.update_base hu'
  have hid : id = a := hid
  subst hid
  have st := applyOne_step hst
  obtain ⟨i, j, mc, red, hi, hj, hsp, hsp', hlen⟩ := reduce_specs p2.refs hch st
  have hb : b = .com (builtin .tru) := by
    cases hB' with
    | known h => rw [hu] at h; cases h; rfl
    | pair h _ _ _ _ => rw [hu] at h; cases h
  subst hb
  cases hj
  have pv := reduce_prev st
  have keep : ∀ k sp x y, specs g2 k = some sp → pairOf sp = some (x, y) →
      ∃ sp', specs g k = some sp' ∧ pairOf sp' = some (x, y) := by
    intro k sp x y h1 h2
    rw [hsp']
    by_cases e : k = i
    · subst e
      rw [hsp] at h1
      cases h1
      refine ⟨_, by simp [updS]; rfl, ?_⟩
      cases mc <;> exact h2
    · exact ⟨sp, by simp [updS, e, h1], h2⟩
  exact ⟨c2, standsFor g, i, hc2, hcor,
    Stands.denotes hcon (st1.updated pv fun k sp x y _ => keep k sp x y) ((conv_prev pv).2 hi),
    learnt_of ((hp g1 p1.applied).2.holding same) hsp hsp' hlen hcon⟩

/-- C60, definitions: if a command read as `let (x (:= (l r)))` is accepted, the concept of `x` is composed of those
of `l` and `r` afterwards and nothing else about the stored concepts changed. Partial: `x` has a concept and is no
pair, and every part of `l` and `r` has a concept, or is a pair that is not stored yet. Missing are the renames and the definitions
that change the parts of a pair. -/
theorem definition_accepted_partial {n : Nat} {c c1 c' : Ctx} {s : Str} {T L R x A O old l r : Syn} {a : CId} {m : Mixed}
    (h : Reachable c) (hr : ReadAs n c s T c1) (hT : T.concept = none) (hTe : T.expansion = some (L, R))
    (hL : OfType ⟨c1.snap, c1.delta⟩ L .letCmd) (hR : R.expansion = some (x, A))
    (hA : A.expansion = some (O, old)) (hO : OfType ⟨c1.snap, c1.delta⟩ O .define)
    (hx : x.concept = some a) (hm : (View.mk c1.snap c1.delta).read a = .ok m) (hxe : x.expansion = none)
    (ho : old.concept = none) (hoe : old.expansion = some (l, r))
    (hs : Sayable ⟨c1.snap, c1.delta⟩ l) (hs' : Sayable ⟨c1.snap, c1.delta⟩ r)
    (he : Context.execute n c s = .ok ([], c')) :
    ∃ c2 f i y z, Context.command n s c = .ok (.ok [], c2) ∧ Corresponds ⟨c2.snap, c2.delta⟩ c'.snap f ∧
      Denotes f c'.snap x i ∧ Denotes f c'.snap l y ∧ Denotes f c'.snap r z ∧
      Defined c.snap c'.snap i y z := by
  obtain ⟨e1, o1, ed, hk, _, _, hp⟩ := readAs_play h hr
  obtain ⟨c2, g, hc2, ⟨e2, u, v, o, M, m', ch, id, hC, hA', hB', hm', hch, hu⟩, hg, hcon, hcor⟩ := accepted h hr he
    (call_let hT hTe hL hR hA (fun _ _ h => h)
      (matchRighthandPair_told (.inr ⟨hO, executeComposition_coined hk ed hx hxe ho hoe hs hs'⟩)))
  rw [Nested.update_order hu] at hg
  obtain ⟨g2, hg2, hst⟩ := applyAll_snoc.1 hg
  obtain ⟨g1, p1, same, p2, hM⟩ := Play.composes (fun g hg => (hp g hg).1) hC hg2
  have st1 := hA'.stands hM
  have st2 := hB'.stands hM
  obtain ⟨_, ed1, sim1⟩ := p1.sim
  cases ed1
  obtain ⟨_, ed2, sim⟩ := p2.sim
  cases ed2
  obtain ⟨o', _, hid, _⟩ := Nested.update_base hu
  rw [e1] at hm hm'
  rw [ed] at hm
  have hid : id = m'.id := hid
  have hma : m'.id = a := sim.read_id (History.settled h).refs hm'
  rw [hma] at hid hst
  subst hid
  have st := applyOne_step hst
  obtain ⟨i, y, z, mc, mc', red, hi, hy, hz, hsp, hsp', hpair, hlen, pv⟩ := compose_specs p2.refs hch st
  obtain ⟨k, sp1, hk, hk', _⟩ := sim1.read hm
  have hki : k < g1.concepts.length := specs_lt hk'
  obtain rfl : k = i := (same.conv _ _ hk.conv).unique hi
  have keep : ∀ k' sp x y, g1.concepts.length ≤ k' → specs g2 k' = some sp → pairOf sp = some (x, y) →
      ∃ sp', specs g k' = some sp' ∧ pairOf sp' = some (x, y) := by
    intro k' sp x y hge h1 h2
    rw [hsp']
    exact ⟨sp, by rw [← h1]; simp [updS, show k' ≠ k by omega], h2⟩
  exact ⟨c2, standsFor g, k, y, z, hc2, hcor,
    .known hx (standsFor_iff.2 ((conv_prev pv).2 hi)),
    Stands.denotes hcon (st1.updated pv keep) ((conv_prev pv).2 hy),
    Stands.denotes hcon (st2.updated pv keep) ((conv_prev pv).2 hz),
    defined_of ((hp g1 p1.applied).2.holding same) hsp hsp' hpair hlen hcon⟩

/-- C60, forgetting: if a command read as `forget t` is accepted, the concept of `t` does not reduce afterwards, and
nothing else about the stored concepts changed. Partial: the command itself has no concept. -/
theorem forget_accepted_partial {n : Nat} {c c1 c' : Ctx} {s : Str} {T L t : Syn} {a : CId} (h : Reachable c)
    (hr : ReadAs n c s T c1) (hT : T.concept = none) (hTe : T.expansion = some (L, t))
    (hL : OfType ⟨c1.snap, c1.delta⟩ L .forget) (ha : t.concept = some a)
    (he : Context.execute n c s = .ok ([], c')) :
    ∃ c2 f i, Context.command n s c = .ok (.ok [], c2) ∧ Corresponds ⟨c2.snap, c2.delta⟩ c'.snap f ∧
      Denotes f c'.snap t i ∧ Unlearnt c.snap c'.snap i := by
  obtain ⟨e1, o, ed, hk, _, _, hp⟩ := readAs_play h hr
  obtain ⟨c2, g, hc2, ⟨e2, x, id, hu⟩, hg, hcon, hcor⟩ := accepted h hr he (call_dropped hT hTe hL ha)
  rw [Nested.update_order hu] at hg
  rw [ed] at hg hu
  obtain ⟨g1, hg1, hst⟩ := applyAll_snoc.1 hg
  obtain ⟨p1, nm⟩ := hp g1 hg1
  obtain ⟨o', _, hid, _⟩ := Nested.update_base hu
  have hid : id = a := hid
  subst hid
  obtain ⟨i, mc, red, hi, hsp, hsp', hlen, pv⟩ := unreduce_specs (applyOne_step hst)
  exact ⟨c2, standsFor g, i, hc2, hcor, .known ha (standsFor_iff.2 ((conv_prev pv).2 hi)),
    unlearnt_of (nm.holding (.refl _)) hsp hsp' hlen hcon⟩

end

/-! ## The hypotheses are met -/

section
open Insertion

/-- Whether the concept of the tree is of the type. -/
def isType (v : View) (t : Syn) (k : CCT) : Bool :=
  match t.concept with
  | none => false
  | some a => match v.cct a with
    | .ok (some k') => k' == k
    | _ => false

theorem isType_ofType {v : View} {t : Syn} {k : CCT} (h : isType v t k = true) : OfType v t k := by
  unfold isType at h
  split at h
  · cases h
  · rename_i a ha
    split at h
    · rename_i k' hk
      exact ⟨a, ha, by rw [hk, (beq_iff_eq.1 h)]⟩
    · cases h

/-- Whether the tree is made of concepts, and of pairs that are not stored. -/
def isSayable (v : View) : Syn → Bool
  | .leaf _ c _ => c.isSome
  | t@(.branch _ c l r _ _) => c.isSome ||
    (isSayable v l && isSayable v r &&
      (match t.display with
       | .ok u => u.contains ' ' && (match v.stringConcept u with
         | .ok none => true
         | _ => false)
       | _ => false) &&
      (match l.concept, r.concept with
       | some a, some b => match v.read a with
         | .ok m => (m.findAsHand b .left).isNone
         | _ => false
       | _, _ => true))

theorem isSayable_sayable {v : View} {t : Syn} (h : isSayable v t = true) : Sayable v t := by
  induction t with
  | leaf s c b => exact .known h
  | branch s c l r f b ihl ihr =>
    cases c with
    | some c => exact .known rfl
    | none =>
      simp only [isSayable, Option.isSome_none, Bool.false_or, Bool.and_eq_true] at h
      obtain ⟨⟨⟨h1, h2⟩, h3⟩, h4⟩ := h
      refine .pair rfl rfl (ihl h1) (ihr h2) ?_ ?_
      · split at h3
        · rename_i u hu
          simp only [Bool.and_eq_true] at h3
          refine ⟨u, hu, List.contains_iff_mem.1 h3.1, ?_⟩
          have h4 := h3.2
          split at h4
          · assumption
          · cases h4
        · cases h3
      · intro a b ha hb
        rw [ha, hb] at h4
        dsimp only at h4
        split at h4
        · rename_i m hm
          exact ⟨m, hm, Option.isNone_iff_eq_none.1 h4⟩
        · cases h4

/-- Whether the tree has pairs in pairs without a concept. -/
def isDeep (t : Syn) : Bool :=
  t.concept.isNone && (match t.expansion with
   | some (l, _) => l.concept.isNone
   | none => false)

/-- The trees that a command of the form `x (y z)` is read as, and the pending changes. -/
def readParts (n : Nat) (c : Ctx) (s : Str) : Option (Syn × Syn × Syn × Syn × Syn × Syn × Ctx) :=
  match (do let t ← Parser.astFromExpression n s
            let t ← searching (fun e => (search n).expand e t)
            tryCatch (Parser.createVariables t) (fun _ => fault (.panic .executeUnwrap)) : CM Syn) c with
  | .ok (.ok T, c1) => match T.concept, T.expansion with
    | none, some (L, R) => match R.expansion with
      | some (x, A) => match A.expansion with
        | some (O, y) => some (T, L, R, x, O, y, c1)
        | none => none
      | none => none
    | _, _ => none
  | _ => none

theorem readParts_reads {n : Nat} {c c1 : Ctx} {s : Str} {T L R x O y : Syn}
    (h : readParts n c s = some (T, L, R, x, O, y, c1)) :
    ReadAs n c s T c1 ∧ T.concept = none ∧ T.expansion = some (L, R) ∧
      ∃ A, R.expansion = some (x, A) ∧ A.expansion = some (O, y) := by
  unfold readParts at h
  split at h
  · rename_i T' c1' hr
    split at h
    · rename_i L' R' h1 h2
      split at h
      · rename_i x' A h3
        split at h
        · rename_i O' y' h4
          cases h
          exact ⟨hr, h1, h2, A, h3, h4⟩
        · cases h
      · cases h
    · cases h
  · cases h

/-- Whether the command is accepted without an answer. -/
def isAccepted (n : Nat) (c : Ctx) (s : Str) : Bool :=
  match Context.execute n c s with
  | .ok ([], _) => true
  | _ => false

theorem isAccepted_spec {n : Nat} {c : Ctx} {s : Str} (h : isAccepted n c s = true) :
    ∃ c', Context.execute n c s = .ok ([], c') := by
  unfold isAccepted at h
  split at h
  · exact ⟨_, by assumption⟩
  · cases h

/-- Whether the command lets one new pair with a new pair reduce to another. -/
def isRule (n : Nat) (c : Ctx) (s : Str) : Bool :=
  match readParts n c s with
  | some (_, L, _, x, O, y, c1) =>
    let v : View := ⟨c1.snap, c1.delta⟩
    isType v L .letCmd && isType v O .reduction && x.key != y.key && isSayable v x && isSayable v y && isDeep x &&
      isDeep y
  | none => false

/-- The hypotheses of `rule_accepted_partial` are met by `let (((a b) c) (-> ((a b) d)))` in a new context. -/
example : ∃ (c' : Ctx) (t nf : Syn) (f : CId → Option Nat) (i j : Nat), Reachable boot ∧
    Context.execute 80 boot (str% "let (((a b) c) (-> ((a b) d)))") = .ok ([], c') ∧ isDeep t = true ∧ isDeep nf = true ∧
    Denotes f c'.snap t i ∧ Denotes f c'.snap nf j ∧ Learnt boot.snap c'.snap i j := by
  have hb : Reachable boot := History.reachable boot_calm
  have h : isRule 80 boot (str% "let (((a b) c) (-> ((a b) d)))") = true := by decide +kernel
  obtain ⟨c', he⟩ := isAccepted_spec (n := 80) (c := boot) (s := str% "let (((a b) c) (-> ((a b) d)))")
    (by decide +kernel)
  unfold isRule at h
  split at h
  · rename_i T L R x O y c1 hp
    obtain ⟨h1, h2, h3, A, h4, h5⟩ := readParts_reads hp
    simp only [Bool.and_eq_true, bne_iff_ne] at h
    obtain ⟨⟨⟨⟨⟨⟨a1, a2⟩, a3⟩, a4⟩, a5⟩, a6⟩, a7⟩ := h
    obtain ⟨_, f, i, j, _, _, d1, d2, l⟩ := rule_accepted_partial hb h1 h2 h3 (isType_ofType a1) h4 h5
      (isType_ofType a2) a3 (isSayable_sayable a4) (isSayable_sayable a5) he
    exact ⟨c', x, y, f, i, j, hb, he, a6, a7, d1, d2, l⟩
  · cases h

/-- Whether `let` followed by the tree says that it is true. -/
def isAssertion (v : View) (t : Syn) : Bool :=
  match t.expansion with
  | none => true
  | some (_, a) => match a.expansion with
    | none => true
    | some (o, _) => match o.concept with
      | none => true
      | some x => match v.read x with
        | .ok m => m.cct != some .reduction && m.cct != some .define && m.reduction.isNone
        | _ => false

theorem isAssertion_asserts {v : View} {t : Syn} (h : isAssertion v t = true) : Asserts v t := by
  intro l a o u h1 h2
  unfold isAssertion at h
  simp only [h1, h2] at h
  cases ho : o.concept with
  | none => exact .inl rfl
  | some x =>
    rw [ho] at h
    dsimp only at h
    split at h
    · next m hm =>
      simp only [Bool.and_eq_true, bne_iff_ne] at h
      exact .inr ⟨x, m, rfl, hm, h.1.1, h.1.2, Option.isNone_iff_eq_none.1 h.2⟩
    · cases h

/-- The tree and the pending changes of a command that asserts something. -/
def readAssertion (n : Nat) (c : Ctx) (s : Str) : Option (Syn × Syn × Syn × Ctx) :=
  match (do let t ← Parser.astFromExpression n s
            let t ← searching (fun e => (search n).expand e t)
            tryCatch (Parser.createVariables t) (fun _ => fault (.panic .executeUnwrap)) : CM Syn) c with
  | .ok (.ok T, c1) => match T.concept, T.expansion with
    | none, some (L, t) =>
      if isType ⟨c1.snap, c1.delta⟩ L .letCmd && isAssertion ⟨c1.snap, c1.delta⟩ t && isSayable ⟨c1.snap, c1.delta⟩ t &&
        t.concept != some (.com (builtin .tru)) then some (T, L, t, c1) else none
    | _, _ => none
  | _ => none

theorem readAssertion_reads {n : Nat} {c c1 : Ctx} {s : Str} {T L t : Syn}
    (h : readAssertion n c s = some (T, L, t, c1)) :
    ReadAs n c s T c1 ∧ T.concept = none ∧ T.expansion = some (L, t) ∧ OfType ⟨c1.snap, c1.delta⟩ L .letCmd ∧
      Asserts ⟨c1.snap, c1.delta⟩ t ∧ t.concept ≠ some (.com (builtin .tru)) ∧ Sayable ⟨c1.snap, c1.delta⟩ t := by
  unfold readAssertion at h
  split at h
  · rename_i T' c1' hr
    split at h
    · rename_i L' t' h1 h2
      split at h
      · rename_i hb
        cases h
        simp only [Bool.and_eq_true, bne_iff_ne] at hb
        obtain ⟨⟨⟨a1, a2⟩, a3⟩, a4⟩ := hb
        exact ⟨hr, h1, h2, isType_ofType a1, isAssertion_asserts a2, a4, isSayable_sayable a3⟩
      · cases h
    · cases h
  · cases h

/-- The hypotheses of `assertion_accepted_partial` are met by `let (p (q r))` in a new context. -/
example : ∃ (c' : Ctx) (t : Syn) (f : CId → Option Nat) (i : Nat), Lived boot ∧ isDeep t = false ∧
    Context.execute 60 boot (str% "let (p (q r))") = .ok ([], c') ∧
    Denotes f c'.snap t i ∧ Learnt boot.snap c'.snap i (builtin .tru) := by
  have hb : Lived boot := boot_lived
  have h : (match readAssertion 60 boot (str% "let (p (q r))") with
    | some (_, _, t, _) => t.concept.isNone && !isDeep t
    | none => false) = true := by decide +kernel
  obtain ⟨c', he⟩ := isAccepted_spec (n := 60) (c := boot) (s := str% "let (p (q r))") (by decide +kernel)
  split at h
  · rename_i T L t c1 hp
    obtain ⟨h1, h2, h3, h4, h5, h6, h7⟩ := readAssertion_reads hp
    obtain ⟨_, f, i, _, _, d, l⟩ := assertion_accepted_partial hb h1 h2 h3 h4 h5 h6 h7 he
    simp only [Bool.and_eq_true, Bool.not_eq_true'] at h
    exact ⟨c', t, f, i, hb, h.2, he, d, l⟩
  · cases h

/-- Whether the command defines a word as a pair of new pairs. -/
def isDefinition (n : Nat) (c : Ctx) (s : Str) : Bool :=
  match readParts n c s with
  | some (_, L, _, x, O, y, c1) =>
    let v : View := ⟨c1.snap, c1.delta⟩
    isType v L .letCmd && isType v O .define && x.expansion.isNone && y.concept.isNone &&
    (match x.concept with
     | some a => match v.read a with
       | .ok _ => true
       | _ => false
     | none => false) &&
    (match y.expansion with
     | some (l, r) => l.concept.isNone && r.concept.isNone && isSayable v l && isSayable v r
     | none => false)
  | none => false

/-- The hypotheses of `definition_accepted_partial` are met by `let (x (:= ((a b) (c d))))` in a new context. -/
example : ∃ c' x l r f i y z, Context.execute 60 boot (str% "let (x (:= ((a b) (c d))))") = .ok ([], c') ∧
    Denotes f c'.snap x i ∧ Denotes f c'.snap l y ∧ Denotes f c'.snap r z ∧ Defined boot.snap c'.snap i y z := by
  have hb : Reachable boot := History.reachable boot_calm
  have h : isDefinition 60 boot (str% "let (x (:= ((a b) (c d))))") = true := by decide +kernel
  obtain ⟨c', he⟩ := isAccepted_spec (n := 60) (c := boot) (s := str% "let (x (:= ((a b) (c d))))") (by decide +kernel)
  unfold isDefinition at h
  split at h
  · rename_i T L R x O y c1 hp
    obtain ⟨h1, h2, h3, A, h4, h5⟩ := readParts_reads hp
    simp only [Bool.and_eq_true] at h
    obtain ⟨⟨⟨⟨⟨a1, a2⟩, a3⟩, a4⟩, a5⟩, a6⟩ := h
    split at a5
    · rename_i a ha
      split at a5
      · rename_i m hm
        split at a6
        · rename_i l r hlr
          simp only [Bool.and_eq_true] at a6
          obtain ⟨_, f, i, y', z', _, _, d1, d2, d3, d⟩ := definition_accepted_partial hb h1 h2 h3 (isType_ofType a1) h4 h5
            (isType_ofType a2) ha hm (Option.isNone_iff_eq_none.1 a3) (Option.isNone_iff_eq_none.1 a4) hlr
            (isSayable_sayable a6.1.2) (isSayable_sayable a6.2) he
          exact ⟨c', x, l, r, f, i, y', z', he, d1, d2, d3, d⟩
        · cases a6
      · cases a5
    · cases a5
  · cases h

/-- Whether the command forgets the reduction of a concept. -/
def isForget (n : Nat) (c : Ctx) (s : Str) : Bool :=
  match (do let t ← Parser.astFromExpression n s
            let t ← searching (fun e => (search n).expand e t)
            tryCatch (Parser.createVariables t) (fun _ => fault (.panic .executeUnwrap)) : CM Syn) c with
  | .ok (.ok T, c1) => match T.concept, T.expansion with
    | none, some (L, t) => isType ⟨c1.snap, c1.delta⟩ L .forget && t.concept.isSome
    | _, _ => false
  | _ => false

/-- The hypotheses of `forget_accepted_partial` are met by `forget b` after `let (a (-> b))` and `let (b (-> c))`. -/
example : ∃ c' t f i, Context.execute 60 Witness.taught2 (str% "forget b") = .ok ([], c') ∧
    Denotes f c'.snap t i ∧ Unlearnt Witness.taught2.snap c'.snap i := by
  have hc : Reachable Witness.taught2 :=
    ((History.reachable boot_calm).step Witness.taught1_eq (fun _ _ _ _ _ _ _ _ _ => trivial)).step
      Witness.taught2_eq (fun _ _ _ _ _ _ _ _ _ => trivial)
  have h : isForget 60 Witness.taught2 (str% "forget b") = true := by decide +kernel
  obtain ⟨c', he⟩ := isAccepted_spec (n := 60) (c := Witness.taught2) (s := str% "forget b") (by decide +kernel)
  unfold isForget at h
  split at h
  · rename_i T c1 hr
    split at h
    · rename_i L t h1 h2
      simp only [Bool.and_eq_true] at h
      obtain ⟨a, ha⟩ := Option.isSome_iff_exists.1 h.2
      obtain ⟨_, f, i, _, _, d, u⟩ := forget_accepted_partial hc hr h1 h2 (isType_ofType h.1) ha he
      exact ⟨c', t, f, i, he, d, u⟩
    · cases h
  · cases h

end

end Zia.Props

import Verif.Lemmas.LearnStore
import Verif.Lemmas.Stand
import Verif.Spec.Query

/-!
# No rule is found for a word that no rule is about

A search for a rule that concludes a reduction of a word, in a store without a rule that concludes the reduction
of just anything and without a rule about the word, finds none.
-/

namespace Zia

open Spec

set_option linter.unusedSectionVars false

variable [HashOrder]

/-- A variable. -/
def LeafVar (s : Snap) (k : Nat) : Prop := MayVary s k ∧ ∀ l r, ¬ComposedOf s k l r

section

variable {s : Snap}

/-- The trees that may stand for a concept. Those that stand for a variable are any trees, as a
generalisation gives it a value. -/
inductive TreeIn (W : Stand s) : Nat → Syn → Prop
  | free {k : Nat} {t : Syn} (h : LeafVar s k) : TreeIn W k t
  | leaf {k : Nat} {u : Str} {kd : SLeaf} (h : kd = .variable → LeafVar s k)
      (hn : ∀ t, PlainWord s k t → u = t) :
      TreeIn W k (.leaf (some u) (some (W.ι k)) kd)
  | pair {k l r : Nat} {x : Option Str} {o : Option CId} {a b : Syn} {f g : List Key} (h : ComposedOf s k l r)
      (ha : TreeIn W l a) (hb : TreeIn W r b) : TreeIn W k (.branch x o a b f g)

/-- The trees that may stand for a concept. -/
def treeRel (W : Stand s) : Rel := fun id t => ∀ k, id = W.ι k → TreeIn W k t

/-- The id is not one that a pending concept gets when it is stored. -/
def Stand.Own (W : Stand s) (id : CId) : Prop := ∀ j, id = .com j → j < W.snap.concepts.length

end

/-- What is needed of the store. -/
structure Lone (s : Snap) (D : Nat → Prop) : Prop where
  ids : ∀ (k : Nat) (c : Con), s.concepts[k]? = some c → c.id = k
  imp : byRight s.concrete .implication = some (builtin .implication)
  red : byRight s.concrete .reduction = some (builtin .reduction)
  builtins : ∀ t, t = .implication ∨ t = .reduction →
    ¬MayVary s (builtin t) ∧ ∀ l r, ¬ComposedOf s (builtin t) l r
  rules : NoBlanketRule s
  names : Nameable s
  fwd : CompFwd (look s.concepts)
  rev : CompRev (look s.concepts)
  words : ∀ i, D i → (∀ l r, ¬ComposedOf s i l r) ∧ ¬MayVary s i ∧ ∀ k r, ¬ComposedOf s k i r

variable {s : Snap}

/-- The environments of a search that changes nothing. -/
structure Good (W : Stand s) (e : Env) : Prop where
  snap : e.view.snap = W.snap
  ext : Ext W.pend e.view.delta
  mask : ∀ k t, e.mask.get (W.ι k) = some t → LeafVar s k
  bound : e.bound = []

/-- What is remembered: trees of the concepts, and that no rule was found for the words. -/
structure Kept (W : Stand s) (D : Nat → Prop) (ca : Cache) : Prop where
  trees : ∀ f ∈ ca.frames, ∀ id t, f.syn.get? id = some t → treeRel W id t ∧ W.Own id
  infs : ∀ id r, ca.inference? id = some r → W.Own id ∧ ∀ i, D i → id = W.ι i → r = none

variable {W : Stand s} {D : Nat → Prop}

theorem Good.read {e : Env} (h : Good W e) {k : Nat} {m : Mixed} (hr : e.view.read (W.ι k) = .ok m) :
    ∃ c, s.concepts[k]? = some c ∧ Mirrors W.ι c m := by
  obtain ⟨v, _, _, _, _⟩ := e
  obtain ⟨sn, d⟩ := v
  cases h.snap
  exact W.read_ext h.ext hr

theorem Good.read_cases {e : Env} (h : Good W e) {id : CId} {m : Mixed} (hr : e.view.read id = .ok m) :
    (∃ k c, id = W.ι k ∧ s.concepts[k]? = some c ∧ Mirrors W.ι c m) ∨
      ∃ u, W.pend.overlay.num ≤ u ∧ id = .unc u ∧ m = .unc (Concept.ofNew (.unc u) .boundVariable) := by
  obtain ⟨v, _, _, _, _⟩ := e
  obtain ⟨sn, d⟩ := v
  cases h.snap
  exact W.read_cases h.ext hr

theorem Good.read_unc {e : Env} (h : Good W e) {u : Nat} (hu : W.pend.overlay.num ≤ u) {m : Mixed}
    (hr : e.view.read (.unc u) = .ok m) : m = .unc (Concept.ofNew (.unc u) .boundVariable) := by
  obtain ⟨v, _, _, _, _⟩ := e
  obtain ⟨sn, d⟩ := v
  cases h.snap
  exact W.read_new h.ext hu hr

theorem Good.concreteId {e : Env} (h : Good W e) {t : CCT} {r : Option CId}
    (hr : e.view.concreteId t = .ok r) : r = (byRight s.concrete t).map W.ι := by
  obtain ⟨v, _, _, _, _⟩ := e
  obtain ⟨sn, d⟩ := v
  cases h.snap
  exact W.concreteId h.ext hr

/-- The id of what is read. -/
theorem Good.own {e : Env} (h : Good W e) (hid : ∀ (k : Nat) (c : Con), s.concepts[k]? = some c → c.id = k) {id : CId}
    {m : Mixed} (hr : e.view.read id = .ok m) : m.id = id ∧ W.Own id := by
  rcases h.read_cases hr with ⟨k, c, rfl, hc, M⟩ | ⟨u, _, rfl, rfl⟩
  · exact ⟨by rw [M.id, hid k c hc], W.own k (lt_of_get hc)⟩
  · exact ⟨rfl, fun j e => by cases e⟩

omit [HashOrder] in
theorem ofCon_composition {c : Con} {l r : CId} (h : (Mixed.ofCon c).composition = some (l, r)) :
    ∃ l' r', l = .com l' ∧ r = .com r' ∧ c.composition = some (l', r') := by
  have h : c.composition.map (fun p => (CId.com p.1, CId.com p.2)) = some (l, r) := h
  cases hc : c.composition with
  | none => rw [hc] at h; cases h
  | some p =>
    rw [hc] at h
    cases h
    exact ⟨p.1, p.2, rfl, rfl, rfl⟩

theorem formatString_constant (u : Str) : Syn.isVariableName (Search.formatString u) = false := by
  simp [Syn.isVariableName, Search.formatString]

theorem bindConceptToSyntax_leaf {v : View} {u : Str} {id : CId} {t : Syn}
    (h : v.bindConceptToSyntax (Syn.ofStr u) id = .ok t) :
    ∃ k, t = .leaf (some u) (some id) k ∧ (k = .variable → Syn.isVariableName u = true) := by
  simp only [View.bindConceptToSyntax, Syn.ofStr, Except.bind_eq_ok] at h
  obtain ⟨o, _, h⟩ := h
  cases hv : Syn.isVariableName u with
  | true =>
    simp only [hv, if_true] at h
    split at h
    · cases h
    · cases h; exact ⟨_, rfl, fun _ => rfl⟩
  | false =>
    simp only [hv, Bool.false_eq_true, if_false] at h
    split at h
    · cases h; exact ⟨_, rfl, fun e => by cases e⟩
    · cases h; exact ⟨_, rfl, fun e => by cases e⟩

theorem Good.label_rest {e : Env} (h : Good W e) {n k : Nat} {o : Option Str} (hl : e.view.label n (W.ι k) = .ok o) :
    (View.mk s Nested.default).label n (.com k) = .ok o := by
  obtain ⟨v, _, _, _, _⟩ := e
  obtain ⟨sn, d⟩ := v
  cases h.snap
  exact W.label_rest h.ext hl

/-- The relation holds for every tree that is built or substituted. -/
theorem Good.keptBy (L : Lone s D) {e : Env} (h : Good W e) : KeptBy e (treeRel W) := by
  refine ⟨?_, ?_⟩
  · rintro id t ht k rfl
    exact .free (h.mask k t ht)
  · intro id m t hr hb
    rw [(h.own L.ids hr).1, and_self]
    rcases h.read_cases hr with ⟨k, c, rfl, hc, M⟩ | ⟨u, hu, rfl, rfl⟩
    · have hid : m.id = W.ι k := (h.own L.ids hr).1
      intro k' hk'
      cases W.inj _ _ hk'
      cases hb with
      | string hs ht =>
        obtain ⟨kd, rfl, hk⟩ := bindConceptToSyntax_leaf ht
        rw [M.string] at hs
        refine .leaf (fun e => ?_) fun t hw => absurd ⟨c, hc, hs⟩ (hw.nostring _)
        have := hk e
        rw [formatString_constant] at this
        cases this
      | named hs hl ht =>
        obtain ⟨kd, rfl, hk⟩ := bindConceptToSyntax_leaf ht
        refine .leaf (fun e => ?_) fun t hw => by
          cases hw.label L.names L.fwd (h.label_rest hl)
          rfl
        obtain ⟨z, h1, h2⟩ := label_sound L.names L.rev (h.label_rest hl)
        have hv : ShownAsVariable s k := ⟨z, _, h1, h2, hk e⟩
        exact ⟨.inr hv, fun l r hc => L.rules.names k l r hc hv⟩
      | pair hs hl hcomp ha hb ht =>
        obtain ⟨l', r', rfl, rfl, hp⟩ := M.composition_inv hcomp
        obtain ⟨x, o, rfl, _⟩ := ht
        exact .pair ⟨c, hc, hp⟩ (ha _ rfl) (hb _ rfl)
      | other hs hl hcomp =>
        have hn : ∀ u t, PlainWord s k t → u = t := fun u t hw => by
          cases hw.label L.names L.fwd (h.label_rest hl)
        unfold View.newSyntaxFromConcept
        rw [hid]
        split
        · exact .leaf (fun e => by cases e) (hn _)
        · split
          · next ha =>
            rw [M.anonymous] at ha
            refine .leaf (fun _ => ⟨.inl ⟨c, hc, ha⟩, ?_⟩) (hn _)
            rintro l r ⟨c', hc', hp⟩
            rw [hc] at hc'
            cases hc'
            rw [M.composition, hp] at hcomp
            cases hcomp
          · exact .leaf (fun e => by cases e) (hn _)
    · intro k e
      exact absurd e (W.foreign hu k)

/-- A search that keeps what is remembered. -/
def CalmS (W : Stand s) (D : Nat → Prop) {α : Type} (m : SM α) : Prop :=
  ∀ ca a ca', Kept W D ca → m ca = .ok (a, ca') → Kept W D ca'

variable {α β : Type}

namespace CalmS

theorem pure (a : α) : CalmS W D (Pure.pure a : SM α) := by
  intro ca b ca' hc h; cases h; exact hc

theorem fault (f : Fault) : CalmS W D (SM.fault f : SM α) := by
  intro ca b ca' _ h; cases h

theorem lift (x : Except Fault α) : CalmS W D (liftM x : SM α) := by
  intro ca b ca' hc h
  obtain ⟨_, rfl⟩ := SM.lift_ok.1 h
  exact hc

theorem get : CalmS W D (MonadState.get : SM Cache) := by
  intro ca b ca' hc h; cases h; exact hc

theorem modify {f : Cache → Cache} (hf : ∀ ca, Kept W D ca → Kept W D (f ca)) :
    CalmS W D (modify f : SM Unit) := by
  intro ca b ca' hc h; cases h; exact hf ca hc

theorem bind {m : SM α} {f : α → SM β} (h : CalmS W D m) (hf : ∀ a, CalmS W D (f a)) :
    CalmS W D (m >>= f) := by
  intro ca b ca' hc hb
  obtain ⟨a, ca1, h1, h2⟩ := SM.bind_ok.1 hb
  exact hf a _ _ _ (h _ _ _ hc h1) h2

theorem bind_lift {x : Except Fault α} {f : α → SM β} (hf : ∀ a, x = .ok a → CalmS W D (f a)) :
    CalmS W D ((liftM x : SM α) >>= f) := by
  intro ca b ca' hc hb
  obtain ⟨a, ca1, h1, h2⟩ := SM.bind_ok.1 hb
  obtain ⟨hx, rfl⟩ := SM.lift_ok.1 h1
  exact hf a hx _ _ _ hc h2

theorem spawn {red : AMap Key RR} {m : SM α} (h : CalmS W D m) : CalmS W D (SM.spawn red m) := by
  intro ca b ca' hc hb
  unfold SM.spawn at hb
  cases hm : m { ca with frames := ⟨red, []⟩ :: ca.frames } with
  | error e => rw [hm] at hb; cases hb
  | ok p =>
    obtain ⟨a, c1⟩ := p
    have k0 : Kept W D { ca with frames := ⟨red, []⟩ :: ca.frames } := by
      refine ⟨fun f hf id t ht => ?_, hc.infs⟩
      rcases List.mem_cons.1 hf with rfl | hf
      · cases ht
      · exact hc.trees f hf id t ht
    have hl := h _ _ _ k0 hm
    rw [hm] at hb
    obtain ⟨fs, infs⟩ := c1
    cases fs with
    | nil => cases hb; exact hl
    | cons f fs =>
      cases hb
      exact ⟨fun f hf => hl.trees f (by simp [hf]), hl.infs⟩

theorem asParent {m : SM α} (h : CalmS W D m) : CalmS W D (SM.asParent m) := by
  intro ca x ca' hc hb
  unfold SM.asParent at hb
  obtain ⟨fs, infs⟩ := ca
  cases fs with
  | nil => exact h _ _ _ hc hb
  | cons f fs =>
    cases hm : m ⟨fs, infs⟩ with
    | error e => simp only [hm] at hb; cases hb
    | ok p =>
      obtain ⟨a, c1⟩ := p
      have k0 : Kept W D ⟨fs, infs⟩ := ⟨fun f hf => hc.trees f (by simp [hf]), hc.infs⟩
      have hl := h _ _ _ k0 hm
      simp only [hm] at hb
      cases hb
      refine ⟨fun g hg => ?_, hl.infs⟩
      rcases List.mem_cons.1 hg with rfl | hg
      · exact hc.trees _ (by simp)
      · exact hl.trees g hg

end CalmS

theorem Kept.insertReduction {ca : Cache} {t : Syn} {r : RR} (h : Kept W D ca) :
    Kept W D (ca.insertReduction t r) := by
  unfold Cache.insertReduction
  obtain ⟨fs, infs⟩ := ca
  have key : ∀ (f : Frame) (fs : List Frame) (red : AMap Key RR), Kept W D ⟨f :: fs, infs⟩ →
      Kept W D ⟨{ f with red := red } :: fs, infs⟩ := by
    intro f fs red h
    refine ⟨fun g hg => ?_, h.infs⟩
    rcases List.mem_cons.1 hg with rfl | hg
    · exact h.trees f (by simp)
    · exact h.trees g (by simp [hg])
  cases fs with
  | nil => cases r <;> dsimp only <;> split <;> exact h
  | cons f fs =>
    cases r <;> dsimp only <;> split
    · exact key _ _ _ h
    · exact h
    · exact key _ _ _ h
    · exact h

theorem Kept.insertInference {ca : Cache} {id : CId} {r : RR} (h : Kept W D ca) (ho : W.Own id)
    (hr : ∀ i, D i → id = W.ι i → r = none) : Kept W D (ca.insertInference id r) := by
  refine ⟨h.trees, fun x r' hi => ?_⟩
  simp only [Cache.insertInference, Cache.inference?] at hi
  rw [AMap.get?_insert] at hi
  split at hi
  · next e => subst e; cases hi; exact ⟨ho, hr⟩
  · exact h.infs x r' hi

theorem Kept.insertSyntaxTree {ca : Cache} {m : Mixed} {t : Syn} (h : Kept W D ca)
    (ht : treeRel W m.id t) (ho : W.Own m.id) : Kept W D (ca.insertSyntaxTree m t) := by
  unfold Cache.insertSyntaxTree
  obtain ⟨fs, infs⟩ := ca
  split
  · exact h
  · cases fs with
    | nil => exact h
    | cons f fs =>
      refine ⟨fun g hg id u hu => ?_, h.infs⟩
      rcases List.mem_cons.1 hg with rfl | hg
      · dsimp only at hu
        rw [AMap.get?_insert] at hu
        split at hu
        · next e => subst e; cases hu; exact ⟨ht, ho⟩
        · exact h.trees f (by simp) id u hu
      · exact h.trees g (by simp [hg]) id u hu

/-- One structural step. -/
macro "calm_step" : tactic => `(tactic| first
  | with_reducible assumption
  | with_reducible exact CalmS.pure _
  | with_reducible exact CalmS.fault _
  | with_reducible exact CalmS.lift _
  | with_reducible exact CalmS.get
  | with_reducible refine CalmS.spawn ?_
  | with_reducible refine CalmS.asParent ?_
  | with_reducible refine CalmS.bind ?_ fun _ => ?_
  | dsimp only
  | split)

/-- The environment is one of a search that changes nothing. -/
macro "good%" : term => `(by first | assumption)

/-- Structural steps, with further lemmas for the functions that are called. -/
macro "calm" "[" ts:term,* "]" : tactic =>
  `(tactic| repeat' first $[| with_reducible exact $ts]* | calm_step)

/-- All recursive calls keep what is remembered. -/
structure SCalm (W : Stand s) (D : Nat → Prop) (S : Search) : Prop where
  reduce : ∀ e t, Good W e → CalmS W D (S.reduce e t)
  toAst : ∀ e c, Good W e → CalmS W D (S.toAst e c)
  getAssoc : ∀ e t, Good W e → CalmS W D (S.getAssoc e t)
  recReduce : ∀ e t r, Good W e → CalmS W D (S.recReduce e t r)
  findEx : ∀ e g set k, Good W e → (∀ x, CalmS W D (k x)) → CalmS W D (S.findEx e g set k)
  evidence : ∀ e l r, Good W e → CalmS W D (S.evidence e l r)
  expand : ∀ e t, Good W e → CalmS W D (S.expand e t)
  built : ∀ e k ca t ca', Good W e → Kept W D ca → S.toAst e (W.ι k) ca = .ok (t, ca') → TreeIn W k t

namespace Search

variable {S : Search} (h : SCalm W D S)
include h

theorem concreteAst_calm (e : Env) (he : Good W e) (t : CCT) :
    CalmS W D (S.concreteAst e t) := by
  unfold concreteAst
  calm [h.toAst _ _ good%]

theorem displayJoint_calm (e : Env) (he : Good W e) (l r : Syn) :
    CalmS W D (S.displayJoint e l r) := by
  unfold displayJoint
  calm [h.getAssoc _ _ good%]

theorem join_calm (e : Env) (he : Good W e) (l r : Syn) : CalmS W D (S.join e l r) := by
  unfold join
  calm [displayJoint_calm h _ good% _ _]

theorem combine_calm (e : Env) (he : Good W e) (l r : Syn) : CalmS W D (S.combine e l r) := by
  unfold combine
  calm [join_calm h _ good% _ _]

theorem contractPair_calm (e : Env) (he : Good W e) (l r : Syn) :
    CalmS W D (S.contractPair e l r) := by
  unfold contractPair
  calm [displayJoint_calm h _ good% _ _]

theorem getAssocF_calm (e : Env) (he : Good W e) (t : Syn) : CalmS W D (S.getAssocF e t) := by
  unfold getAssocF
  calm [combine_calm h _ good% _ _, h.toAst _ _ good%, h.reduce _ _ good%]

theorem buildAst_calm (e : Env) (he : Good W e) (id : CId) (c : Mixed) :
    CalmS W D (S.buildAst e id c) := by
  unfold buildAst
  calm [combine_calm h _ good% _ _, h.toAst _ _ good%]

/-- The tree of a concept, as it is put into the memory. -/
theorem buildAst_tree {e : Env} (he : Good W e) {id : CId} {c : Mixed} {ca ca' : Cache} {t : Syn}
    (hca : Kept W D ca) (h' : S.buildAst e id c ca = .ok (t, ca')) : BuiltAs e.view (treeRel W) id c t := by
  unfold buildAst at h'
  cases hs : c.string with
  | some u =>
    rw [hs] at h'
    exact .string hs (SM.lift_ok.1 h').1
  | none =>
    rw [hs] at h'
    obtain ⟨s, ca1, h0, h2⟩ := SM.bind_ok.1 h'
    obtain ⟨h1, rfl⟩ := SM.lift_ok.1 h0
    cases s with
    | some s => exact .named hs h1 (SM.lift_ok.1 h2).1
    | none =>
      dsimp only at h2
      cases hcomp : c.composition with
      | none =>
        rw [hcomp] at h2
        cases h2
        exact .other hs h1 hcomp
      | some p =>
        obtain ⟨l, r⟩ := p
        rw [hcomp] at h2
        obtain ⟨a, ca2, ha, h2⟩ := SM.bind_ok.1 h2
        obtain ⟨b, ca3, hb, h2⟩ := SM.bind_ok.1 h2
        have f2 := h.toAst _ _ he _ _ _ hca ha
        refine .pair hs h1 hcomp (fun k e => ?_) (fun k e => ?_) (combine_paired h2)
        · subst e; exact h.built _ _ _ _ _ he hca ha
        · subst e; exact h.built _ _ _ _ _ he f2 hb

theorem toAstF_calm (L : Lone s D) (e : Env) (he : Good W e) (id : CId) : CalmS W D (S.toAstF e id) := by
  intro ca t ca' hca h'
  unfold toAstF at h'
  cases hm : e.mask.get id with
  | some s => rw [hm] at h'; cases h'; exact hca
  | none =>
    rw [hm] at h'
    dsimp only at h'
    obtain ⟨_, _, h1, h2⟩ := SM.bind_ok.1 h'
    obtain ⟨rfl, rfl⟩ := SM.get_ok.1 h1
    cases hs : ca.syntaxTree? id with
    | some s => rw [hs] at h2; cases h2; exact hca
    | none =>
      rw [hs] at h2
      dsimp only at h2
      obtain ⟨c, _, h1, h2⟩ := SM.bind_ok.1 h2
      obtain ⟨hr, rfl⟩ := SM.lift_ok.1 h1
      obtain ⟨s, ca1, h3, h2⟩ := SM.bind_ok.1 h2
      obtain ⟨_, ca2, h4, h2⟩ := SM.bind_ok.1 h2
      cases h2
      obtain rfl := SM.modify_ok.1 h4
      exact (buildAst_calm h e he id c _ _ _ hca h3).insertSyntaxTree
        ((he.keptBy L).built _ _ _ hr (buildAst_tree h he hca h3)).2 (by
          rw [(he.own L.ids hr).1]; exact (he.own L.ids hr).2)

theorem toAstF_tree (L : Lone s D) {e : Env} (he : Good W e) {k : Nat} {ca ca' : Cache} {t : Syn}
    (hca : Kept W D ca) (h' : S.toAstF e (W.ι k) ca = .ok (t, ca')) : TreeIn W k t := by
  unfold toAstF at h'
  cases hm : e.mask.get (W.ι k) with
  | some s => rw [hm] at h'; cases h'; exact .free (he.mask _ _ hm)
  | none =>
    rw [hm] at h'
    dsimp only at h'
    obtain ⟨_, _, h1, h2⟩ := SM.bind_ok.1 h'
    obtain ⟨rfl, rfl⟩ := SM.get_ok.1 h1
    cases hs : ca.syntaxTree? (W.ι k) with
    | some s =>
      rw [hs] at h2; cases h2
      unfold Cache.syntaxTree? at hs
      obtain ⟨fs, infs⟩ := ca
      cases fs with
      | nil => cases hs
      | cons f fs => exact (hca.trees f (by simp) _ _ hs).1 _ rfl
    | none =>
      rw [hs] at h2
      dsimp only at h2
      obtain ⟨c, _, h1, h2⟩ := SM.bind_ok.1 h2
      obtain ⟨hr, rfl⟩ := SM.lift_ok.1 h1
      obtain ⟨s, ca1, h3, h2⟩ := SM.bind_ok.1 h2
      obtain ⟨_, ca2, h4, h2⟩ := SM.bind_ok.1 h2
      cases h2
      exact ((he.keptBy L).built _ _ _ hr (buildAst_tree h he hca h3)).1 _ rfl

theorem substitute_calm (e : Env) (he : Good W e) (m : Mask) (t : Syn) :
    CalmS W D (S.substitute e m t) := by
  induction t with
  | leaf s c l => unfold substitute; calm []
  | branch s c l r f b ihl ihr =>
    unfold substitute
    calm [contractPair_calm h _ good% _ _]

theorem rightMatch_calm (e : Env) (he : Good W e) (right : Syn) (er : CId) (le : ExSubst) :
    CalmS W D (S.rightMatch e right er le) := by
  unfold rightMatch
  calm [substitute_calm h _ good% _ _, h.recReduce _ _ _ good%, h.findEx _ _ _ _ good% fun _ => CalmS.pure _]

theorem findExample_calm (e : Env) (he : Good W e) (g : Syn) (set : List CId) :
    CalmS W D (S.findExample e g set) :=
  h.findEx _ _ _ _ good% fun _ => CalmS.pure _

theorem halfStep_calm (e : Env) (he : Good W e) (gen non : Syn) (hand : Hand) (id : CId) :
    CalmS W D (S.halfStep e gen non hand id) := by
  unfold halfStep
  cases hand <;> calm [findExample_calm h _ good% _ _, h.toAst _ _ good%]

omit h in
theorem findMap_calm {α β : Type} {f : α → SM (Option β)} (hf : ∀ a, CalmS W D (f a))
    (l : List α) : CalmS W D (findMap f l) := by
  induction l with
  | nil => exact .pure _
  | cons a as ih =>
    unfold findMap
    calm [hf _, ih]

theorem findExamples_calm {β : Type} (e : Env) (he : Good W e) (gen : Syn) (set : List CId)
    {k : ExSubst → SM (Option β)} (hk : ∀ x, CalmS W D (k x)) :
    CalmS W D (S.findExamples e gen set k) := by
  unfold findExamples
  calm [hk _, findMap_calm (fun _ => halfStep_calm h _ good% _ _ _ _) _, h.toAst _ _ good%,
    h.findEx _ _ _ _ good% fun _ => rightMatch_calm h _ good% _ _ _]
  · refine findMap_calm (fun c => ?_) _
    calm [hk _, h.toAst _ _ good%]
  · refine findMap_calm (fun c => ?_) _
    calm [hk _, h.findEx _ _ _ _ good% fun _ => rightMatch_calm h _ good% _ _ _]

theorem inferFrom_calm (e : Env) (he : Good W e) (e' : Env) (he' : Good W e') (imp op t cond red : Syn)
    (subs : ExSubst) : CalmS W D (S.inferFrom e e' imp op t cond red subs) := by
  unfold inferFrom
  calm [substitute_calm h _ good% _ _, h.recReduce _ _ _ good%]

theorem findInferred_calm (e : Env) (he : Good W e) (t : Syn) : CalmS W D (S.findInferred e t) := by
  unfold findInferred
  refine .bind (.lift _) fun imp => ?_
  cases imp with
  | none => exact .pure _
  | some imp =>
    dsimp only
    refine .bind (concreteAst_calm h _ he _) fun op => ?_
    cases op with
    | none => exact .pure _
    | some op =>
      dsimp only
      refine .bind_lift fun p1 h1 => .bind_lift fun p2 h2 => .bind_lift fun p3 h3 => ?_
      obtain ⟨d1, vr⟩ := p1
      obtain ⟨d2, vc⟩ := p2
      obtain ⟨d3, vx⟩ := p3
      have b3 := (he.ext.three h1 h2 h3).1
      have he' : ∀ inf, Good W { e with view := { e.view with delta := d3 }, inferring := inf } :=
        fun inf => ⟨he.snap, b3, he.mask, he.bound⟩
      dsimp only
      calm [h.toAst _ _ (he' _), findExamples_calm h _ (he' _) _ _ fun _ => inferFrom_calm h _ he _ (he' _) _ _ _ _ _ _]

theorem inferStep_calm (e : Env) (he : Good W e) (p : CId × CId) :
    CalmS W D (S.inferStep e p) := by
  unfold inferStep
  calm [h.toAst _ _ good%, h.reduce _ _ good%]

end Search

/-- No rule is found for the words. -/
def Unruled (W : Stand s) (D : Nat → Prop) (S : Search) : Prop :=
  ∀ e t i ca r ca', Good W e → D i → Plain (W.ι i) t → Kept W D ca → S.findInferred e t ca = .ok (r, ca') → r = none

theorem TreeIn.plain {k : Nat} {t : Syn} (h : TreeIn W k t) (h1 : ∀ l r, ¬ComposedOf s k l r)
    (h2 : ¬MayVary s k) : Plain (W.ι k) t := by
  cases h with
  | free h => exact absurd h.1 h2
  | leaf h _ => exact ⟨_, _, rfl, fun e => h2 (h e).1⟩
  | pair h _ _ => exact absurd h (h1 _ _)

omit [HashOrder] in
theorem mergeInto_mem {large : Mask} {l : List (CId × Syn)} {m : Mask} {P : CId → Prop}
    (hl : ∀ p ∈ large, P p.1) (hr : ∀ p ∈ l, P p.1) (h : mergeInto large l = some m) : ∀ p ∈ m, P p.1 := by
  induction l generalizing large with
  | nil => cases h; exact hl
  | cons q l ih =>
    obtain ⟨k, v⟩ := q
    unfold mergeInto at h
    cases hg : large.get? k with
    | some e =>
      rw [hg] at h
      dsimp only at h
      split at h
      · cases h
      · exact ih hl (fun p hp => hr p (by simp [hp])) h
    | none =>
      rw [hg] at h
      refine ih (fun p hp => ?_) (fun p hp => hr p (by simp [hp])) h
      rcases mem_insert_or hp with rfl | hp
      · exact hr (k, v) (by simp)
      · exact hl p hp

namespace Search

theorem canGeneralise_var {e : Env} {t : Syn} {g : CId} (h : canGeneralise e t g = .ok true) :
    isFreeVariable e g = .ok true := by
  simp only [canGeneralise, Except.bind_eq_ok] at h
  obtain ⟨b, hb, h⟩ := h
  cases b with
  | true => exact hb
  | false => cases h

theorem leafVar_of {e : Env} (he : Good W e) {g : CId} {m : Mixed} (h : isFreeVariable e g = .ok true)
    (hr : e.view.read g = .ok m) (hc : m.composition = none) : ∀ k, g = W.ι k → LeafVar s k := by
  rintro k rfl
  simp only [isFreeVariable, Except.bind_eq_ok, Except.pure_eq_ok] at h
  obtain ⟨m', hm, h⟩ := h
  rw [hr] at hm
  cases hm
  obtain ⟨c, hck, M⟩ := he.read hr
  have hf : c.isFree = true := by
    simp only [Bool.and_eq_true] at h
    rw [← M.free]
    exact h.1
  refine ⟨.inl ⟨c, hck, ?_⟩, ?_⟩
  · unfold Concept.isFree at hf
    unfold Concept.isAnonymous
    split at hf <;> simp_all
  · rintro l r ⟨c', hc', hp⟩
    rw [hck] at hc'
    cases hc'
    rw [M.composition, hp] at hc
    cases hc

/-- A generalisation gives values to variables. -/
theorem checkGeneralisation_vars {e : Env} (he : Good W e) {t : Syn} {g : CId} {vm : Mask}
    (h : checkGeneralisation e t g = .ok (some vm)) : ∀ p ∈ vm, ∀ k, p.1 = W.ι k → LeafVar s k := by
  induction t generalizing g vm with
  | leaf x c l =>
    simp only [checkGeneralisation, Except.bind_eq_ok] at h
    obtain ⟨b, hb, h⟩ := h
    cases b with
    | false => cases h
    | true =>
      simp only [if_true, Except.bind_eq_ok] at h
      obtain ⟨m, hm, h⟩ := h
      cases hc : m.composition with
      | some _ => rw [hc] at h; cases h
      | none =>
        rw [hc] at h
        cases h
        intro p hp k e
        simp only [List.mem_singleton] at hp
        subst hp
        exact leafVar_of he (canGeneralise_var hb) hm hc k e
  | branch x c l r f b ihl ihr =>
    simp only [checkGeneralisation, Except.bind_eq_ok] at h
    obtain ⟨q, hb, h⟩ := h
    cases q with
    | false => cases h
    | true =>
      simp only [if_true, Except.bind_eq_ok] at h
      obtain ⟨m, hm, h⟩ := h
      cases hc : m.composition with
      | none =>
        rw [hc] at h
        cases h
        intro p hp k e
        simp only [List.mem_singleton] at hp
        subst hp
        exact leafVar_of he (canGeneralise_var hb) hm hc k e
      | some gp =>
        obtain ⟨gl, gr⟩ := gp
        rw [hc] at h
        simp only [Except.bind_eq_ok] at h
        obtain ⟨bl, _, br, _, h⟩ := h
        cases bl <;> cases br
        · dsimp only at h
          split at h
          · cases h; intro p hp; cases hp
          · cases h
        · dsimp only at h
          split at h
          · exact ihr h
          · cases h
        · dsimp only at h
          split at h
          · exact ihl h
          · cases h
        · simp only [Except.bind_eq_ok] at h
          obtain ⟨ol, hl, or, hr, h⟩ := h
          cases ol with
          | none => cases h
          | some lm =>
            cases or with
            | none => cases h
            | some rm =>
              have h : mergeInto rm lm = some vm := by
                have h : Except.ok (mergeInto rm lm) = Except.ok (some vm) := h
                exact Except.ok.inj h
              exact mergeInto_mem (P := fun id => ∀ k, id = W.ι k → LeafVar s k) (ihr hr) (ihl hl) h

variable {S : Search} (L : Lone s D) (h : SCalm W D S) (hu : Unruled W D S)
include L h hu

theorem inferReduction_calm (e : Env) (he : Good W e) (c : Mixed) {id : CId} (hr : e.view.read id = .ok c) :
    CalmS W D (S.inferReduction e c) := by
  have last : CalmS W D (do
      match (← get).inference? c.id with
      | some r => return r
      | none => do
        let t ← S.toAst e c.id
        let r ← S.findInferred e t
        modify (fun ca => ca.insertInference c.id r)
        return r) := by
    intro ca r ca' hca h'
    obtain ⟨_, _, h3, h'⟩ := SM.bind_ok.1 h'
    obtain ⟨rfl, rfl⟩ := SM.get_ok.1 h3
    cases hi : ca.inference? c.id with
    | some y => rw [hi] at h'; cases h'; exact hca
    | none =>
      rw [hi] at h'
      dsimp only at h'
      obtain ⟨t, ca3, h3, h'⟩ := SM.bind_ok.1 h'
      obtain ⟨y, ca4, h4, h'⟩ := SM.bind_ok.1 h'
      obtain ⟨_, ca5, h5, h'⟩ := SM.bind_ok.1 h'
      cases h'
      obtain rfl := SM.modify_ok.1 h5
      have k3 := h.toAst _ _ he _ _ _ hca h3
      refine (findInferred_calm h e he t _ _ _ k3 h4).insertInference (by
        rw [(he.own L.ids hr).1]; exact (he.own L.ids hr).2) fun i hd ei => ?_
      rw [ei] at h3
      obtain ⟨w1, w2, _⟩ := L.words i hd
      exact hu e t i _ _ _ he hd ((h.built _ _ _ _ _ he hca h3).plain w1 w2) k3 h4
  unfold inferReduction
  refine .bind (.lift _) fun imp => ?_
  cases imp with
  | none => exact .pure _
  | some imp =>
    dsimp only
    split
    · refine .bind (.pure _) fun r => ?_
      cases r with
      | some r => exact .pure _
      | none => exact last
    · refine .bind (.lift _) fun m => .bind (findMap_calm (fun _ => inferStep_calm h _ he _) _) fun r => ?_
      cases r with
      | some r => exact .pure _
      | none => exact last

theorem reduceConcept_calm (e : Env) (he : Good W e) (id : CId) :
    CalmS W D (S.reduceConcept e id) := by
  unfold reduceConcept
  refine .bind_lift fun c hr => ?_
  calm [h.toAst _ _ good%, inferReduction_calm L h hu _ good% _ hr]

theorem genLoop_calm (e : Env) (he : Good W e) (t : Syn) (red : AMap Key RR) (gs : List CId) :
    CalmS W D (S.genLoop e t red gs) := by
  induction gs generalizing red with
  | nil => exact .pure _
  | cons g gs ih =>
    unfold genLoop
    refine .bind_lift fun o ho => ?_
    cases o with
    | none => exact ih _
    | some vm =>
      dsimp only
      split
      · exact ih _
      · cases hp : e.mask.push vm with
        | none => exact ih _
        | some ml =>
          dsimp only
          have he' : Good W { e with mask := ml } := by
            refine ⟨he.snap, he.ext, fun k t hk => ?_, he.bound⟩
            unfold MaskList.push at hp
            split at hp
            · cases hp
            · cases hp
              have hk : (match vm.get? (W.ι k) with | some s => some s | none => e.mask.get (W.ι k)) = some t := hk
              cases hg : vm.get? (W.ι k) with
              | some x => exact checkGeneralisation_vars he ho _ (AMap.mem_of_get? _ _ _ hg) k rfl
              | none => rw [hg] at hk; exact he.mask k t hk
          calm [ih _, h.toAst _ _ he, reduceConcept_calm L h hu _ he' _, substitute_calm h _ he' _ _]

theorem recursivelyReducePair_calm (e : Env) (he : Good W e) (l r : Syn) :
    CalmS W D (S.recursivelyReducePair e l r) := by
  unfold recursivelyReducePair
  calm [h.reduce _ _ good%, contractPair_calm h _ good% _ _, genLoop_calm L h hu _ good% _ _ _]

theorem compareSide_calm (e : Env) (he : Good W e) (red : AMap Key RR) (t : Syn) :
    CalmS W D (S.compareSide e red t) := by
  have he' : ∀ ev, Good W { e with evaluating := ev } := fun ev => ⟨he.snap, he.ext, he.mask, he.bound⟩
  unfold compareSide
  calm [h.recReduce _ _ _ (he' _)]

theorem compare_calm (e : Env) (he : Good W e) (a b : Syn) : CalmS W D (S.compare e a b) := by
  unfold compare
  calm [h.toAst _ _ good%, combine_calm h _ good% _ _, compareSide_calm L h hu _ good% _ _]

theorem evidenceF_calm (e : Env) (he : Good W e) (l r : Syn) :
    CalmS W D (S.evidenceF e l r) := by
  unfold evidenceF
  calm [h.reduce _ _ good%, h.evidence _ _ _ good%]

theorem reductionTruth_calm (e : Env) (he : Good W e) (l r : Syn) :
    CalmS W D (S.reductionTruth e l r) := by
  unfold reductionTruth
  calm [h.evidence _ _ _ good%]

theorem reduceByRight_calm (e : Env) (he : Good W e) (l rl rr : Syn) :
    CalmS W D (S.reduceByRight e l rl rr) := by
  unfold reduceByRight
  calm [compare_calm L h hu _ good% _ _, reductionTruth_calm L h hu _ good% _ _, concreteAst_calm h _ good% _]

theorem reduceByLeft_calm (e : Env) (he : Good W e) (ll lr r : Syn) :
    CalmS W D (S.reduceByLeft e ll lr r) := by
  unfold reduceByLeft
  calm [findExample_calm h _ good% _ _, h.toAst _ _ good%]

theorem reducePair_calm (e : Env) (he : Good W e) (l r : Syn) :
    CalmS W D (S.reducePair e l r) := by
  unfold reducePair
  calm [reduceByRight_calm L h hu _ good% _ _ _, reduceByLeft_calm L h hu _ good% _ _ _,
    recursivelyReducePair_calm L h hu _ good% _ _]

theorem reduceNow_calm (e : Env) (he : Good W e) (t : Syn) : CalmS W D (S.reduceNow e t) := by
  unfold reduceNow
  calm [reduceConcept_calm L h hu _ good% _, reducePair_calm L h hu _ good% _ _]

theorem reduceF_calm (e : Env) (he : Good W e) (t : Syn) : CalmS W D (S.reduceF e t) := by
  unfold reduceF
  calm [reduceNow_calm L h hu _ good% _, CalmS.modify fun _ h => Kept.insertReduction h]

theorem recReduceF_calm (e : Env) (he : Good W e) (t : Syn) (r : Option Reason) :
    CalmS W D (S.recReduceF e t r) := by
  unfold recReduceF
  calm [h.reduce _ _ good%, h.recReduce _ _ _ good%]

theorem expandF_calm (e : Env) (he : Good W e) (t : Syn) : CalmS W D (S.expandF e t) := by
  unfold expandF
  calm [h.toAst _ _ good%, h.expand _ _ good%, combine_calm h _ good% _ _]

theorem step_calm : SCalm W D S.step where
  reduce _ _ he := reduceF_calm L h hu _ he _
  toAst _ _ he := toAstF_calm h L _ he _
  getAssoc _ _ he := getAssocF_calm h _ he _
  recReduce _ _ _ he := recReduceF_calm L h hu _ he _ _
  findEx _ _ _ _ he hk := findExamples_calm h _ he _ _ hk
  evidence _ _ _ he := evidenceF_calm L h hu _ he _ _
  expand _ _ he := expandF_calm L h hu _ he _
  built _ _ _ _ _ he hca h' := toAstF_tree h L he hca h'

end Search

/-! ## No rule -/

/-- A search that finds nothing. -/
def Fails (W : Stand s) (D : Nat → Prop) {α : Type} (m : SM (Option α)) : Prop :=
  ∀ ca r ca', Kept W D ca → m ca = .ok (r, ca') → r = none

namespace Fails

theorem none : Fails W D (Pure.pure Option.none : SM (Option α)) := by
  intro ca r ca' _ h; cases h; rfl

theorem fault (f : Fault) : Fails W D (SM.fault f : SM (Option α)) := by
  intro ca r ca' _ h; cases h

theorem bind {m : SM β} {f : β → SM (Option α)} (hm : CalmS W D m) (hf : ∀ b, Fails W D (f b)) :
    Fails W D (m >>= f) := by
  intro ca r ca' hc h
  obtain ⟨b, ca1, h1, h2⟩ := SM.bind_ok.1 h
  exact hf b _ _ _ (hm _ _ _ hc h1) h2

theorem bind_lift {x : Except Fault β} {f : β → SM (Option α)} (hf : ∀ b, x = .ok b → Fails W D (f b)) :
    Fails W D ((liftM x : SM β) >>= f) := by
  intro ca r ca' hc h
  obtain ⟨b, ca1, h1, h2⟩ := SM.bind_ok.1 h
  obtain ⟨hx, rfl⟩ := SM.lift_ok.1 h1
  exact hf b hx _ _ _ hc h2

/-- A search that finds nothing is followed by what is done then. -/
theorem bind_fails {m : SM (Option β)} {f : Option β → SM (Option α)} (hm : CalmS W D m) (h' : Fails W D m)
    (hf : Fails W D (f Option.none)) : Fails W D (m >>= f) := by
  intro ca r ca' hc h
  obtain ⟨b, ca1, h1, h2⟩ := SM.bind_ok.1 h
  have := h' _ _ _ hc h1
  subst this
  exact hf _ _ _ (hm _ _ _ hc h1) h2

theorem findMap {γ : Type} {f : γ → SM (Option α)} {l : List γ} (hf : ∀ a ∈ l, Fails W D (f a))
    (hk : ∀ a ∈ l, CalmS W D (f a)) : Fails W D (Search.findMap f l) := by
  induction l with
  | nil => exact Fails.none
  | cons a as ih =>
    unfold Search.findMap
    exact bind_fails (hk a (by simp)) (hf a (by simp))
      (ih (fun a ha => hf a (by simp [ha])) fun a ha => hk a (by simp [ha]))

end Fails

theorem Search.containsBound_word {e : Env} (he : Good W e) {i : Nat} {t : Syn} (pt : Plain (W.ι i) t)
    (hv : ¬MayVary s i) {b : Bool} (h : containsBound e t = .ok b) : b = false := by
  obtain ⟨u, kd, rfl, _⟩ := pt
  simp only [containsBound, he.bound, List.contains_nil, Except.bind_eq_ok] at h
  simp only [Bool.false_eq_true, if_false, Except.bind_eq_ok, Except.pure_eq_ok] at h
  obtain ⟨m, hm, rfl⟩ := h
  obtain ⟨c, hc, M⟩ := he.read hm
  rw [M.bound]
  cases hb : c.isBound with
  | false => rfl
  | true =>
    refine absurd (.inl ⟨c, hc, ?_⟩) hv
    unfold Concept.isBound at hb
    unfold Concept.isAnonymous
    split at hb <;> simp_all

theorem Search.containsBound_var {e : Env} (he : Good W e) {u : Nat} (hu : W.pend.overlay.num ≤ u) {b : Bool}
    (h : containsBound e (View.newVariable (.unc u)) = .ok b) : b = true := by
  simp only [View.newVariable, containsBound, he.bound, List.contains_nil] at h
  simp only [Bool.false_eq_true, if_false, Except.bind_eq_ok, Except.pure_eq_ok] at h
  obtain ⟨m, hm, rfl⟩ := h
  have := he.read_unc hu hm
  subst this
  rfl

theorem Search.containsBound_right {e : Env} {x : Option Str} {o : Option CId} {l r : Syn} {f g : List Key}
    (hr : ∀ b, containsBound e r = .ok b → b = true) {b : Bool}
    (h : containsBound e (.branch x o l r f g) = .ok b) : b = true := by
  simp only [containsBound, Except.bind_eq_ok] at h
  obtain ⟨bl, _, h⟩ := h
  cases bl with
  | true => cases h; rfl
  | false =>
    simp only [Bool.false_eq_true, if_false, Except.bind_eq_ok] at h
    obtain ⟨br, h1, h⟩ := h
    have := hr _ h1
    subst this
    cases h
    rfl

/-- A tree of another concept is no example of a word. -/
theorem checkExample_word {p i : Nat} {a X : Syn} (ha : TreeIn W p a) (hp : ¬MayVary s p) (hi : p ≠ i)
    (pX : Plain (W.ι i) X) : checkExample a X = none := by
  obtain ⟨u, kd, rfl, hk⟩ := pX
  cases ha with
  | free h => exact absurd h.1 hp
  | @leaf _ u' kd' h =>
    have hk' : kd' ≠ .variable := fun e => hp (h e).1
    simp only [checkExample, checkLeaves, Syn.concept]
    have h1 : (Syn.leaf (some u) (some (W.ι i)) kd).isVariable = false := by
      cases kd <;> first | rfl | exact absurd rfl hk
    have h2 : (Syn.leaf (some u') (some (W.ι p)) kd').isVariable = false := by
      cases kd' <;> first | rfl | exact absurd rfl hk'
    rw [h1, h2]
    have h3 : W.ι p ≠ W.ι i := fun e => hi (W.inj _ _ e)
    simp [Syn.key, Syn.concept, h3]
  | pair h _ _ =>
    have h1 : (Syn.leaf (some u) (some (W.ι i)) kd).isVariable = false := by
      cases kd <;> first | rfl | exact absurd rfl hk
    simp [checkExample, h1]

/-- The pattern `-> _` does not match the concept `d`. -/
def Harmless (s : Snap) (d : Nat) : Prop := (MayVary s d → ∃ l' r', ComposedOf s d l' r') ∧
  ∀ l' r', ComposedOf s d l' r' → l' ≠ builtin .reduction ∧ ¬MayVary s l'

/-- A pattern that is not one of the reduction of just anything. -/
def Safe (s : Snap) (q : Nat) : Prop := ∀ p d, ComposedOf s q p d → MayVary s p → Harmless s d

/-- What no rule is about: a word that is not the first part of a statement `x -> y`, the question `x (-> y)` about
two words, and two words that are not stored as a pair. -/
inductive Inert (W : Stand s) : Syn → Prop
  | word {i : Nat} {X : Syn} (pX : Plain (W.ι i) X) (hi : ¬MayVary s i)
      (hl : ∀ k d q, ComposedOf s k i d → q = d ∨ ListsReduced s d q → Harmless s q) : Inert W X
  | pair {i j : Nat} {X O Y : Syn} {x x' : Option Str} {f f' g g' : List Key} (pX : Plain (W.ι i) X)
      (pO : Plain (W.ι (builtin .reduction)) O) (pY : Plain (W.ι j) Y) (hi : ¬MayVary s i) (hj : ¬MayVary s j)
      (ho : ¬MayVary s (builtin .reduction))
      (hr : ∀ k, ¬ComposedOf s k (builtin .reduction) j)
      (flat : ∀ c r p d p1 p2, ComposedOf s c (builtin .implication) r → ComposedOf s r p d → ¬ComposedOf s p p1 p2) :
      Inert W (.branch x none X (.branch x' none O Y f' g') f g)
  | couple {i j : Nat} {X Y : Syn} {x : Option Str} {f g : List Key} (pX : Plain (W.ι i) X) (pY : Plain (W.ι j) Y)
      (hi : ¬MayVary s i) (hj : ¬MayVary s j) (hr : ∀ k, ¬ComposedOf s k i j)
      (flat : ∀ c r p d p1 p2, ComposedOf s c (builtin .implication) r → ComposedOf s r p d → ¬ComposedOf s p p1 p2) :
      Inert W (.branch x none X Y f g)

/-- It has no example of `-> _`. -/
theorem Harmless.checkExample {d : Nat} (hd : Harmless s d) {b O V : Syn} (hb : TreeIn W d b)
    (pO : Plain (W.ι (builtin .reduction)) O) {x : Option Str} {o : Option CId} {f g : List Key} :
    Zia.checkExample b (.branch x o O V f g) = none := by
  cases hb with
  | free h =>
    obtain ⟨l', r', h5⟩ := hd.1 h.1
    exact absurd h5 (h.2 _ _)
  | leaf _ => rfl
  | @pair _ l' r' _ _ b1 b2 _ _ h hb1 _ =>
    obtain ⟨h5, h6⟩ := hd.2 _ _ h
    simp only [Zia.checkExample]
    rw [checkExample_word hb1 h6 h5 pO]

/-- It has no example of the reduction of the word. -/
theorem Safe.checkExample {q : Nat} (hs : Safe s q) (hq : ¬LeafVar s q) {c : Nat}
    (hc : ComposedOf s c (builtin .implication) q) {t X O V : Syn}
    (ht : TreeIn W q t) (pX : Inert W X) (pO : Plain (W.ι (builtin .reduction)) O)
    {x x' : Option Str} {o o' : Option CId} {f f' g g' : List Key} :
    Zia.checkExample t (.branch x o X (.branch x' o' O V f' g') f g) = none := by
  cases ht with
  | free h => exact absurd h hq
  | leaf _ => rfl
  | @pair _ p d _ _ a b _ _ h ha hb =>
    simp only [Zia.checkExample]
    have right : Harmless s d → (match Zia.checkExample a X, Zia.checkExample b (.branch x' o' O V f' g') with
        | some a, some b => a.merge b
        | _, _ => none) = none := by
      intro hd
      rw [hd.checkExample hb pO]
      split <;> simp_all
    by_cases hp : MayVary s p
    · exact right (hs p d h hp)
    · cases pX with
      | @word i _ pX hi hl =>
        by_cases e : p = i
        · subst e
          exact right (hl _ _ _ h (.inl rfl))
        · rw [checkExample_word ha hp e pX]
      | pair _ _ _ _ _ _ _ flat =>
        cases ha with
        | free h => exact absurd h.1 hp
        | leaf _ => rfl
        | pair h' _ _ => exact absurd h' (flat _ _ _ _ _ _ hc h)
      | couple _ _ _ _ _ flat =>
        cases ha with
        | free h => exact absurd h.1 hp
        | leaf _ => rfl
        | pair h' _ _ => exact absurd h' (flat _ _ _ _ _ _ hc h)

namespace Search

theorem halfStep_fails {S : Search} (hS : SCalm W D S) {e : Env} (he : Good W e) {gen non : Syn} {w id : Nat}
    (hn : non.concept = some (W.ι w))
    (h1 : ∀ l r, ComposedOf s id l r → l ≠ w → MayVary s l → Fails W D (S.findExample e gen [W.ι r]))
    (h2 : ∀ r, ComposedOf s id w r → (∀ t, TreeIn W r t → checkExample t gen = none) ∧
      ∀ set, (∀ x ∈ set, ∃ q, x = W.ι q ∧ (q = r ∨ ListsReduced s r q)) →
        Fails W D (S.findExample e gen set)) :
    Fails W D (S.halfStep e gen non .left (W.ι id)) := by
  unfold halfStep
  refine Fails.bind_lift fun m hm => ?_
  obtain ⟨c, hc, M⟩ := he.read hm
  cases hcomp : m.composition with
  | none => exact Fails.none
  | some p =>
    obtain ⟨l, r⟩ := p
    obtain ⟨l', r', rfl, rfl, hp⟩ := M.composition_inv hcomp
    have hco : ComposedOf s id l' r' := ⟨c, hc, hp⟩
    dsimp only
    rw [hn]
    have fe : ∀ set, CalmS W D (S.findExample e gen set) := findExample_calm hS e he gen
    split
    · next hne =>
      refine Fails.bind_lift fun m hm => ?_
      obtain ⟨c', hc', M'⟩ := he.read hm
      split
      · next hf =>
        refine Fails.bind_fails (fe _) (h1 l' r' hco (fun e => hne (by rw [e])) (.inl ⟨c', hc', ?_⟩)) Fails.none
        rw [M'.free] at hf
        unfold Concept.isFree at hf
        unfold Concept.isAnonymous
        split at hf <;> simp_all
      · exact Fails.none
    · next he' =>
      obtain rfl : l' = w := W.inj _ _ (by simpa using he')
      obtain ⟨h3, h4⟩ := h2 r' hco
      refine Fails.bind_fails (fe _) (h4 _ fun x hx => ⟨r', by simpa using hx, .inl rfl⟩) ?_
      intro ca x ca' hca h
      obtain ⟨t, ca1, h5, h⟩ := SM.bind_ok.1 h
      have := h3 t (hS.built _ _ _ _ _ he hca h5)
      rw [this] at h
      refine (?_ : Fails W D _) _ _ _ (hS.toAst _ _ he _ _ _ hca h5) h
      refine Fails.bind_lift fun m hm => h4 _ ?_
      obtain ⟨c', hc', M'⟩ := he.read hm
      intro x hx
      rcases List.mem_cons.1 hx with rfl | hx
      · exact ⟨r', rfl, .inl rfl⟩
      · obtain ⟨q, rfl, hq⟩ := M'.froms x hx
        exact ⟨q, rfl, .inr ⟨c', hc', hq⟩⟩

theorem halfStep_unstored {S : Search} (hS : SCalm W D S) {e : Env} (he : Good W e) {gen non : Syn} {id : Nat}
    (hn : non.concept = none)
    (h1 : ∀ l r, ComposedOf s id l r → MayVary s l → Fails W D (S.findExample e gen [W.ι r])) :
    Fails W D (S.halfStep e gen non .left (W.ι id)) := by
  unfold halfStep
  refine Fails.bind_lift fun m hm => ?_
  obtain ⟨c, hc, M⟩ := he.read hm
  cases hcomp : m.composition with
  | none => exact Fails.none
  | some p =>
    obtain ⟨l, r⟩ := p
    obtain ⟨l', r', rfl, rfl, hp⟩ := M.composition_inv hcomp
    dsimp only
    rw [hn, if_pos (by simp)]
    refine Fails.bind_lift fun m hm => ?_
    obtain ⟨c', hc', M'⟩ := he.read hm
    split
    · next hf =>
      refine Fails.bind_fails (findExample_calm hS e he gen _) (h1 l' r' ⟨c, hc, hp⟩ (.inl ⟨c', hc', ?_⟩)) Fails.none
      rw [M'.free] at hf
      unfold Concept.isFree at hf
      unfold Concept.isAnonymous
      split at hf <;> simp_all
    · exact Fails.none

theorem findExamples_fails {S : Search} (hS : SCalm W D S) {e : Env} (he : Good W e) {gen l r : Syn}
    (hg : gen.expansion = some (l, r)) (hl : ∀ b, containsBound e l = .ok b → b = false)
    (hr : ∀ b, containsBound e r = .ok b → b = true) {set : List CId}
    (hs : ∀ x ∈ set, Fails W D (S.halfStep e r l .left x)) {k : ExSubst → SM (Option β)} :
    Fails W D (S.findExamples e gen set k) := by
  unfold findExamples
  rw [hg]
  refine Fails.bind_lift fun bl h1 => Fails.bind_lift fun br h2 => ?_
  rw [hl _ h1, hr _ h2]
  dsimp only
  exact Fails.bind_fails (findMap_calm (fun _ => halfStep_calm hS _ he _ _ _ _) _)
    (Fails.findMap hs fun _ _ => halfStep_calm hS _ he _ _ _ _) Fails.none

end Search

end Zia

import Verif.Lemmas.SM
import Verif.Lemmas.Store

/-!
# The trees that a search remembers

A search remembers the syntax trees it has built, those of a spawned search in a frame of their own. A
relation between concepts and trees that holds for the trees the search builds holds for those it remembers
and for those it gives. There is one relation for each frame.
-/

namespace Zia

set_option linter.unusedSectionVars false

variable [HashOrder]

/-- A relation between concepts and trees. -/
abbrev Rel := CId → Syn → Prop

/-- Any tree. -/
def Rel.any : Rel := fun _ _ => True

/-- The tree of a pair of two trees: it has the concept of the pair, if that is stored. -/
def Paired (v : View) (a b t : Syn) : Prop :=
  ∃ s o, t = .branch (some s) o a b (Syn.pairVars a b).1 (Syn.pairVars a b).2 ∧
    (∀ k, o = some k → ∃ i j m, a.concept = some i ∧ b.concept = some j ∧ v.read i = .ok m ∧
      m.findAsHand j .left = some k) ∧
    (o = none → ∀ i j m, a.concept = some i → b.concept = some j → v.read i = .ok m →
      m.findAsHand j .left = none)

/-- The trees that are built for a concept that is read as `m`, with trees of its parts that are in the
relation `P`. -/
inductive BuiltAs (v : View) (P : Rel) (id : CId) (m : Mixed) : Syn → Prop
  | string {u : Str} {t : Syn} (hs : m.string = some u)
      (ht : v.bindConceptToSyntax (Syn.ofStr (Search.formatString u)) id = .ok t) : BuiltAs v P id m t
  | named {n : Nat} {s : Str} {t : Syn} (hs : m.string = none) (hl : v.label n id = .ok (some s))
      (ht : v.bindConceptToSyntax (Syn.ofStr s) id = .ok t) : BuiltAs v P id m t
  | pair {n : Nat} {l r : CId} {a b t : Syn} (hs : m.string = none) (hl : v.label n id = .ok none)
      (hc : m.composition = some (l, r)) (ha : P l a) (hb : P r b) (ht : Paired v a b t) : BuiltAs v P id m t
  | other {n : Nat} (hs : m.string = none) (hl : v.label n id = .ok none) (hc : m.composition = none) :
      BuiltAs v P id m (View.newSyntaxFromConcept m)

/-- The relation holds for every tree that is built or substituted. -/
structure KeptBy (e : Env) (P : Rel) : Prop where
  mask : ∀ id t, e.mask.get id = some t → P id t
  built : ∀ id m t, e.view.read id = .ok m → BuiltAs e.view P id m t → P id t ∧ P m.id t

theorem KeptBy.any (e : Env) : KeptBy e .any := ⟨fun _ _ _ => trivial, fun _ _ _ _ _ => ⟨trivial, trivial⟩⟩

/-- The trees in the frames. -/
inductive Framed : List Rel → List Frame → Prop
  | nil : Framed [] []
  | cons {P : Rel} {f : Frame} {ms : List Rel} {fs : List Frame}
      (h : ∀ id t, f.syn.get? id = some t → P id t) (t : Framed ms fs) : Framed (P :: ms) (f :: fs)

/-- The relation of the current frame is one for the environment. -/
def FitsFrame (e : Env) (ms : List Rel) : Prop := ∀ P, ms.head? = some P → KeptBy e P

theorem FitsFrame.off {e : Env} {ms : List Rel} : FitsFrame e (.any :: ms) := by
  intro P h; cases h; exact .any e

/-- The environment fits. -/
macro "fit%" : term => `(by first | assumption | exact FitsFrame.off)

/-- A search that keeps the relations of the frames. -/
def Trees (ms : List Rel) {α : Type} (m : SM α) : Prop :=
  ∀ ca a ca', Framed ms ca.frames → m ca = .ok (a, ca') → Framed ms ca'.frames

variable {α β : Type} {ms : List Rel}

namespace Trees

theorem pure (a : α) : Trees ms (Pure.pure a : SM α) := by
  intro ca b ca' hc h; cases h; exact hc

theorem fault (f : Fault) : Trees ms (SM.fault f : SM α) := by
  intro ca b ca' _ h; cases h

theorem lift (x : Except Fault α) : Trees ms (liftM x : SM α) := by
  intro ca b ca' hc h
  obtain ⟨_, rfl⟩ := SM.lift_ok.1 h
  exact hc

theorem get : Trees ms (MonadState.get : SM Cache) := by
  intro ca b ca' hc h; cases h; exact hc

theorem modify {f : Cache → Cache} (hf : ∀ ca, Framed ms ca.frames → Framed ms (f ca).frames) :
    Trees ms (modify f : SM Unit) := by
  intro ca b ca' hc h; cases h; exact hf ca hc

theorem bind {m : SM α} {f : α → SM β} (h : Trees ms m) (hf : ∀ a, Trees ms (f a)) :
    Trees ms (m >>= f) := by
  intro ca b ca' hc hb
  obtain ⟨a, ca1, h1, h2⟩ := SM.bind_ok.1 hb
  exact hf a _ _ _ (h _ _ _ hc h1) h2

theorem spawn {red : AMap Key RR} {m : SM α} (h : Trees (.any :: ms) m) :
    Trees ms (SM.spawn red m) := by
  intro ca b ca' hc hb
  unfold SM.spawn at hb
  cases hm : m { ca with frames := ⟨red, []⟩ :: ca.frames } with
  | error e => rw [hm] at hb; cases hb
  | ok p =>
    obtain ⟨a, c1⟩ := p
    have hl := h _ _ _ (.cons (fun _ _ h => by cases h) hc) hm
    rw [hm] at hb
    obtain ⟨fs, infs⟩ := c1
    cases hl with
    | cons _ hl => cases hb; exact hl

theorem asParent {P : Rel} {m : SM α} (h : Trees ms m) : Trees (P :: ms) (SM.asParent m) := by
  intro ca x ca' hc hb
  unfold SM.asParent at hb
  obtain ⟨fs, infs⟩ := ca
  cases hc with
  | @cons _ f _ fs hf hc =>
    cases hm : m ⟨fs, infs⟩ with
    | error e => simp only [hm] at hb; cases hb
    | ok p =>
      obtain ⟨a, c1⟩ := p
      have hl := h _ _ _ hc hm
      simp only [hm] at hb
      cases hb
      exact .cons hf hl

end Trees

theorem insertReduction_ok {ca : Cache} {t : Syn} {r : RR} (h : Framed ms ca.frames) :
    Framed ms (ca.insertReduction t r).frames := by
  unfold Cache.insertReduction
  obtain ⟨fs, infs⟩ := ca
  cases h with
  | nil => cases r <;> dsimp only <;> split <;> exact .nil
  | cons h1 h2 => cases r <;> dsimp only <;> split <;> exact .cons h1 h2

theorem insertInference_trees (id : CId) (r : RR) :
    Trees ms (_root_.modify (fun ca => ca.insertInference id r) : SM Unit) :=
  Trees.modify fun _ h => h

theorem insertSyntaxTree_ok {ca : Cache} {m : Mixed} {t : Syn} (h : Framed ms ca.frames)
    (ht : ∀ P, ms.head? = some P → P m.id t) : Framed ms (ca.insertSyntaxTree m t).frames := by
  unfold Cache.insertSyntaxTree
  obtain ⟨fs, infs⟩ := ca
  split
  · exact h
  · cases h with
    | nil => exact .nil
    | cons h1 h2 =>
      refine .cons (fun id u hu => ?_) h2
      dsimp only at hu
      rw [AMap.get?_insert] at hu
      split at hu
      · next e => subst e; cases hu; exact ht _ rfl
      · exact h1 id u hu

/-- One structural step. -/
macro "trees_step" : tactic => `(tactic| first
  | with_reducible assumption
  | with_reducible exact Trees.pure _
  | with_reducible exact Trees.fault _
  | with_reducible exact Trees.lift _
  | with_reducible exact Trees.get
  | with_reducible refine Trees.spawn ?_
  | with_reducible refine Trees.asParent ?_
  | with_reducible refine Trees.bind ?_ fun _ => ?_
  | dsimp only
  | split)

/-- Structural steps, with further lemmas for the functions that are called. -/
macro "trees" "[" ts:term,* "]" : tactic =>
  `(tactic| repeat' first $[| with_reducible exact $ts]* | trees_step)

/-- All recursive calls keep the trees of words. -/
structure STrees (S : Search) : Prop where
  reduce : ∀ ms e t, FitsFrame e ms → Trees ms (S.reduce e t)
  toAst : ∀ ms e c, FitsFrame e ms → Trees ms (S.toAst e c)
  getAssoc : ∀ ms e t, FitsFrame e ms → Trees ms (S.getAssoc e t)
  recReduce : ∀ ms e t r, FitsFrame e ms → Trees ms (S.recReduce e t r)
  findEx : ∀ ms e g set k, FitsFrame e ms → (∀ x, Trees ms (k x)) → Trees ms (S.findEx e g set k)
  evidence : ∀ ms e l r, FitsFrame e ms → Trees ms (S.evidence e l r)
  expand : ∀ ms e t, FitsFrame e ms → Trees ms (S.expand e t)
  built : ∀ P ms e c ca t ca', KeptBy e P → Framed (P :: ms) ca.frames → S.toAst e c ca = .ok (t, ca') → P c t

namespace Search

variable {S : Search} (h : STrees S)
include h

theorem concreteAst_trees (e : Env) (hf : FitsFrame e ms) (t : CCT) :
    Trees ms (S.concreteAst e t) := by
  unfold concreteAst
  trees [h.toAst _ _ _ fit%]

theorem displayJoint_trees (e : Env) (hf : FitsFrame e ms) (l r : Syn) :
    Trees ms (S.displayJoint e l r) := by
  unfold displayJoint
  trees [h.getAssoc _ _ _ fit%]

theorem join_trees (e : Env) (hf : FitsFrame e ms) (l r : Syn) : Trees ms (S.join e l r) := by
  unfold join
  trees [displayJoint_trees h _ fit% _ _]

theorem combine_trees (e : Env) (hf : FitsFrame e ms) (l r : Syn) : Trees ms (S.combine e l r) := by
  unfold combine
  trees [join_trees h _ fit% _ _]

theorem contractPair_trees (e : Env) (hf : FitsFrame e ms) (l r : Syn) :
    Trees ms (S.contractPair e l r) := by
  unfold contractPair
  trees [displayJoint_trees h _ fit% _ _]

theorem getAssocF_trees (e : Env) (hf : FitsFrame e ms) (t : Syn) : Trees ms (S.getAssocF e t) := by
  unfold getAssocF
  trees [combine_trees h _ fit% _ _, h.toAst _ _ _ fit%, h.reduce _ _ _ fit%]

theorem buildAst_trees (e : Env) (hf : FitsFrame e ms) (id : CId) (c : Mixed) :
    Trees ms (S.buildAst e id c) := by
  unfold buildAst
  trees [combine_trees h _ fit% _ _, h.toAst _ _ _ fit%]

omit h in
theorem combine_paired {e : Env} {l r t : Syn} {ca ca' : Cache}
    (h : S.combine e l r ca = .ok (t, ca')) : Paired e.view l r t := by
  unfold combine at h
  obtain ⟨o, _, h1, h2⟩ := SM.bind_ok.1 h
  have h1 := (SM.lift_ok.1 h1).1
  have hj : ∀ {ca t ca'}, S.join e l r ca = .ok (t, ca') →
      ∃ s, t = .branch (some s) none l r (Syn.pairVars l r).1 (Syn.pairVars l r).2 := by
    intro ca t ca' h
    unfold join at h
    obtain ⟨s, _, _, h2⟩ := SM.bind_ok.1 h
    cases h2
    exact ⟨_, rfl⟩
  cases o with
  | none =>
    obtain ⟨s, rfl⟩ := hj h2
    refine ⟨_, _, rfl, by simp, fun _ i j m hi hj hm => ?_⟩
    unfold pairConcept at h1
    rw [hi, hj] at h1
    simp only [Except.bind_eq_ok, Except.pure_eq_ok] at h1
    obtain ⟨m', hm', hk⟩ := h1
    rw [hm] at hm'; cases hm'
    exact hk
  | some k =>
    dsimp only at h2
    obtain ⟨t1, ca1, h3, h2⟩ := SM.bind_ok.1 h2
    obtain ⟨s, rfl⟩ := hj h3
    obtain ⟨h4, rfl⟩ := SM.lift_ok.1 h2
    unfold View.bindConceptToSyntax at h4
    rw [Except.bind_eq_ok] at h4
    obtain ⟨q, _, h4⟩ := h4
    split at h4
    · cases h4
    · cases h4
      refine ⟨_, _, rfl, ?_, by simp⟩
      intro k' hk
      cases hk
      unfold pairConcept at h1
      cases hl : l.concept with
      | none => rw [hl] at h1; cases h1
      | some a =>
        cases hr : r.concept with
        | none => rw [hl, hr] at h1; cases h1
        | some d =>
          rw [hl, hr] at h1
          simp only [Except.bind_eq_ok, Except.pure_eq_ok] at h1
          obtain ⟨m, hm, hk⟩ := h1
          exact ⟨a, d, m, rfl, rfl, hm, hk⟩

/-- The tree of a concept, as it is put into the memory. -/
theorem buildAst_built {P : Rel} {e : Env} (hc : KeptBy e P) {id : CId} {c : Mixed} {ca ca' : Cache} {t : Syn}
    (hf : Framed (P :: ms) ca.frames) (h' : S.buildAst e id c ca = .ok (t, ca')) : BuiltAs e.view P id c t := by
  have fit : FitsFrame e (P :: ms) := by intro Q hQ; cases hQ; exact hc
  unfold buildAst at h'
  cases hs : c.string with
  | some u =>
    rw [hs] at h'
    exact .string hs (SM.lift_ok.1 h').1
  | none =>
    rw [hs] at h'
    obtain ⟨s, ca1, h0, h2⟩ := SM.bind_ok.1 h'
    obtain ⟨h1, rfl⟩ := SM.lift_ok.1 h0
    cases s with
    | some s => exact .named hs h1 (SM.lift_ok.1 h2).1
    | none =>
      dsimp only at h2
      cases hcomp : c.composition with
      | none =>
        rw [hcomp] at h2
        cases h2
        exact .other hs h1 hcomp
      | some p =>
        obtain ⟨l, r⟩ := p
        rw [hcomp] at h2
        obtain ⟨a, ca2, ha, h2⟩ := SM.bind_ok.1 h2
        obtain ⟨b, ca3, hb, h2⟩ := SM.bind_ok.1 h2
        have f2 := h.toAst _ _ _ fit _ _ _ hf ha
        exact .pair hs h1 hcomp (h.built _ _ _ _ _ _ _ hc hf ha) (h.built _ _ _ _ _ _ _ hc f2 hb)
          (combine_paired h2)

theorem toAstF_trees (e : Env) (hf : FitsFrame e ms) (id : CId) : Trees ms (S.toAstF e id) := by
  intro ca t ca' hca h'
  unfold toAstF at h'
  cases hm : e.mask.get id with
  | some s => rw [hm] at h'; cases h'; exact hca
  | none =>
    rw [hm] at h'
    dsimp only at h'
    obtain ⟨_, _, h1, h2⟩ := SM.bind_ok.1 h'
    obtain ⟨rfl, rfl⟩ := SM.get_ok.1 h1
    cases hs : ca.syntaxTree? id with
    | some s => rw [hs] at h2; cases h2; exact hca
    | none =>
      rw [hs] at h2
      dsimp only at h2
      obtain ⟨c, _, h1, h2⟩ := SM.bind_ok.1 h2
      obtain ⟨hr, rfl⟩ := SM.lift_ok.1 h1
      obtain ⟨s, ca1, h3, h2⟩ := SM.bind_ok.1 h2
      obtain ⟨_, ca2, h4, h2⟩ := SM.bind_ok.1 h2
      cases h2
      obtain rfl := SM.modify_ok.1 h4
      refine insertSyntaxTree_ok (buildAst_trees h e hf id c _ _ _ hca h3) fun P hP => ?_
      cases ms with
      | nil => cases hP
      | cons Q ms =>
        cases hP
        exact ((hf _ rfl).built _ _ _ hr (buildAst_built h (hf _ rfl) hca h3)).2

theorem toAstF_built {P : Rel} {e : Env} (hc : KeptBy e P) {id : CId} {ca ca' : Cache} {t : Syn}
    (hf : Framed (P :: ms) ca.frames) (h' : S.toAstF e id ca = .ok (t, ca')) : P id t := by
  unfold toAstF at h'
  cases hm : e.mask.get id with
  | some s => rw [hm] at h'; cases h'; exact hc.mask _ _ hm
  | none =>
    rw [hm] at h'
    dsimp only at h'
    obtain ⟨_, _, h1, h2⟩ := SM.bind_ok.1 h'
    obtain ⟨rfl, rfl⟩ := SM.get_ok.1 h1
    cases hs : ca.syntaxTree? id with
    | some s =>
      rw [hs] at h2; cases h2
      unfold Cache.syntaxTree? at hs
      obtain ⟨fs, infs⟩ := ca
      cases hf with
      | cons hf _ => exact hf _ _ hs
    | none =>
      rw [hs] at h2
      dsimp only at h2
      obtain ⟨c, _, h1, h2⟩ := SM.bind_ok.1 h2
      obtain ⟨hr, rfl⟩ := SM.lift_ok.1 h1
      obtain ⟨s, ca1, h3, h2⟩ := SM.bind_ok.1 h2
      obtain ⟨_, ca2, h4, h2⟩ := SM.bind_ok.1 h2
      cases h2
      exact (hc.built _ _ _ hr (buildAst_built h hc hf h3)).1

theorem substitute_trees (e : Env) (hf : FitsFrame e ms) (m : Mask) (t : Syn) :
    Trees ms (S.substitute e m t) := by
  induction t with
  | leaf s c l => unfold substitute; trees []
  | branch s c l r f b ihl ihr =>
    unfold substitute
    trees [contractPair_trees h _ fit% _ _]

theorem rightMatch_trees (e : Env) (hf : FitsFrame e ms) (right : Syn) (er : CId) (le : ExSubst) :
    Trees ms (S.rightMatch e right er le) := by
  unfold rightMatch
  trees [substitute_trees h _ fit% _ _, h.recReduce _ _ _ _ fit%, h.findEx _ _ _ _ _ fit% fun _ => Trees.pure _]

theorem findExample_trees (e : Env) (hf : FitsFrame e ms) (g : Syn) (set : List CId) :
    Trees ms (S.findExample e g set) :=
  h.findEx _ _ _ _ _ fit% fun _ => Trees.pure _

theorem halfStep_trees (e : Env) (hf : FitsFrame e ms) (gen non : Syn) (hand : Hand) (id : CId) :
    Trees ms (S.halfStep e gen non hand id) := by
  unfold halfStep
  cases hand <;> trees [findExample_trees h _ fit% _ _, h.toAst _ _ _ fit%]

omit h in
theorem findMap_trees {α β : Type} {f : α → SM (Option β)} (hf : ∀ a, Trees ms (f a))
    (l : List α) : Trees ms (findMap f l) := by
  induction l with
  | nil => exact .pure _
  | cons a as ih =>
    unfold findMap
    trees [hf _, ih]

theorem findExamples_trees {β : Type} (e : Env) (hf : FitsFrame e ms) (gen : Syn) (set : List CId)
    {k : ExSubst → SM (Option β)} (hk : ∀ x, Trees ms (k x)) :
    Trees ms (S.findExamples e gen set k) := by
  unfold findExamples
  trees [hk _, findMap_trees (fun _ => halfStep_trees h _ fit% _ _ _ _) _, h.toAst _ _ _ fit%,
    h.findEx _ _ _ _ _ fit% fun _ => rightMatch_trees h _ fit% _ _ _]
  · refine findMap_trees (fun c => ?_) _
    trees [hk _, h.toAst _ _ _ fit%]
  · refine findMap_trees (fun c => ?_) _
    trees [hk _, h.findEx _ _ _ _ _ fit% fun _ => rightMatch_trees h _ fit% _ _ _]

theorem inferFrom_trees (e : Env) (hf : FitsFrame e ms) (e' : Env) (imp op t cond red : Syn) (subs : ExSubst) :
    Trees (.any :: ms) (S.inferFrom e e' imp op t cond red subs) := by
  unfold inferFrom
  trees [substitute_trees h _ fit% _ _, h.recReduce _ _ _ _ fit%]

theorem findInferred_trees (e : Env) (hf : FitsFrame e ms) (t : Syn) :
    Trees ms (S.findInferred e t) := by
  unfold findInferred
  trees [concreteAst_trees h _ fit% _, h.toAst _ _ _ fit%,
    findExamples_trees h _ fit% _ _ fun _ => inferFrom_trees h _ fit% _ _ _ _ _ _ _]

theorem inferStep_trees (e : Env) (hf : FitsFrame e ms) (p : CId × CId) :
    Trees ms (S.inferStep e p) := by
  unfold inferStep
  trees [h.toAst _ _ _ fit%, h.reduce _ _ _ fit%]

theorem inferReduction_trees (e : Env) (hf : FitsFrame e ms) (c : Mixed) :
    Trees ms (S.inferReduction e c) := by
  unfold inferReduction
  trees [h.toAst _ _ _ fit%, findInferred_trees h _ fit% _, findMap_trees (fun _ => inferStep_trees h _ fit% _) _,
    insertInference_trees _ _]

theorem reduceConcept_trees (e : Env) (hf : FitsFrame e ms) (id : CId) :
    Trees ms (S.reduceConcept e id) := by
  unfold reduceConcept
  trees [h.toAst _ _ _ fit%, inferReduction_trees h _ fit% _]

theorem genLoop_trees (e : Env) (hf : FitsFrame e ms) (t : Syn) (red : AMap Key RR) (gs : List CId) :
    Trees ms (S.genLoop e t red gs) := by
  induction gs generalizing red with
  | nil => exact .pure _
  | cons g gs ih =>
    unfold genLoop
    trees [ih _, h.toAst _ _ _ fit%, reduceConcept_trees h _ fit% _, substitute_trees h _ fit% _ _]

theorem recursivelyReducePair_trees (e : Env) (hf : FitsFrame e ms) (l r : Syn) :
    Trees ms (S.recursivelyReducePair e l r) := by
  unfold recursivelyReducePair
  trees [h.reduce _ _ _ fit%, contractPair_trees h _ fit% _ _, genLoop_trees h _ fit% _ _ _]

theorem compareSide_trees (e : Env) (_hf : FitsFrame e ms) (red : AMap Key RR) (t : Syn) :
    Trees ms (S.compareSide e red t) := by
  unfold compareSide
  trees [h.recReduce _ _ _ _ fit%]

theorem compare_trees (e : Env) (hf : FitsFrame e ms) (a b : Syn) : Trees ms (S.compare e a b) := by
  unfold compare
  trees [h.toAst _ _ _ fit%, combine_trees h _ fit% _ _, compareSide_trees h _ fit% _ _]

theorem evidenceF_trees (e : Env) (hf : FitsFrame e ms) (l r : Syn) :
    Trees ms (S.evidenceF e l r) := by
  unfold evidenceF
  trees [h.reduce _ _ _ fit%, h.evidence _ _ _ _ fit%]

theorem reductionTruth_trees (e : Env) (hf : FitsFrame e ms) (l r : Syn) :
    Trees ms (S.reductionTruth e l r) := by
  unfold reductionTruth
  trees [h.evidence _ _ _ _ fit%]

theorem reduceByRight_trees (e : Env) (hf : FitsFrame e ms) (l rl rr : Syn) :
    Trees ms (S.reduceByRight e l rl rr) := by
  unfold reduceByRight
  trees [compare_trees h _ fit% _ _, reductionTruth_trees h _ fit% _ _, concreteAst_trees h _ fit% _]

theorem reduceByLeft_trees (e : Env) (hf : FitsFrame e ms) (ll lr r : Syn) :
    Trees ms (S.reduceByLeft e ll lr r) := by
  unfold reduceByLeft
  trees [findExample_trees h _ fit% _ _, h.toAst _ _ _ fit%]

theorem reducePair_trees (e : Env) (hf : FitsFrame e ms) (l r : Syn) :
    Trees ms (S.reducePair e l r) := by
  unfold reducePair
  trees [reduceByRight_trees h _ fit% _ _ _, reduceByLeft_trees h _ fit% _ _ _,
    recursivelyReducePair_trees h _ fit% _ _]

theorem reduceNow_trees (e : Env) (hf : FitsFrame e ms) (t : Syn) : Trees ms (S.reduceNow e t) := by
  unfold reduceNow
  trees [reduceConcept_trees h _ fit% _, reducePair_trees h _ fit% _ _]

theorem reduceF_trees (e : Env) (hf : FitsFrame e ms) (t : Syn) : Trees ms (S.reduceF e t) := by
  unfold reduceF
  trees [reduceNow_trees h _ fit% _, Trees.modify fun _ h => insertReduction_ok h]

theorem recReduceF_trees (e : Env) (hf : FitsFrame e ms) (t : Syn) (r : Option Reason) :
    Trees ms (S.recReduceF e t r) := by
  unfold recReduceF
  trees [h.reduce _ _ _ fit%, h.recReduce _ _ _ _ fit%]

theorem expandF_trees (e : Env) (hf : FitsFrame e ms) (t : Syn) : Trees ms (S.expandF e t) := by
  unfold expandF
  trees [h.toAst _ _ _ fit%, h.expand _ _ _ fit%, combine_trees h _ fit% _ _]

theorem step_trees : STrees S.step where
  reduce _ _ _ hf := reduceF_trees h _ hf _
  toAst _ _ _ hf := toAstF_trees h _ hf _
  getAssoc _ _ _ hf := getAssocF_trees h _ hf _
  recReduce _ _ _ _ hf := recReduceF_trees h _ hf _ _
  findEx _ _ _ _ _ hf hk := findExamples_trees h _ hf _ _ hk
  evidence _ _ _ _ hf := evidenceF_trees h _ hf _ _
  expand _ _ _ hf := expandF_trees h _ hf _
  built _ _ _ _ _ _ _ hc hf h' := toAstF_built h hc hf h'

end Search

theorem search_trees : ∀ n, STrees (search n)
  | 0 => ⟨fun _ _ _ _ => .fault _, fun _ _ _ _ => .fault _, fun _ _ _ _ => .fault _,
      fun _ _ _ _ _ => .fault _, fun _ _ _ _ _ _ _ => .fault _, fun _ _ _ _ _ => .fault _,
      fun _ _ _ _ => .fault _, fun _ _ _ _ _ _ _ _ _ h => by cases h⟩
  | n + 1 => Search.step_trees (search_trees n)

end Zia

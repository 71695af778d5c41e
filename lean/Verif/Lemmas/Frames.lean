import Verif.Lemmas.SM

/-!
# Searches return as many memories as they were given

A search that is spawned from another one has a memory of its own, which is gone when it ends.
-/

namespace Zia

set_option linter.unusedSectionVars false

variable [HashOrder]

/-- A search that ends leaves as many frames as there were, and those below the first `d + 1` as they
were. -/
def Frames (d : Nat) {α : Type} (m : SM α) : Prop :=
  ∀ ca a ca', m ca = .ok (a, ca') → ca'.frames.length = ca.frames.length ∧
    ca'.frames.drop (d + 1) = ca.frames.drop (d + 1)

variable {α β : Type} {d : Nat}

namespace Frames

theorem pure (a : α) : Frames d (Pure.pure a : SM α) := by
  intro ca b ca' h; cases h; exact ⟨rfl, rfl⟩

theorem fault (f : Fault) : Frames d (SM.fault f : SM α) := by
  intro ca b ca' h; cases h

theorem lift (x : Except Fault α) : Frames d (liftM x : SM α) := by
  intro ca b ca' h
  obtain ⟨_, rfl⟩ := SM.lift_ok.1 h
  exact ⟨rfl, rfl⟩

theorem get : Frames d (MonadState.get : SM Cache) := by
  intro ca b ca' h; cases h; exact ⟨rfl, rfl⟩

theorem modify {f : Cache → Cache} (hf : ∀ ca, (f ca).frames.length = ca.frames.length ∧
    (f ca).frames.drop (d + 1) = ca.frames.drop (d + 1)) : Frames d (modify f : SM Unit) := by
  intro ca b ca' h; cases h; exact hf ca

theorem bind {m : SM α} {f : α → SM β} (h : Frames d m) (hf : ∀ a, Frames d (f a)) :
    Frames d (m >>= f) := by
  intro ca b ca' hb
  obtain ⟨a, ca1, h1, h2⟩ := SM.bind_ok.1 hb
  have h1 := h _ _ _ h1
  have h2 := hf a _ _ _ h2
  exact ⟨h2.1.trans h1.1, h2.2.trans h1.2⟩

theorem spawn {red : AMap Key RR} {m : SM α} (h : Frames (d + 1) m) : Frames d (SM.spawn red m) := by
  intro ca b ca' hb
  unfold SM.spawn at hb
  cases hm : m { ca with frames := ⟨red, []⟩ :: ca.frames } with
  | error e => rw [hm] at hb; cases hb
  | ok p =>
    obtain ⟨a, c1⟩ := p
    have hl := h _ _ _ hm
    rw [hm] at hb
    obtain ⟨fs, infs⟩ := c1
    cases fs with
    | nil => simp at hl
    | cons f fs =>
      cases hb
      simpa using hl

theorem asParent {m : SM α} (h : Frames d m) : Frames (d + 1) (SM.asParent m) := by
  intro ca b ca' hb
  unfold SM.asParent at hb
  obtain ⟨fs, infs⟩ := ca
  cases fs with
  | nil =>
    have := h _ _ _ hb
    simp only [List.length_nil, List.length_eq_zero_iff] at this
    rw [this.1]
    simp
  | cons f fs =>
    cases hm : m ⟨fs, infs⟩ with
    | error e => simp only [hm] at hb; cases hb
    | ok p =>
      obtain ⟨a, c1⟩ := p
      have hl := h _ _ _ hm
      simp only [hm] at hb
      cases hb
      simpa using hl

end Frames

theorem Cache.insertReduction_frames (ca : Cache) (t : Syn) (r : RR) :
    (ca.insertReduction t r).frames.length = ca.frames.length ∧
      (ca.insertReduction t r).frames.drop (d + 1) = ca.frames.drop (d + 1) := by
  unfold Cache.insertReduction
  obtain ⟨fs, infs⟩ := ca
  cases r <;> cases fs <;> dsimp only <;> split <;> exact ⟨rfl, rfl⟩

theorem Cache.insertSyntaxTree_frames (ca : Cache) (m : Mixed) (t : Syn) :
    (ca.insertSyntaxTree m t).frames.length = ca.frames.length ∧
      (ca.insertSyntaxTree m t).frames.drop (d + 1) = ca.frames.drop (d + 1) := by
  unfold Cache.insertSyntaxTree
  obtain ⟨fs, infs⟩ := ca
  cases fs <;> dsimp only <;> split <;> exact ⟨rfl, rfl⟩

/-- One structural step. -/
macro "frames_step" : tactic => `(tactic| first
  | with_reducible assumption
  | with_reducible exact Frames.pure _
  | with_reducible exact Frames.fault _
  | with_reducible exact Frames.lift _
  | with_reducible exact Frames.get
  | with_reducible refine Frames.spawn ?_
  | with_reducible refine Frames.asParent ?_
  | with_reducible refine Frames.bind ?_ fun _ => ?_
  | dsimp only
  | split)

/-- Structural steps, with further lemmas for the functions that are called. -/
macro "frames" "[" ts:term,* "]" : tactic =>
  `(tactic| repeat' first $[| with_reducible exact $ts]* | frames_step)

/-- All recursive calls keep the number of frames. -/
structure SFrames (S : Search) : Prop where
  reduce : ∀ {d} e t, Frames d (S.reduce e t)
  toAst : ∀ {d} e c, Frames d (S.toAst e c)
  getAssoc : ∀ {d} e t, Frames d (S.getAssoc e t)
  recReduce : ∀ {d} e t r, Frames d (S.recReduce e t r)
  findEx : ∀ {d} e g set k, (∀ x, Frames d (k x)) → Frames d (S.findEx e g set k)
  evidence : ∀ {d} e l r, Frames d (S.evidence e l r)
  expand : ∀ {d} e t, Frames d (S.expand e t)

namespace Search

variable {S : Search} (h : SFrames S)
include h

theorem concreteAst_frames (e : Env) (t : CCT) :
    Frames d (S.concreteAst e t) := by
  unfold concreteAst
  frames [h.toAst _ _]

theorem displayJoint_frames (e : Env) (l r : Syn) :
    Frames d (S.displayJoint e l r) := by
  unfold displayJoint
  frames [h.getAssoc _ _]

theorem join_frames (e : Env) (l r : Syn) : Frames d (S.join e l r) := by
  unfold join
  frames [displayJoint_frames h _ _ _]

theorem combine_frames (e : Env) (l r : Syn) : Frames d (S.combine e l r) := by
  unfold combine
  frames [join_frames h _ _ _]

theorem contractPair_frames (e : Env) (l r : Syn) :
    Frames d (S.contractPair e l r) := by
  unfold contractPair
  frames [displayJoint_frames h _ _ _]

theorem getAssocF_frames (e : Env) (t : Syn) : Frames d (S.getAssocF e t) := by
  unfold getAssocF
  frames [combine_frames h _ _ _, h.toAst _ _, h.reduce _ _]

theorem buildAst_frames (e : Env) (id : CId) (c : Mixed) :
    Frames d (S.buildAst e id c) := by
  unfold buildAst
  frames [combine_frames h _ _ _, h.toAst _ _]

theorem toAstF_frames (e : Env) (id : CId) : Frames d (S.toAstF e id) := by
  unfold toAstF
  frames [buildAst_frames h _ _ _, Frames.modify fun _ => Cache.insertSyntaxTree_frames _ _ _]

theorem substitute_frames (e : Env) (m : Mask) (t : Syn) :
    Frames d (S.substitute e m t) := by
  induction t with
  | leaf s c l => unfold substitute; frames []
  | branch s c l r f b ihl ihr =>
    unfold substitute
    frames [contractPair_frames h _ _ _]

theorem rightMatch_frames (e : Env) (right : Syn) (er : CId) (le : ExSubst) :
    Frames d (S.rightMatch e right er le) := by
  unfold rightMatch
  frames [substitute_frames h _ _ _, h.recReduce _ _ _, h.findEx _ _ _ _ fun _ => Frames.pure _]

theorem findExample_frames (e : Env) (g : Syn) (set : List CId) :
    Frames d (S.findExample e g set) :=
  h.findEx _ _ _ _ fun _ => Frames.pure _

theorem halfStep_frames (e : Env) (gen non : Syn) (hand : Hand) (id : CId) :
    Frames d (S.halfStep e gen non hand id) := by
  unfold halfStep
  cases hand <;> frames [findExample_frames h _ _ _, h.toAst _ _]

omit h in
theorem findMap_frames {α β : Type} {f : α → SM (Option β)} (hf : ∀ a, Frames d (f a))
    (l : List α) : Frames d (findMap f l) := by
  induction l with
  | nil => exact .pure _
  | cons a as ih =>
    unfold findMap
    frames [hf _, ih]

theorem findExamples_frames {β : Type} (e : Env) (gen : Syn) (set : List CId)
    {k : ExSubst → SM (Option β)} (hk : ∀ x, Frames d (k x)) :
    Frames d (S.findExamples e gen set k) := by
  unfold findExamples
  frames [hk _, findMap_frames (fun _ => halfStep_frames h _ _ _ _ _) _, h.toAst _ _,
    h.findEx _ _ _ _ fun _ => rightMatch_frames h _ _ _ _]
  · refine findMap_frames (fun c => ?_) _
    frames [hk _, h.toAst _ _]
  · refine findMap_frames (fun c => ?_) _
    frames [hk _, h.findEx _ _ _ _ fun _ => rightMatch_frames h _ _ _ _]

theorem inferFrom_frames (e e' : Env) (imp op t cond red : Syn) (subs : ExSubst) :
    Frames (d + 1) (S.inferFrom e e' imp op t cond red subs) := by
  unfold inferFrom
  frames [substitute_frames h _ _ _, h.recReduce _ _ _]

theorem findInferred_frames (e : Env) (t : Syn) :
    Frames d (S.findInferred e t) := by
  unfold findInferred
  frames [concreteAst_frames h _ _, h.toAst _ _,
    findExamples_frames h _ _ _ fun _ => inferFrom_frames h _ _ _ _ _ _ _ _]

theorem inferStep_frames (e : Env) (p : CId × CId) :
    Frames d (S.inferStep e p) := by
  unfold inferStep
  frames [h.toAst _ _, h.reduce _ _]

theorem inferReduction_frames (e : Env) (c : Mixed) :
    Frames d (S.inferReduction e c) := by
  unfold inferReduction
  frames [h.toAst _ _, findInferred_frames h _ _, findMap_frames (fun _ => inferStep_frames h _ _) _,
    Frames.modify fun _ => ⟨rfl, rfl⟩]

theorem reduceConcept_frames (e : Env) (id : CId) :
    Frames d (S.reduceConcept e id) := by
  unfold reduceConcept
  frames [h.toAst _ _, inferReduction_frames h _ _]

theorem genLoop_frames (e : Env) (t : Syn) (red : AMap Key RR) (gs : List CId) :
    Frames d (S.genLoop e t red gs) := by
  induction gs generalizing red with
  | nil => exact .pure _
  | cons g gs ih =>
    unfold genLoop
    frames [ih _, h.toAst _ _, reduceConcept_frames h _ _, substitute_frames h _ _ _]

theorem recursivelyReducePair_frames (e : Env) (l r : Syn) :
    Frames d (S.recursivelyReducePair e l r) := by
  unfold recursivelyReducePair
  frames [h.reduce _ _, contractPair_frames h _ _ _, genLoop_frames h _ _ _ _]

theorem compareSide_frames (e : Env) (red : AMap Key RR) (t : Syn) :
    Frames d (S.compareSide e red t) := by
  unfold compareSide
  frames [h.recReduce _ _ _]

theorem compare_frames (e : Env) (a b : Syn) : Frames d (S.compare e a b) := by
  unfold compare
  frames [h.toAst _ _, combine_frames h _ _ _, compareSide_frames h _ _ _]

theorem evidenceF_frames (e : Env) (l r : Syn) :
    Frames d (S.evidenceF e l r) := by
  unfold evidenceF
  frames [h.reduce _ _, h.evidence _ _ _]

theorem reductionTruth_frames (e : Env) (l r : Syn) :
    Frames d (S.reductionTruth e l r) := by
  unfold reductionTruth
  frames [h.evidence _ _ _]

theorem reduceByRight_frames (e : Env) (l rl rr : Syn) :
    Frames d (S.reduceByRight e l rl rr) := by
  unfold reduceByRight
  frames [compare_frames h _ _ _, reductionTruth_frames h _ _ _, concreteAst_frames h _ _]

theorem reduceByLeft_frames (e : Env) (ll lr r : Syn) :
    Frames d (S.reduceByLeft e ll lr r) := by
  unfold reduceByLeft
  frames [findExample_frames h _ _ _, h.toAst _ _]

theorem reducePair_frames (e : Env) (l r : Syn) :
    Frames d (S.reducePair e l r) := by
  unfold reducePair
  frames [reduceByRight_frames h _ _ _ _, reduceByLeft_frames h _ _ _ _,
    recursivelyReducePair_frames h _ _ _]

theorem reduceNow_frames (e : Env) (t : Syn) : Frames d (S.reduceNow e t) := by
  unfold reduceNow
  frames [reduceConcept_frames h _ _, reducePair_frames h _ _ _]

theorem reduceF_frames (e : Env) (t : Syn) : Frames d (S.reduceF e t) := by
  unfold reduceF
  frames [reduceNow_frames h _ _, Frames.modify fun _ => Cache.insertReduction_frames _ _ _]

theorem recReduceF_frames (e : Env) (t : Syn) (r : Option Reason) :
    Frames d (S.recReduceF e t r) := by
  unfold recReduceF
  frames [h.reduce _ _, h.recReduce _ _ _]

theorem expandF_frames (e : Env) (t : Syn) : Frames d (S.expandF e t) := by
  unfold expandF
  frames [h.toAst _ _, h.expand _ _, combine_frames h _ _ _]

theorem step_frames : SFrames S.step where
  reduce := reduceF_frames h
  toAst := toAstF_frames h
  getAssoc := getAssocF_frames h
  recReduce := recReduceF_frames h
  findEx _ _ _ _ hk := findExamples_frames h _ _ _ hk
  evidence := evidenceF_frames h
  expand := expandF_frames h

end Search

theorem search_frames : ∀ n, SFrames (search n)
  | 0 => ⟨fun _ _ => .fault _, fun _ _ => .fault _, fun _ _ => .fault _, fun _ _ _ => .fault _,
      fun _ _ _ _ _ => .fault _, fun _ _ _ => .fault _, fun _ _ => .fault _⟩
  | n + 1 => Search.step_frames (search_frames n)

end Zia

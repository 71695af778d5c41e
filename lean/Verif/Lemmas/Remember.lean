import Verif.Lemmas.Concrete
import Verif.Lemmas.SM
import Verif.Lemmas.Stand

/-!
# What is remembered for the built-in concepts

Every search only puts trees of a built-in concept into the memory for that concept.
-/

namespace Zia

open CM Spec

set_option linter.unusedSectionVars false

variable [HashOrder]

/-! ## What is read of the built-in concepts -/

/-- Concepts read are those asked for, and the built-in ones have no parts. -/
structure ViewOk (v : View) : Prop where
  snap : RefsInv v.snap
  leaf : ∀ k m, v.read (.com (builtin k)) = .ok m → m.composition = none

theorem readSteps_some_id {s : Snap} (hs : RefsInv s) {d : Nested} {a : CId} {m : Mixed}
    (h : (View.mk s d).read a = .ok m) : m.id = a := by
  simp only [View.read, View.maybeRead, Except.bind_eq_ok, getConcept_eq] at h
  obtain ⟨o, h1, h2⟩ := h
  cases o with
  | some x =>
    cases h2
    cases hg : d.getConcept a with
    | none => rw [hg] at h1; cases h1
    | some L =>
      rw [hg] at h1
      exact readSteps_id h1 fun x hx => stored_id hs hx
  | none =>
    dsimp only at h2
    cases hst : stored s a with
    | none => rw [hst] at h2; cases h2
    | some m0 => rw [hst] at h2; cases h2; exact stored_id hs hst

theorem ViewOk.ids {v : View} (h : ViewOk v) (a : CId) (m : Mixed) (hm : v.read a = .ok m) : m.id = a :=
  readSteps_some_id h.snap hm

theorem ViewOk.ext {v : View} (h : ViewOk v) {d : Nested} (he : Ext v.delta d) : ViewOk { v with delta := d } := by
  refine ⟨h.snap, fun k m hm => h.leaf k m ?_⟩
  have hg : d.getConcept (.com (builtin k)) = v.delta.getConcept (.com (builtin k)) :=
    he.get_old fun u e => by cases e
  simp only [View.read, View.maybeRead] at hm ⊢
  rw [hg] at hm
  exact hm

/-- Pending changes that neither make stored concepts anew nor say what they are composed of. -/
def DeltaOk (d : Nested) : Prop :=
  ∃ o, d = .base o ∧ ∀ n e, e ∈ o.entries (.com n) → (∀ nd, e ≠ .direct (.new nd)) ∧ ∀ p, e ≠ .indirect (.composedOf p)

/-- The built-in concepts of a store have no parts. -/
structure SnapOk (s : Snap) : Prop where
  refs : RefsInv s
  leaf : ∀ k c, s.concepts[builtin k]? = some c → c.composition = none

theorem readSteps_leaf {a : CId} {L : List CDelta} {o o' : Option Mixed}
    (hL : ∀ e ∈ L, (∀ nd, e ≠ .direct (.new nd)) ∧ ∀ p, e ≠ .indirect (.composedOf p))
    (ho : ∀ m, o = some m → (∃ c l r f u red, m = .prev c l r f u red) ∧ m.composition = none)
    (h : View.readSteps a o L = .ok o') : ∀ m, o' = some m → (∃ c l r f u red, m = .prev c l r f u red) ∧ m.composition = none := by
  induction L generalizing o with
  | nil => cases h; exact ho
  | cons e L ih =>
    simp only [View.readSteps, Except.bind_eq_ok] at h
    obtain ⟨o1, h1, h2⟩ := h
    refine ih (fun e he => hL e (.tail _ he)) ?_ h2
    obtain ⟨hn, hp⟩ := hL e (.head _)
    cases e with
    | indirect i =>
      simp only [View.readStep, orPanic, Except.bind_eq_ok, Except.pure_eq_ok] at h1
      obtain ⟨m0, h0, m1, h1, rfl⟩ := h1
      cases o with
      | none => cases h0
      | some x =>
        cases h0
        obtain ⟨⟨c, l, r, f, u, red, rfl⟩, hc⟩ := ho _ rfl
        rintro m ⟨⟩
        cases i <;> first
          | exact absurd rfl (hp _)
          | (cases h1; exact ⟨⟨_, _, _, _, _, _, rfl⟩, hc⟩)
    | direct dd =>
      cases dd with
      | new nd => exact absurd rfl (hn nd)
      | remove x =>
        simp only [View.readStep] at h1
        split at h1
        · cases h1; rintro m ⟨⟩
        · cases h1
      | compose c ch => simp [View.readStep] at h1
      | reduce c ch =>
        simp only [View.readStep] at h1
        split at h1
        · simp only [orPanic, Except.bind_eq_ok, Except.pure_eq_ok] at h1
          obtain ⟨m0, h0, m1, h1, rfl⟩ := h1
          cases o with
          | none => cases h0
          | some x =>
            cases h0
            obtain ⟨⟨c, l, r, f, u, red, rfl⟩, hc⟩ := ho _ rfl
            rintro m ⟨⟩
            cases ch <;> (cases h1; exact ⟨⟨_, _, _, _, _, _, rfl⟩, hc⟩)
        · cases h1

theorem SnapOk.view {s : Snap} (hs : SnapOk s) {d : Nested} (hd : DeltaOk d) : ViewOk ⟨s, d⟩ := by
  refine ⟨hs.refs, fun k m hm => ?_⟩
  obtain ⟨o, rfl, hd⟩ := hd
  have hst : ∀ m, stored s (.com (builtin k)) = some m →
      (∃ c l r f u red, m = .prev c l r f u red) ∧ m.composition = none := by
    intro m hm
    simp only [stored, Option.map_eq_some_iff] at hm
    obtain ⟨c, hc, rfl⟩ := hm
    refine ⟨⟨_, _, _, _, _, _, rfl⟩, ?_⟩
    simp [Mixed.ofCon, Mixed.composition, hs.leaf k c hc]
  simp only [View.read, View.maybeRead, Except.bind_eq_ok, getConcept_eq] at hm
  obtain ⟨o1, h1, h2⟩ := hm
  cases o1 with
  | some x =>
    cases h2
    cases hg : (Nested.base o).getConcept (.com (builtin k)) with
    | none => rw [hg] at h1; cases h1
    | some L =>
      rw [hg] at h1
      refine (readSteps_leaf (fun e he => hd (builtin k) e ?_) hst h1 _ rfl).2
      simp only [Nested.getConcept] at hg
      simp only [Delta.entries, hg]
      exact he
  | none =>
    dsimp only at h2
    cases hst' : stored s (.com (builtin k)) with
    | none => rw [hst'] at h2; cases h2
    | some m0 => rw [hst'] at h2; cases h2; exact (hst _ hst').2

/-! ## Searches -/

/-- The trees remembered for built-in concepts have those concepts. -/
def CacheOk (ca : Cache) : Prop :=
  ∀ f ∈ ca.frames, ∀ k t, f.syn.get? (.com (builtin k)) = some t → t.concept = some (.com (builtin k))

/-- A search that keeps the memory of the built-in concepts right. -/
def Minds {α : Type} (m : SM α) : Prop := ∀ ca a ca', CacheOk ca → m ca = .ok (a, ca') → CacheOk ca'

variable {α β : Type}

namespace Minds

theorem pure (a : α) : Minds (Pure.pure a : SM α) := by
  intro ca b ca' hc h; cases h; exact hc

theorem fault (f : Fault) : Minds (SM.fault f : SM α) := by
  intro ca b ca' _ h; cases h

theorem lift (x : Except Fault α) : Minds (liftM x : SM α) := by
  intro ca b ca' hc h
  obtain ⟨_, rfl⟩ := SM.lift_ok.1 h
  exact hc

theorem get : Minds (MonadState.get : SM Cache) := by
  intro ca b ca' hc h; cases h; exact hc

theorem modify {f : Cache → Cache} (hf : ∀ ca, CacheOk ca → CacheOk (f ca)) : Minds (modify f : SM Unit) := by
  intro ca b ca' hc h; cases h; exact hf ca hc

theorem bind {m : SM α} {f : α → SM β} (h : Minds m) (hf : ∀ a, Minds (f a)) : Minds (m >>= f) := by
  intro ca b ca' hc hb
  obtain ⟨a, ca1, h1, h2⟩ := SM.bind_ok.1 hb
  exact hf a _ _ _ (h _ _ _ hc h1) h2

theorem bind_lift {x : Except Fault α} {f : α → SM β} (hf : ∀ a, x = .ok a → Minds (f a)) :
    Minds ((liftM x : SM α) >>= f) := by
  intro ca b ca' hc hb
  obtain ⟨a, ca1, h1, h2⟩ := SM.bind_ok.1 hb
  obtain ⟨hx, rfl⟩ := SM.lift_ok.1 h1
  exact hf a hx _ _ _ hc h2

theorem spawn {red : AMap Key RR} {m : SM α} (h : Minds m) : Minds (SM.spawn red m) := by
  intro ca b ca' hc hb
  unfold SM.spawn at hb
  cases hm : m { ca with frames := ⟨red, []⟩ :: ca.frames } with
  | error e => rw [hm] at hb; cases hb
  | ok p =>
    obtain ⟨a, c1⟩ := p
    have k0 : CacheOk { ca with frames := ⟨red, []⟩ :: ca.frames } := by
      intro f hf k t ht
      rcases List.mem_cons.1 hf with rfl | hf
      · cases ht
      · exact hc f hf k t ht
    have hl := h _ _ _ k0 hm
    rw [hm] at hb
    obtain ⟨fs, infs⟩ := c1
    cases fs with
    | nil => cases hb; exact hl
    | cons f fs =>
      cases hb
      exact fun f hf => hl f (by simp [hf])

theorem asParent {m : SM α} (h : Minds m) : Minds (SM.asParent m) := by
  intro ca x ca' hc hb
  unfold SM.asParent at hb
  obtain ⟨fs, infs⟩ := ca
  cases fs with
  | nil => exact h _ _ _ hc hb
  | cons f fs =>
    cases hm : m ⟨fs, infs⟩ with
    | error e => simp only [hm] at hb; cases hb
    | ok p =>
      obtain ⟨a, c1⟩ := p
      have k0 : CacheOk ⟨fs, infs⟩ := fun f hf => hc f (by simp [hf])
      have hl := h _ _ _ k0 hm
      simp only [hm] at hb
      cases hb
      intro g hg
      rcases List.mem_cons.1 hg with rfl | hg
      · exact hc _ (by simp)
      · exact hl g hg

end Minds

theorem CacheOk.insertReduction {ca : Cache} {t : Syn} {r : RR} (h : CacheOk ca) :
    CacheOk (ca.insertReduction t r) := by
  unfold Cache.insertReduction
  obtain ⟨fs, infs⟩ := ca
  have key : ∀ (f : Frame) (fs : List Frame) (red : AMap Key RR), CacheOk ⟨f :: fs, infs⟩ →
      CacheOk ⟨{ f with red := red } :: fs, infs⟩ := by
    intro f fs red h g hg
    rcases List.mem_cons.1 hg with rfl | hg
    · exact h f (by simp)
    · exact h g (by simp [hg])
  cases fs with
  | nil => cases r <;> dsimp only <;> split <;> exact h
  | cons f fs =>
    cases r <;> dsimp only <;> split
    · exact key _ _ _ h
    · exact h
    · exact key _ _ _ h
    · exact h

theorem CacheOk.insertInference {ca : Cache} {a : CId} {r : RR} (h : CacheOk ca) :
    CacheOk (ca.insertInference a r) := h

theorem CacheOk.insertSyntaxTree {ca : Cache} {m : Mixed} {t : Syn} (h : CacheOk ca)
    (ht : ∀ k, m.id = .com (builtin k) → t.concept = some (.com (builtin k))) : CacheOk (ca.insertSyntaxTree m t) := by
  unfold Cache.insertSyntaxTree
  obtain ⟨fs, infs⟩ := ca
  split
  · exact h
  · cases fs with
    | nil => exact h
    | cons f fs =>
      intro g hg k u hu
      rcases List.mem_cons.1 hg with rfl | hg
      · dsimp only at hu
        rw [AMap.get?_insert] at hu
        split at hu
        · next e => cases hu; exact ht k e
        · exact h f (by simp) k u hu
      · exact h g (by simp [hg]) k u hu

/-- One structural step. -/
macro "minds_step" : tactic => `(tactic| first
  | with_reducible assumption
  | with_reducible exact Minds.pure _
  | with_reducible exact Minds.fault _
  | with_reducible exact Minds.lift _
  | with_reducible exact Minds.get
  | with_reducible refine Minds.spawn ?_
  | with_reducible refine Minds.asParent ?_
  | with_reducible refine Minds.bind ?_ fun _ => ?_
  | dsimp only
  | split)

/-- The view of the search is the one of the environment. -/
macro "ok%" : term => `(by first | assumption)

/-- Structural steps, with further lemmas for the functions that are called. -/
macro "minds" "[" ts:term,* "]" : tactic =>
  `(tactic| repeat' first $[| with_reducible exact $ts]* | minds_step)

/-- All recursive calls keep the memory of the built-in concepts right. -/
structure SMinds (S : Search) : Prop where
  reduce : ∀ e, ViewOk e.view → ∀ t, Minds (S.reduce e t)
  toAst : ∀ e, ViewOk e.view → ∀ c, Minds (S.toAst e c)
  getAssoc : ∀ e, ViewOk e.view → ∀ t, Minds (S.getAssoc e t)
  recReduce : ∀ e, ViewOk e.view → ∀ t r, Minds (S.recReduce e t r)
  findEx : ∀ e, ViewOk e.view → ∀ g set k, (∀ x, Minds (k x)) → Minds (S.findEx e g set k)
  evidence : ∀ e, ViewOk e.view → ∀ l r, Minds (S.evidence e l r)
  expand : ∀ e, ViewOk e.view → ∀ t, Minds (S.expand e t)

namespace Search

/-- The tree built for a concept without parts has that concept. -/
theorem buildAst_leaf {S : Search} {e : Env} {a : CId} {m : Mixed} {ca ca' : Cache} {t : Syn} (hid : m.id = a)
    (hcomp : m.composition = none) (h : S.buildAst e a m ca = .ok (t, ca')) : t.concept = some a := by
  unfold Search.buildAst at h
  have : ∃ ls c7, (match (generalizing := false) ls with
      | some s => liftM (e.view.bindConceptToSyntax (Syn.ofStr s) a)
      | none => match m.composition with
        | some (l, r) => do S.combine e (← S.toAst e l) (← S.toAst e r)
        | none => pure (View.newSyntaxFromConcept m) : SM Syn) c7 = .ok (t, ca') := by
    cases hs : m.string with
    | some s =>
      rw [hs] at h
      dsimp only at h
      obtain ⟨ls, c7, _, h⟩ := SM.bind_ok.1 h
      exact ⟨ls, c7, h⟩
    | none =>
      rw [hs] at h
      dsimp only at h
      obtain ⟨ls, c7, _, h⟩ := SM.bind_ok.1 h
      exact ⟨ls, c7, h⟩
  obtain ⟨ls, c7, h6⟩ := this
  cases ls with
  | some ls =>
    dsimp only at h6
    obtain ⟨h5, _⟩ := SM.lift_ok.1 h6
    unfold View.bindConceptToSyntax at h5
    simp only [Except.bind_eq_ok] at h5
    obtain ⟨q, _, h5⟩ := h5
    split at h5
    · unfold Syn.bindQuantifierConcept at h5
      split at h5
      · cases h5; rfl
      · cases h5
    · cases h5
      unfold Syn.bindConcept
      split <;> rfl
  | none =>
    rw [hcomp] at h6
    dsimp only at h6
    obtain ⟨rfl, _⟩ := SM.pure_ok.1 h6
    unfold View.newSyntaxFromConcept
    rw [hid]
    split
    · rfl
    · split <;> rfl

variable {S : Search} (h : SMinds S)
include h

theorem concreteAst_minds (e : Env) (he : ViewOk e.view) (t : CCT) :
    Minds (S.concreteAst e t) := by
  unfold concreteAst
  minds [h.toAst _ ok% _]

theorem displayJoint_minds (e : Env) (he : ViewOk e.view) (l r : Syn) :
    Minds (S.displayJoint e l r) := by
  unfold displayJoint
  minds [h.getAssoc _ ok% _]

theorem join_minds (e : Env) (he : ViewOk e.view) (l r : Syn) : Minds (S.join e l r) := by
  unfold join
  minds [displayJoint_minds h _ ok% _ _]

theorem combine_minds (e : Env) (he : ViewOk e.view) (l r : Syn) : Minds (S.combine e l r) := by
  unfold combine
  minds [join_minds h _ ok% _ _]

theorem contractPair_minds (e : Env) (he : ViewOk e.view) (l r : Syn) :
    Minds (S.contractPair e l r) := by
  unfold contractPair
  minds [displayJoint_minds h _ ok% _ _]

theorem getAssocF_minds (e : Env) (he : ViewOk e.view) (t : Syn) : Minds (S.getAssocF e t) := by
  unfold getAssocF
  minds [combine_minds h _ ok% _ _, h.toAst _ ok% _, h.reduce _ ok% _]

theorem buildAst_minds (e : Env) (he : ViewOk e.view) (id : CId) (c : Mixed) :
    Minds (S.buildAst e id c) := by
  unfold buildAst
  minds [combine_minds h _ ok% _ _, h.toAst _ ok% _]

theorem toAstF_minds (e : Env) (he : ViewOk e.view) (id : CId) : Minds (S.toAstF e id) := by
  intro ca t ca' hca h'
  unfold toAstF at h'
  cases hm : e.mask.get id with
  | some s => rw [hm] at h'; cases h'; exact hca
  | none =>
    rw [hm] at h'
    dsimp only at h'
    obtain ⟨_, _, h1, h2⟩ := SM.bind_ok.1 h'
    obtain ⟨rfl, rfl⟩ := SM.get_ok.1 h1
    cases hs : ca.syntaxTree? id with
    | some s => rw [hs] at h2; cases h2; exact hca
    | none =>
      rw [hs] at h2
      dsimp only at h2
      obtain ⟨c, _, h1, h2⟩ := SM.bind_ok.1 h2
      obtain ⟨hr, rfl⟩ := SM.lift_ok.1 h1
      obtain ⟨s, ca1, h3, h2⟩ := SM.bind_ok.1 h2
      obtain ⟨_, ca2, h4, h2⟩ := SM.bind_ok.1 h2
      cases h2
      obtain rfl := SM.modify_ok.1 h4
      refine (buildAst_minds h e he id c _ _ _ hca h3).insertSyntaxTree fun k hk => ?_
      have hid := he.ids _ _ hr
      rw [hid] at hk
      subst hk
      exact buildAst_leaf hid (he.leaf _ _ hr) h3

theorem substitute_minds (e : Env) (he : ViewOk e.view) (m : Mask) (t : Syn) :
    Minds (S.substitute e m t) := by
  induction t with
  | leaf s c l => unfold substitute; minds []
  | branch s c l r f b ihl ihr =>
    unfold substitute
    minds [contractPair_minds h _ ok% _ _]

theorem rightMatch_minds (e : Env) (he : ViewOk e.view) (right : Syn) (er : CId) (le : ExSubst) :
    Minds (S.rightMatch e right er le) := by
  unfold rightMatch
  minds [substitute_minds h _ ok% _ _, h.recReduce _ ok% _ _, h.findEx _ ok% _ _ _ fun _ => Minds.pure _]

theorem findExample_minds (e : Env) (he : ViewOk e.view) (g : Syn) (set : List CId) :
    Minds (S.findExample e g set) :=
  h.findEx _ ok% _ _ _ fun _ => Minds.pure _

theorem halfStep_minds (e : Env) (he : ViewOk e.view) (gen non : Syn) (hand : Hand) (id : CId) :
    Minds (S.halfStep e gen non hand id) := by
  unfold halfStep
  cases hand <;> minds [findExample_minds h _ ok% _ _, h.toAst _ ok% _]

omit h in
theorem findMap_minds {α β : Type} {f : α → SM (Option β)} (hf : ∀ a, Minds (f a))
    (l : List α) : Minds (findMap f l) := by
  induction l with
  | nil => exact .pure _
  | cons a as ih =>
    unfold findMap
    minds [hf _, ih]

theorem findExamples_minds {β : Type} (e : Env) (he : ViewOk e.view) (gen : Syn) (set : List CId)
    {k : ExSubst → SM (Option β)} (hk : ∀ x, Minds (k x)) :
    Minds (S.findExamples e gen set k) := by
  unfold findExamples
  minds [hk _, findMap_minds (fun _ => halfStep_minds h _ ok% _ _ _ _) _, h.toAst _ ok% _,
    h.findEx _ ok% _ _ _ fun _ => rightMatch_minds h _ ok% _ _ _]
  · refine findMap_minds (fun c => ?_) _
    minds [hk _, h.toAst _ ok% _]
  · refine findMap_minds (fun c => ?_) _
    minds [hk _, h.findEx _ ok% _ _ _ fun _ => rightMatch_minds h _ ok% _ _ _]

theorem inferFrom_minds (e : Env) (he : ViewOk e.view) (e' : Env) (he' : ViewOk e'.view) (imp op t cond red : Syn) (subs : ExSubst) :
    Minds (S.inferFrom e e' imp op t cond red subs) := by
  unfold inferFrom
  minds [substitute_minds h _ ok% _ _, h.recReduce _ ok% _ _]

theorem findInferred_minds (e : Env) (he : ViewOk e.view) (t : Syn) : Minds (S.findInferred e t) := by
  unfold findInferred
  refine .bind (.lift _) fun imp => ?_
  cases imp with
  | none => exact .pure _
  | some imp =>
    dsimp only
    refine .bind (concreteAst_minds h _ he _) fun op => ?_
    cases op with
    | none => exact .pure _
    | some op =>
      dsimp only
      refine .bind_lift fun p1 h1 => .bind_lift fun p2 h2 => .bind_lift fun p3 h3 => ?_
      obtain ⟨d1, vr⟩ := p1
      obtain ⟨d2, vc⟩ := p2
      obtain ⟨d3, vx⟩ := p3
      have he' : ViewOk { e.view with delta := d3 } := he.ext (Ext.three .here h1 h2 h3).1
      dsimp only
      minds [h.toAst _ he' _, findExamples_minds h _ he' _ _ fun _ => inferFrom_minds h _ he _ he' _ _ _ _ _ _]

theorem inferStep_minds (e : Env) (he : ViewOk e.view) (p : CId × CId) :
    Minds (S.inferStep e p) := by
  unfold inferStep
  minds [h.toAst _ ok% _, h.reduce _ ok% _]

theorem inferReduction_minds (e : Env) (he : ViewOk e.view) (c : Mixed) :
    Minds (S.inferReduction e c) := by
  unfold inferReduction
  minds [h.toAst _ ok% _, findInferred_minds h _ ok% _, findMap_minds (fun _ => inferStep_minds h _ ok% _) _,
    Minds.modify fun _ h => h.insertInference]

theorem reduceConcept_minds (e : Env) (he : ViewOk e.view) (id : CId) :
    Minds (S.reduceConcept e id) := by
  unfold reduceConcept
  minds [h.toAst _ ok% _, inferReduction_minds h _ ok% _]

theorem genLoop_minds (e : Env) (he : ViewOk e.view) (t : Syn) (red : AMap Key RR) (gs : List CId) :
    Minds (S.genLoop e t red gs) := by
  induction gs generalizing red with
  | nil => exact .pure _
  | cons g gs ih =>
    unfold genLoop
    minds [ih _, h.toAst _ ok% _, reduceConcept_minds h _ ok% _, substitute_minds h _ ok% _ _]

theorem recursivelyReducePair_minds (e : Env) (he : ViewOk e.view) (l r : Syn) :
    Minds (S.recursivelyReducePair e l r) := by
  unfold recursivelyReducePair
  minds [h.reduce _ ok% _, contractPair_minds h _ ok% _ _, genLoop_minds h _ ok% _ _ _]

theorem compareSide_minds (e : Env) (he : ViewOk e.view) (red : AMap Key RR) (t : Syn) :
    Minds (S.compareSide e red t) := by
  unfold compareSide
  minds [h.recReduce _ ok% _ _]

theorem compare_minds (e : Env) (he : ViewOk e.view) (a b : Syn) : Minds (S.compare e a b) := by
  unfold compare
  minds [h.toAst _ ok% _, combine_minds h _ ok% _ _, compareSide_minds h _ ok% _ _]

theorem evidenceF_minds (e : Env) (he : ViewOk e.view) (l r : Syn) :
    Minds (S.evidenceF e l r) := by
  unfold evidenceF
  minds [h.reduce _ ok% _, h.evidence _ ok% _ _]

theorem reductionTruth_minds (e : Env) (he : ViewOk e.view) (l r : Syn) :
    Minds (S.reductionTruth e l r) := by
  unfold reductionTruth
  minds [h.evidence _ ok% _ _]

theorem reduceByRight_minds (e : Env) (he : ViewOk e.view) (l rl rr : Syn) :
    Minds (S.reduceByRight e l rl rr) := by
  unfold reduceByRight
  minds [compare_minds h _ ok% _ _, reductionTruth_minds h _ ok% _ _, concreteAst_minds h _ ok% _]

theorem reduceByLeft_minds (e : Env) (he : ViewOk e.view) (ll lr r : Syn) :
    Minds (S.reduceByLeft e ll lr r) := by
  unfold reduceByLeft
  minds [findExample_minds h _ ok% _ _, h.toAst _ ok% _]

theorem reducePair_minds (e : Env) (he : ViewOk e.view) (l r : Syn) :
    Minds (S.reducePair e l r) := by
  unfold reducePair
  minds [reduceByRight_minds h _ ok% _ _ _, reduceByLeft_minds h _ ok% _ _ _,
    recursivelyReducePair_minds h _ ok% _ _]

theorem reduceNow_minds (e : Env) (he : ViewOk e.view) (t : Syn) : Minds (S.reduceNow e t) := by
  unfold reduceNow
  minds [reduceConcept_minds h _ ok% _, reducePair_minds h _ ok% _ _]

theorem reduceF_minds (e : Env) (he : ViewOk e.view) (t : Syn) : Minds (S.reduceF e t) := by
  unfold reduceF
  minds [reduceNow_minds h _ ok% _, Minds.modify fun _ h => h.insertReduction]

theorem recReduceF_minds (e : Env) (he : ViewOk e.view) (t : Syn) (r : Option Reason) :
    Minds (S.recReduceF e t r) := by
  unfold recReduceF
  minds [h.reduce _ ok% _, h.recReduce _ ok% _ _]

theorem expandF_minds (e : Env) (he : ViewOk e.view) (t : Syn) : Minds (S.expandF e t) := by
  unfold expandF
  minds [h.toAst _ ok% _, h.expand _ ok% _, combine_minds h _ ok% _ _]

theorem step_minds : SMinds S.step where
  reduce := reduceF_minds h
  toAst := toAstF_minds h
  getAssoc := getAssocF_minds h
  recReduce := recReduceF_minds h
  findEx _ he _ _ _ hk := findExamples_minds h _ he _ _ hk
  evidence := evidenceF_minds h
  expand := expandF_minds h

end Search

theorem search_minds : ∀ n, SMinds (search n)
  | 0 => ⟨fun _ _ _ => .fault _, fun _ _ _ => .fault _, fun _ _ _ => .fault _, fun _ _ _ _ => .fault _,
      fun _ _ _ _ _ _ => .fault _, fun _ _ _ _ => .fault _, fun _ _ _ => .fault _⟩
  | n + 1 => Search.step_minds (search_minds n)

end Zia

import Verif.Lemmas.SM
import Verif.Lemmas.Monad

/-!
# More fuel never changes a result

Every function of the model with a bound on its recursion either runs out of it, or gives what it gives
with any greater bound.
-/

namespace Zia

set_option linter.unusedSectionVars false

variable [HashOrder]

/-- The first result is that of running out of fuel, or they are equal. -/
def Below {α : Type} (x y : Except Fault α) : Prop := x = .error .diverge ∨ x = y

/-- `Below` for searches. -/
def BelowS {α : Type} (m m' : SM α) : Prop := ∀ ca, Below (m ca) (m' ca)

/-- `Below` for computations on the context. -/
def BelowC {α : Type} (m m' : CM α) : Prop := ∀ c, Below (m c) (m' c)

variable {α β : Type}

theorem Below.refl (x : Except Fault α) : Below x x := .inr rfl

theorem Below.diverge (x : Except Fault α) : Below (.error .diverge) x := .inl rfl

theorem Below.trans {x y z : Except Fault α} (h : Below x y) (h' : Below y z) : Below x z := by
  rcases h with rfl | rfl
  · exact .inl rfl
  · exact h'

theorem Below.bind {x y : Except Fault α} {f g : α → Except Fault β} (h : Below x y)
    (hf : ∀ a, Below (f a) (g a)) : Below (x >>= f) (y >>= g) := by
  rcases h with rfl | rfl
  · exact .inl rfl
  · cases x with
    | error e => exact .inr rfl
    | ok a => exact hf a

theorem Below.map {x y : Except Fault α} {f : α → β} (h : Below x y) :
    Below (f <$> x) (f <$> y) := by
  rcases h with rfl | rfl
  · exact .inl rfl
  · exact .inr rfl

theorem Below.ok {x y : Except Fault α} {a : α} (h : Below x y) (hx : x = .ok a) : y = .ok a := by
  rcases h with rfl | rfl
  · cases hx
  · exact hx

namespace BelowS

theorem refl (m : SM α) : BelowS m m := fun _ => .inr rfl

theorem diverge (m : SM α) : BelowS (SM.fault .diverge) m := fun _ => .inl rfl

theorem trans {m1 m2 m3 : SM α} (h : BelowS m1 m2) (h' : BelowS m2 m3) : BelowS m1 m3 :=
  fun ca => (h ca).trans (h' ca)

theorem bind {m m' : SM α} {f g : α → SM β} (h : BelowS m m')
    (hf : ∀ a, BelowS (f a) (g a)) : BelowS (m >>= f) (m' >>= g) :=
  fun ca => Below.bind (h ca) fun p => hf p.1 p.2

theorem lift {x y : Except Fault α} (h : Below x y) :
    BelowS (liftM x : SM α) (liftM y) := by
  rcases h with rfl | rfl
  · exact fun _ => .inl rfl
  · exact refl _

theorem spawn {red : AMap Key RR} {m m' : SM α} (h : BelowS m m') :
    BelowS (SM.spawn red m) (SM.spawn red m') :=
  fun _ => Below.bind (h _) fun _ => .refl _

theorem asParent {m m' : SM α} (h : BelowS m m') : BelowS (SM.asParent m) (SM.asParent m') := by
  intro ca
  unfold SM.asParent
  cases ca.frames with
  | nil => exact h ca
  | cons f fs => exact Below.bind (h _) fun _ => .refl _

end BelowS

namespace BelowC

theorem refl (m : CM α) : BelowC m m := fun _ => .inr rfl

theorem diverge (m : CM α) : BelowC (CM.fault .diverge) m := fun _ => .inl rfl

theorem trans {m1 m2 m3 : CM α} (h : BelowC m1 m2) (h' : BelowC m2 m3) : BelowC m1 m3 :=
  fun ca => (h ca).trans (h' ca)

theorem bind {m m' : CM α} {f g : α → CM β} (h : BelowC m m')
    (hf : ∀ a, BelowC (f a) (g a)) : BelowC (m >>= f) (m' >>= g) := by
  intro c
  rw [CM.bind_apply, CM.bind_apply]
  refine Below.bind (h c) fun p => ?_
  obtain ⟨r, c'⟩ := p
  cases r with
  | error e => exact .refl _
  | ok a => exact hf a c'

theorem ofE {x y : Except Fault α} (h : Below x y) : BelowC (CM.ofE x) (CM.ofE y) :=
  fun _ => Below.bind h fun _ => .refl _

theorem reading {f g : View → Except Fault α} (h : ∀ v, Below (f v) (g v)) :
    BelowC (CM.reading f) (CM.reading g) :=
  bind (refl _) fun v => ofE (h v)

theorem searching {f g : Env → SM α} (h : ∀ e, BelowS (f e) (g e)) :
    BelowC (CM.searching f) (CM.searching g) :=
  fun _ => Below.bind (h _ _) fun _ => .refl _

theorem tryCatch {m m' : CM α} {f g : ZiaError → CM α} (h : BelowC m m')
    (hf : ∀ e, BelowC (f e) (g e)) :
    BelowC (MonadExcept.tryCatch m f) (MonadExcept.tryCatch m' g) := by
  intro c
  rw [CM.tryCatch_apply, CM.tryCatch_apply]
  refine Below.bind (h c) fun p => ?_
  obtain ⟨r, c'⟩ := p
  cases r with
  | error e => exact hf e c'
  | ok a => exact .refl _

end BelowC

/-- One structural step of a comparison of two computations. -/
macro "below_step" : tactic => `(tactic| first
  | with_reducible assumption
  | with_reducible exact Below.refl _
  | with_reducible exact BelowS.refl _
  | with_reducible exact BelowC.refl _
  | with_reducible refine BelowS.lift ?_
  | with_reducible refine BelowS.spawn ?_
  | with_reducible refine BelowS.asParent ?_
  | with_reducible refine Below.bind ?_ fun _ => ?_
  | with_reducible refine BelowS.bind ?_ fun _ => ?_
  | with_reducible refine BelowC.bind ?_ fun _ => ?_
  | with_reducible refine BelowC.ofE ?_
  | with_reducible refine BelowC.reading fun _ => ?_
  | with_reducible refine BelowC.searching fun _ => ?_
  | with_reducible refine BelowC.tryCatch ?_ fun _ => ?_
  | dsimp only
  | split)

/-- Structural steps, with further lemmas for the functions that are called. -/
macro "below" "[" ts:term,* "]" : tactic =>
  `(tactic| repeat' first $[| with_reducible exact $ts]* | below_step)

/-! ## Reading -/

namespace View

variable (v : View)

theorem labelleeLoop_below : ∀ {n m : Nat} (_ : n ≤ m) (cs : List CId),
    Below (v.labelleeLoop n cs) (v.labelleeLoop m cs) := by
  intro n
  induction n with
  | zero => intro m _ cs; exact .inl rfl
  | succ n ih =>
    intro m h cs
    obtain ⟨m, rfl⟩ : ∃ k, m = k + 1 := ⟨m - 1, by omega⟩
    have ih := fun cs => ih (Nat.le_of_succ_le_succ h) cs
    cases cs with
    | nil => exact .refl _
    | cons c cs =>
      unfold labelleeLoop
      below [ih _]

theorem labellee_below {n m : Nat} (h : n ≤ m) (c : CId) :
    Below (v.labellee n c) (v.labellee m c) := by
  unfold labellee
  below [labelleeLoop_below v h _]

theorem conceptFromLabel_below {n m : Nat} (h : n ≤ m) (s : Str) :
    Below (v.conceptFromLabel n s) (v.conceptFromLabel m s) := by
  unfold conceptFromLabel
  below [labellee_below v h _]

theorem normalForm_below : ∀ {n m : Nat} (_ : n ≤ m) (c : CId),
    Below (v.normalForm n c) (v.normalForm m c) := by
  intro n
  induction n with
  | zero => intro m _ c; exact .inl rfl
  | succ n ih =>
    intro m h c
    obtain ⟨m, rfl⟩ : ∃ k, m = k + 1 := ⟨m - 1, by omega⟩
    have ih := fun c => ih (Nat.le_of_succ_le_succ h) c
    unfold normalForm
    below [ih _]

theorem label_below : ∀ {n m : Nat} (_ : n ≤ m) (c : CId),
    Below (v.label n c) (v.label m c) := by
  intro n
  induction n with
  | zero => intro m _ c; exact .inl rfl
  | succ n ih =>
    intro m h c
    obtain ⟨m, rfl⟩ : ∃ k, m = k + 1 := ⟨m - 1, by omega⟩
    have h' := Nat.le_of_succ_le_succ h
    have ih := fun c => ih h' c
    unfold label
    below [ih _, normalForm_below v h' _]

theorem contains_below : ∀ {n m : Nat} (_ : n ≤ m) (a b : CId),
    Below (v.contains n a b) (v.contains m a b) := by
  intro n
  induction n with
  | zero => intro m _ a b; exact .inl rfl
  | succ n ih =>
    intro m h a b
    obtain ⟨m, rfl⟩ : ∃ k, m = k + 1 := ⟨m - 1, by omega⟩
    have ih := fun a b => ih (Nat.le_of_succ_le_succ h) a b
    unfold contains
    below [ih _ _]

theorem checkReductions_below : ∀ {n m : Nat} (_ : n ≤ m) (a b : CId),
    Below (v.checkReductions n a b) (v.checkReductions m a b) := by
  intro n
  induction n with
  | zero => intro m _ a b; exact .inl rfl
  | succ n ih =>
    intro m h a b
    obtain ⟨m, rfl⟩ : ∃ k, m = k + 1 := ⟨m - 1, by omega⟩
    have h' := Nat.le_of_succ_le_succ h
    have ih := fun a b => ih h' a b
    unfold checkReductions
    below [ih _ _, contains_below v h' _ _]

theorem reductionOfComposition_below : ∀ {n m : Nat} (_ : n ≤ m),
    (∀ c, Below (v.reductionOfComposition n c) (v.reductionOfComposition m c)) ∧
      ∀ c, Below (v.reductionOrComposition n c) (v.reductionOrComposition m c) := by
  intro n
  induction n with
  | zero =>
    intro m _
    constructor
    · intro c; unfold reductionOfComposition; exact .inl rfl
    · intro c; unfold reductionOrComposition; exact .inl rfl
  | succ n ih =>
    intro m h
    obtain ⟨m, rfl⟩ : ∃ k, m = k + 1 := ⟨m - 1, by omega⟩
    obtain ⟨i1, i2⟩ := ih (Nat.le_of_succ_le_succ h)
    constructor
    · intro c
      unfold reductionOfComposition
      below [i2 _]
    · intro c
      unfold reductionOrComposition
      below [i1 _]

end View

/-! ## Searching -/

/-- Each recursive call of the first record either diverges or returns what the second returns. -/
structure SLe (S T : Search) : Prop where
  fuel : S.fuel ≤ T.fuel
  reduce : ∀ e t, BelowS (S.reduce e t) (T.reduce e t)
  toAst : ∀ e c, BelowS (S.toAst e c) (T.toAst e c)
  getAssoc : ∀ e t, BelowS (S.getAssoc e t) (T.getAssoc e t)
  recReduce : ∀ e t r, BelowS (S.recReduce e t r) (T.recReduce e t r)
  findEx : ∀ e g set k k', (∀ x, BelowS (k x) (k' x)) →
    BelowS (S.findEx e g set k) (T.findEx e g set k')
  evidence : ∀ e l r, BelowS (S.evidence e l r) (T.evidence e l r)
  expand : ∀ e t, BelowS (S.expand e t) (T.expand e t)

namespace Search

variable {S T : Search} (h : SLe S T)
include h

theorem concreteAst_below (e : Env) (t : CCT) :
    BelowS (S.concreteAst e t) (T.concreteAst e t) := by
  unfold concreteAst
  below [h.toAst _ _]

theorem displayJoint_below (e : Env) (l r : Syn) :
    BelowS (S.displayJoint e l r) (T.displayJoint e l r) := by
  unfold displayJoint
  below [h.getAssoc _ _]

theorem join_below (e : Env) (l r : Syn) : BelowS (S.join e l r) (T.join e l r) := by
  unfold join
  below [displayJoint_below h _ _ _]

theorem combine_below (e : Env) (l r : Syn) : BelowS (S.combine e l r) (T.combine e l r) := by
  unfold combine
  below [join_below h _ _ _]

theorem contractPair_below (e : Env) (l r : Syn) :
    BelowS (S.contractPair e l r) (T.contractPair e l r) := by
  unfold contractPair
  below [displayJoint_below h _ _ _, View.label_below _ h.fuel _]

theorem getAssocF_below (e : Env) (t : Syn) : BelowS (S.getAssocF e t) (T.getAssocF e t) := by
  unfold getAssocF
  below [combine_below h _ _ _, h.toAst _ _, h.reduce _ _]

theorem buildAst_below (e : Env) (id : CId) (c : Mixed) :
    BelowS (S.buildAst e id c) (T.buildAst e id c) := by
  unfold buildAst
  below [combine_below h _ _ _, h.toAst _ _, View.label_below _ h.fuel _]

theorem toAstF_below (e : Env) (id : CId) : BelowS (S.toAstF e id) (T.toAstF e id) := by
  unfold toAstF
  below [buildAst_below h _ _ _]

theorem substitute_below (e : Env) (m : Mask) (t : Syn) :
    BelowS (S.substitute e m t) (T.substitute e m t) := by
  induction t with
  | leaf s c l => unfold substitute; exact .refl _
  | branch s c l r f b ihl ihr =>
    unfold substitute
    below [contractPair_below h _ _ _]

theorem rightMatch_below (e : Env) (right : Syn) (er : CId) (le : ExSubst) :
    BelowS (S.rightMatch e right er le) (T.rightMatch e right er le) := by
  unfold rightMatch
  below [substitute_below h _ _ _, h.recReduce _ _ _, h.findEx _ _ _ _ _ fun _ => .refl _]

theorem findExample_below (e : Env) (g : Syn) (set : List CId) :
    BelowS (S.findExample e g set) (T.findExample e g set) :=
  h.findEx _ _ _ _ _ fun _ => .refl _

theorem halfStep_below (e : Env) (gen non : Syn) (hand : Hand) (id : CId) :
    BelowS (S.halfStep e gen non hand id) (T.halfStep e gen non hand id) := by
  unfold halfStep
  cases hand <;> below [findExample_below h _ _ _, h.toAst _ _]

omit h in
theorem findMap_below {α β : Type} {f g : α → SM (Option β)} (hf : ∀ a, BelowS (f a) (g a))
    (l : List α) : BelowS (findMap f l) (findMap g l) := by
  induction l with
  | nil => exact .refl _
  | cons a as ih =>
    unfold findMap
    below [hf _, ih]

theorem findExamples_below {β : Type} (e : Env) (gen : Syn) (set : List CId)
    {k k' : ExSubst → SM (Option β)} (hk : ∀ x, BelowS (k x) (k' x)) :
    BelowS (S.findExamples e gen set k) (T.findExamples e gen set k') := by
  unfold findExamples
  below [hk _, findMap_below (fun _ => halfStep_below h _ _ _ _ _) _, h.toAst _ _,
    h.findEx _ _ _ _ _ fun _ => rightMatch_below h _ _ _ _]
  · refine findMap_below (fun c => ?_) _
    below [hk _, h.toAst _ _]
  · refine findMap_below (fun c => ?_) _
    below [hk _, h.findEx _ _ _ _ _ fun _ => rightMatch_below h _ _ _ _]

theorem inferFrom_below (e e' : Env) (imp op t cond red : Syn) (subs : ExSubst) :
    BelowS (S.inferFrom e e' imp op t cond red subs) (T.inferFrom e e' imp op t cond red subs) := by
  unfold inferFrom
  below [substitute_below h _ _ _, h.recReduce _ _ _]

theorem findInferred_below (e : Env) (t : Syn) :
    BelowS (S.findInferred e t) (T.findInferred e t) := by
  unfold findInferred
  below [concreteAst_below h _ _, h.toAst _ _,
    findExamples_below h _ _ _ fun _ => inferFrom_below h _ _ _ _ _ _ _ _]

theorem inferStep_below (e : Env) (p : CId × CId) :
    BelowS (S.inferStep e p) (T.inferStep e p) := by
  unfold inferStep
  below [h.toAst _ _, h.reduce _ _]

theorem inferReduction_below (e : Env) (c : Mixed) :
    BelowS (S.inferReduction e c) (T.inferReduction e c) := by
  unfold inferReduction
  below [h.toAst _ _, findInferred_below h _ _, findMap_below (fun _ => inferStep_below h _ _) _]

theorem reduceConcept_below (e : Env) (id : CId) :
    BelowS (S.reduceConcept e id) (T.reduceConcept e id) := by
  unfold reduceConcept
  below [h.toAst _ _, inferReduction_below h _ _]

theorem genLoop_below (e : Env) (t : Syn) (red : AMap Key RR) (gs : List CId) :
    BelowS (S.genLoop e t red gs) (T.genLoop e t red gs) := by
  induction gs generalizing red with
  | nil => exact .refl _
  | cons g gs ih =>
    unfold genLoop
    below [ih _, h.toAst _ _, reduceConcept_below h _ _, substitute_below h _ _ _]

theorem recursivelyReducePair_below (e : Env) (l r : Syn) :
    BelowS (S.recursivelyReducePair e l r) (T.recursivelyReducePair e l r) := by
  unfold recursivelyReducePair
  below [h.reduce _ _, contractPair_below h _ _ _, genLoop_below h _ _ _ _]

theorem compareSide_below (e : Env) (red : AMap Key RR) (t : Syn) :
    BelowS (S.compareSide e red t) (T.compareSide e red t) := by
  unfold compareSide
  below [h.recReduce _ _ _]

theorem compare_below (e : Env) (a b : Syn) : BelowS (S.compare e a b) (T.compare e a b) := by
  unfold compare
  below [h.toAst _ _, combine_below h _ _ _, compareSide_below h _ _ _]

theorem evidenceF_below (e : Env) (l r : Syn) :
    BelowS (S.evidenceF e l r) (T.evidenceF e l r) := by
  unfold evidenceF
  below [h.reduce _ _, h.evidence _ _ _]

theorem reductionTruth_below (e : Env) (l r : Syn) :
    BelowS (S.reductionTruth e l r) (T.reductionTruth e l r) := by
  unfold reductionTruth
  below [h.evidence _ _ _]

theorem reduceByRight_below (e : Env) (l rl rr : Syn) :
    BelowS (S.reduceByRight e l rl rr) (T.reduceByRight e l rl rr) := by
  unfold reduceByRight
  below [compare_below h _ _ _, reductionTruth_below h _ _ _, concreteAst_below h _ _]

theorem reduceByLeft_below (e : Env) (ll lr r : Syn) :
    BelowS (S.reduceByLeft e ll lr r) (T.reduceByLeft e ll lr r) := by
  unfold reduceByLeft
  below [findExample_below h _ _ _, h.toAst _ _]

theorem reducePair_below (e : Env) (l r : Syn) :
    BelowS (S.reducePair e l r) (T.reducePair e l r) := by
  unfold reducePair
  below [reduceByRight_below h _ _ _ _, reduceByLeft_below h _ _ _ _,
    recursivelyReducePair_below h _ _ _]

theorem reduceNow_below (e : Env) (t : Syn) : BelowS (S.reduceNow e t) (T.reduceNow e t) := by
  unfold reduceNow
  below [reduceConcept_below h _ _, reducePair_below h _ _ _]

theorem reduceF_below (e : Env) (t : Syn) : BelowS (S.reduceF e t) (T.reduceF e t) := by
  unfold reduceF
  below [reduceNow_below h _ _]

theorem recReduceF_below (e : Env) (t : Syn) (r : Option Reason) :
    BelowS (S.recReduceF e t r) (T.recReduceF e t r) := by
  unfold recReduceF
  below [h.reduce _ _, h.recReduce _ _ _]

theorem expandF_below (e : Env) (t : Syn) : BelowS (S.expandF e t) (T.expandF e t) := by
  unfold expandF
  below [h.toAst _ _, h.expand _ _, combine_below h _ _ _]

theorem step_le : SLe S.step T.step where
  fuel := Nat.succ_le_succ h.fuel
  reduce := reduceF_below h
  toAst := toAstF_below h
  getAssoc := getAssocF_below h
  recReduce := recReduceF_below h
  findEx _ _ _ _ _ hk := findExamples_below h _ _ _ hk
  evidence := evidenceF_below h
  expand := expandF_below h

end Search

theorem bottom_le (S : Search) : SLe Search.bottom S where
  fuel := Nat.zero_le _
  reduce _ _ := .diverge _
  toAst _ _ := .diverge _
  getAssoc _ _ := .diverge _
  recReduce _ _ _ := .diverge _
  findEx _ _ _ _ _ _ := .diverge _
  evidence _ _ _ := .diverge _
  expand _ _ := .diverge _

theorem search_le : ∀ {n m : Nat} (_ : n ≤ m), SLe (search n) (search m) := by
  intro n
  induction n with
  | zero => intro m _; exact bottom_le _
  | succ n ih =>
    intro m h
    obtain ⟨m, rfl⟩ : ∃ k, m = k + 1 := ⟨m - 1, by omega⟩
    exact Search.step_le (ih (Nat.le_of_succ_le_succ h))

/-! ## Changing the context -/

namespace Updater

variable {n m : Nat} (h : n ≤ m)
include h

theorem updateReduction_below (c : CId) (syn : Str) (r : CId) :
    BelowC (updateReduction n c syn r) (updateReduction m c syn r) := by
  unfold updateReduction
  below [View.normalForm_below _ h _, (View.reductionOfComposition_below _ h).1 _]

theorem label_below (c : CId) (syn string : Str) :
    BelowC (label n c syn string) (label m c syn string) := by
  unfold label
  below [updateReduction_below h _ _ _]

theorem relabel_below (c : CId) (syn new : Str) :
    BelowC (relabel n c syn new) (relabel m c syn new) := by
  unfold relabel
  below [label_below h _ _ _]

theorem conceptFromAst_below (t : Syn) : BelowC (conceptFromAst n t) (conceptFromAst m t) := by
  induction t with
  | leaf s c l =>
    unfold conceptFromAst
    below [View.conceptFromLabel_below _ h _]
  | branch s c l r f b ihl ihr =>
    unfold conceptFromAst
    below [View.conceptFromLabel_below _ h _, label_below h _ _ _]

theorem insertComposition_below (c l r : CId) :
    BelowC (insertComposition n c l r) (insertComposition m c l r) := by
  unfold insertComposition
  below [View.contains_below _ h _ _, View.checkReductions_below _ h _ _]

theorem redefine_below (c : CId) (l r : Syn) : BelowC (redefine n c l r) (redefine m c l r) := by
  unfold redefine
  below [conceptFromAst_below h _, insertComposition_below h _ _ _]

theorem redefineComposition_below (c : CId) (l r : Syn) (a b : Str) :
    BelowC (redefineComposition n c l r a b) (redefineComposition m c l r a b) := by
  unfold redefineComposition
  below [relabel_below h _ _ _, redefine_below h _ _ _]

theorem defineNewSyntax_below (syn : Str) (l r : Syn) :
    BelowC (defineNewSyntax n syn l r) (defineNewSyntax m syn l r) := by
  unfold defineNewSyntax
  below [conceptFromAst_below h _]

end Updater

/-! ## Reading text -/

namespace Parser

variable {n m : Nat} (h : n ≤ m)
include h

theorem conceptKind_below (v : View) (s : Str) :
    Below (conceptKind v n s) (conceptKind v m s) := by
  unfold conceptKind
  below [View.conceptFromLabel_below _ h _]

theorem astFromLeaf_below (l : SLeaf) (s : Str) (c : Option CId) :
    BelowC (astFromLeaf n l s c) (astFromLeaf m l s c) := by
  unfold astFromLeaf
  below [View.conceptFromLabel_below _ h _]

theorem astFromPair_below (l r : Syn) : BelowC (astFromPair n l r) (astFromPair m l r) := by
  unfold astFromPair
  below [Search.combine_below (search_le h) _ _ _]

theorem precedes_below (a b : CId) : BelowC (precedes n a b) (precedes m a b) := by
  have hs := search_le h
  unfold precedes
  below [Search.combine_below hs _ _ _, Search.concreteAst_below hs _ _, hs.toAst _ _,
    hs.recReduce _ _ _]

theorem rankStep_below (a b : CId) : BelowC (rankStep (precedes n) a b) (rankStep (precedes m) a b) := by
  unfold rankStep
  below [precedes_below h _ _]

theorem rank_below (c : CId) (ls : List CId) : BelowC (rank (precedes n) c ls) (rank (precedes m) c ls) := by
  induction ls with
  | nil => exact .refl _
  | cons l ls ih =>
    unfold rank
    below [rankStep_below h _ _]

theorem lowest_below (acc cs : List CId) : BelowC (lowest (precedes n) acc cs) (lowest (precedes m) acc cs) := by
  induction cs generalizing acc with
  | nil => exact .refl _
  | cons c cs ih =>
    unfold lowest
    below [rank_below h _ _, ih _]

theorem lowestPrecedenceInfo_below (ts : List Syn) :
    BelowC (lowestPrecedenceInfo (precedes n) ts) (lowestPrecedenceInfo (precedes m) ts) := by
  unfold lowestPrecedenceInfo
  below [lowest_below h _ _]

theorem commonAssoc_below (a : Option Assoc) (ts : List Syn) :
    BelowC (commonAssoc n a ts) (commonAssoc m a ts) := by
  induction ts generalizing a with
  | nil => exact .refl _
  | cons t ts ih =>
    unfold commonAssoc
    below [(search_le h).getAssoc _ _, ih _]

theorem sliceAst_below {p q : List Syn → CM Syn} (hp : ∀ l, BelowC (p l) (q l)) (slice : List Syn)
    (lp : Nat) (a : Assoc) : BelowC (sliceAst n p slice lp a) (sliceAst m q slice lp a) := by
  unfold sliceAst
  cases a <;> below [hp _, Search.combine_below (search_le h) _ _ _]

theorem handler_below {p q : List Syn → CM Syn} (hp : ∀ l, BelowC (p l) (q l)) (ts : List Syn)
    (st : Option (Syn × Nat)) (lp : Nat) (a : Assoc) :
    BelowC (handler n p ts st lp a) (handler m q ts st lp a) := by
  unfold handler
  cases a <;> below [sliceAst_below h hp _ _ _, Search.combine_below (search_le h) _ _ _]

theorem rightLoop_below {p q : List Syn → CM Syn} (hp : ∀ l, BelowC (p l) (q l)) (ts : List Syn)
    (st : Option (Syn × Nat)) (lps : List Nat) :
    BelowC (rightLoop n p ts st lps) (rightLoop m q ts st lps) := by
  induction lps generalizing st with
  | nil => exact .refl _
  | cons lp rest ih =>
    unfold rightLoop
    below [handler_below h hp _ _ _ _, ih _]

theorem leftLoop_below {p q : List Syn → CM Syn} (hp : ∀ l, BelowC (p l) (q l)) (ts : List Syn)
    (st : Option (Syn × Nat)) (lps : List Nat) :
    BelowC (leftLoop n p ts st lps) (leftLoop m q ts st lps) := by
  induction lps generalizing st with
  | nil => exact .refl _
  | cons lp rest ih =>
    unfold leftLoop
    below [handler_below h hp _ _ _ _, ih _]

theorem leftCase_below {p q : List Syn → CM Syn} (hp : ∀ l, BelowC (p l) (q l)) (ts : List Syn)
    (lps : List Nat) : BelowC (leftCase n p ts lps) (leftCase m q ts lps) := by
  unfold leftCase
  below [leftLoop_below h hp _ _ _]

theorem astFromList_below (k : Nat) (ts : List Syn) :
    BelowC (astFromList n k ts) (astFromList m k ts) := by
  unfold astFromList
  induction k generalizing ts with
  | zero => match ts with
    | [] => exact .refl _
    | [_] => exact .refl _
    | [_, _] => exact .refl _
    | _ :: _ :: _ :: _ => exact .refl _
  | succ k ih => match ts with
    | [] => exact .refl _
    | [_] => exact .refl _
    | [_, _] => exact .refl _
    | x :: y :: z :: ts =>
      rw [astFromListWith, astFromListWith]
      · below [lowestPrecedenceInfo_below h _, commonAssoc_below h _ _,
          rightLoop_below h ih _ _ _, leftCase_below h ih _ _, ih _,
          Search.combine_below (search_le h) _ _ _]
      all_goals simp

mutual

theorem astFromNested_below : ∀ t : NST, BelowC (astFromNested n t) (astFromNested m t)
  | .leaf l s c => by
    unfold astFromNested
    exact astFromLeaf_below h _ _ _
  | .parent children _ _ => by
    unfold astFromNested
    below [astsFromNested_below children, astFromPair_below h _ _, astFromList_below h _ _]

theorem astsFromNested_below : ∀ ts : List NST, BelowC (astsFromNested n ts) (astsFromNested m ts)
  | [] => .refl _
  | c :: cs => by
    unfold astsFromNested
    below [astFromNested_below c, astsFromNested_below cs]

end

theorem syntaxList_below (t : NST) : BelowC (syntaxList n t) (syntaxList m t) := by
  cases t with
  | leaf l s c =>
    unfold syntaxList
    below [astFromLeaf_below h _ _ _]
  | parent children a b =>
    unfold syntaxList
    exact astsFromNested_below h children

omit h in
theorem lexLoop_below {p q : Str → Except Fault Kind} (hp : ∀ s, Below (p s) (q s)) (st : LexState)
    (s : Str) : Below (lexLoop p st s) (lexLoop q st s) := by
  induction s generalizing st with
  | nil => exact .refl _
  | cons c cs ih =>
    unfold lexLoop
    refine Below.bind ?_ fun st => ih st
    unfold lexStep
    below [hp _]

theorem astFromExpression_below (s : Str) :
    BelowC (astFromExpression n s) (astFromExpression m s) := by
  unfold astFromExpression lex
  below [lexLoop_below (conceptKind_below h _) _ _, syntaxList_below h _, astFromList_below h _ _]

end Parser

/-! ## Commands -/

namespace Context

theorem onError_below {α : Type} (e : ZiaError) {a b x y : CM α} (h1 : BelowC a b)
    (h2 : BelowC x y) : BelowC (onError e a x) (onError e b y) := by
  unfold onError
  below []

theorem pinning_below {α : Type} {a b : CM α} (h : BelowC a b) :
    BelowC (pinning a) (pinning b) := by
  unfold pinning
  below []

theorem foldlM_below {σ τ : Type} {f g : σ → τ → Except Fault σ}
    (h : ∀ c s, Below (f c s) (g c s)) (l : List τ) (c : σ) :
    Below (l.foldlM f c) (l.foldlM g c) := by
  induction l generalizing c with
  | nil => exact .refl _
  | cons s ss ih =>
    rw [List.foldlM_cons, List.foldlM_cons]
    exact Below.bind (h c s) fun c => ih c

theorem setup_below {f g : Ctx → Str → Except Fault Ctx} (h : ∀ c s, Below (f c s) (g c s))
    (x : Except Fault Ctx) (l : List Str) :
    Below (x >>= fun c => l.foldlM f c) (x >>= fun c => l.foldlM g c) :=
  Below.bind (.refl x) fun c => foldlM_below h l c

section

variable {n m : Nat} (h : n ≤ m)
include h

theorem executeReduction_below (t nf : Syn) :
    BelowC (executeReduction n t nf) (executeReduction m t nf) := by
  unfold executeReduction
  below [(search_le h).reduce _ _, Search.findInferred_below (search_le h) _ _,
    Updater.conceptFromAst_below h _, Updater.updateReduction_below h _ _ _]

theorem define_below (a b : Syn) : BelowC (define n a b) (define m a b) := by
  unfold define
  below [Updater.relabel_below h _ _ _, Updater.label_below h _ _ _,
    Updater.defineNewSyntax_below h _ _ _, (search_le h).toAst _ _,
    Updater.redefineComposition_below h _ _ _ _ _, Updater.redefine_below h _ _ _]

theorem executeComposition_below (a b : Syn) :
    BelowC (executeComposition n a b) (executeComposition m a b) := by
  unfold executeComposition
  below [define_below h _ _]

theorem matchRighthandPair_below : ∀ {k k' : Nat} (_ : k ≤ k') (a b c : Syn),
    BelowC (matchRighthandPair n k a b c) (matchRighthandPair m k' a b c) := by
  intro k
  induction k with
  | zero => intro k' _ a b c; exact .diverge _
  | succ k ih =>
    intro k' hk a b c
    obtain ⟨k', rfl⟩ : ∃ j, k' = j + 1 := ⟨k' - 1, by omega⟩
    have ih := fun a b c => ih (Nat.le_of_succ_le_succ hk) a b c
    unfold matchRighthandPair
    below [executeReduction_below h _ _, executeComposition_below h _ _, (search_le h).toAst _ _,
      ih _ _ _]

theorem callLet_below (r : Syn) : BelowC (callLet n r) (callLet m r) := by
  unfold callLet
  refine BelowC.bind ?_ fun b => ?_
  · unfold executeLet
    cases r.expansion with
    | none => exact .refl _
    | some lr =>
      obtain ⟨l, r⟩ := lr
      simp only
      cases r.expansion with
      | none => exact .refl _
      | some x =>
        obtain ⟨rl, rr⟩ := x
        exact onError_below _ (onError_below _ (BelowC.bind
          (matchRighthandPair_below h h _ _ _) fun _ => .refl _) (.refl _)) (.refl _)
  · below [Search.concreteAst_below (search_le h) _ _, executeReduction_below h _ _]

theorem callLabel_below (r : Syn) : BelowC (callLabel n r) (callLabel m r) := by
  unfold callLabel
  below [View.label_below _ h _]

theorem call_below : ∀ {k k' : Nat} (_ : k ≤ k'),
    (∀ t, BelowC (call n k t) (call m k' t)) ∧
    (∀ l r, BelowC (callPair n k l r) (callPair m k' l r)) ∧
    (∀ l r, BelowC (reduceAndCallPair n k l r) (reduceAndCallPair m k' l r)) ∧
    ∀ t, BelowC (tryReducing n k t) (tryReducing m k' t) := by
  have hs := search_le h
  intro k
  induction k with
  | zero =>
    intro k' _
    refine ⟨fun t => ?_, fun l r => ?_, fun l r => ?_, fun t => ?_⟩
    · unfold call; exact .diverge _
    · unfold callPair; exact .diverge _
    · unfold reduceAndCallPair; exact .diverge _
    · unfold tryReducing; exact .diverge _
  | succ k ih =>
    intro k' hk
    obtain ⟨k', rfl⟩ : ∃ j, k' = j + 1 := ⟨k' - 1, by omega⟩
    obtain ⟨i1, i2, i3, i4⟩ := ih (Nat.le_of_succ_le_succ hk)
    refine ⟨fun t => ?_, fun l r => ?_, fun l r => ?_, fun t => ?_⟩
    · unfold call
      refine BelowC.bind (.refl _) fun o => ?_
      cases o with
      | some s => exact .refl _
      | none =>
        cases t.expansion with
        | none => exact onError_below _ (i4 _) (.refl _)
        | some lr =>
          refine onError_below _ (i2 _ _) (onError_below _ (i4 _) ?_)
          below [Search.contractPair_below hs _ _ _]
    · unfold callPair
      below [callLet_below h _, callLabel_below h _, i4 _, i3 _ _]
    · unfold reduceAndCallPair
      below [hs.reduce _ _, i2 _ _]
    · unfold tryReducing
      below [hs.recReduce _ _ _, Search.findInferred_below hs _ _, pinning_below (i1 _)]

theorem command_below (s : Str) : BelowC (command n s) (command m s) := by
  unfold command
  below [Parser.astFromExpression_below h _, (search_le h).expand _ _, (call_below h h).1 _]

theorem execute_below (c : Ctx) (s : Str) : Below (execute n c s) (execute m c s) := by
  unfold execute
  exact Below.bind (command_below h s c) fun _ => .refl _

theorem setupStep_below (c : Ctx) (s : Str) : Below (setupStep n c s) (setupStep m c s) := by
  unfold setupStep
  below [execute_below h _ _]

theorem new_below : Below (new n) (new m) :=
  setup_below (setupStep_below h) labelled setupCommands

theorem run_below (c : Ctx) (ss : List Str) : Below (run n c ss) (run m c ss) := by
  induction ss generalizing c with
  | nil => exact .refl _
  | cons s ss ih =>
    unfold run
    below [execute_below h _ _, ih _]

end

end Context

end Zia

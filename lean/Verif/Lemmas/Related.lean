import Verif.Lemmas.Monad
import Verif.Lemmas.Remember
import Verif.Context

/-!
# Relations between the contexts before and after a command

A relation that holds for each of the elementary steps holds for every command.
-/

namespace Zia

open CM

set_option linter.unusedSectionVars false

variable [HashOrder]

/-- A relation that holds for every elementary step of a command, except for the naming of variables. -/
structure Loose (R : Ctx → Ctx → Prop) : Prop where
  refl : ∀ c, R c c
  trans : ∀ {a b c}, R a b → R b c → R a c
  cache : ∀ {α : Type} (f : Env → SM α) c a ca, (∀ e, ViewOk e.view → Minds (f e)) →
    f (env c) c.cache = .ok (a, ca) → R c { c with cache := ca }
  update : ∀ c dd d id, c.delta.update dd = .ok (d, id) → R c { c with delta := d, cache := .empty }
  bound : ∀ c b, R c { c with bound := b }
  pin : ∀ {c c' : Ctx}, R { c with pinned := true } c' → R c { c' with pinned := c.pinned }

/-- The relation holds between the contexts before and after every end of the computation. -/
def Related {α : Type} (R : Ctx → Ctx → Prop) (m : CM α) : Prop :=
  ∀ c, Ends m c (fun _ c' => R c c')

namespace Related

variable {α β : Type} {R : Ctx → Ctx → Prop} (L : Loose R)
include L

theorem bind {m : CM α} {f : α → CM β} (h : Related R m) (hf : ∀ a, Related R (f a)) :
    Related R (m >>= f) := by
  intro c
  refine Ends.bind ((h c).mono fun r c1 h1 => ?_)
  cases r with
  | ok a => exact (hf a c1).mono fun r c2 h2 => L.trans h1 h2
  | error e => exact h1

theorem pure (a : β) : Related R (Pure.pure a : CM β) := fun c => Ends.pure (L.refl c)

theorem throw (e : ZiaError) : Related R (MonadExcept.throw e : CM β) :=
  fun c => Ends.throw (L.refl c)

omit L in
theorem fault (f : Fault) : Related R (CM.fault f : CM β) := fun _ => Ends.fault

theorem ofE (x : Except Fault β) : Related R (CM.ofE x) := fun c => Ends.ofE fun _ _ => L.refl c

theorem ofR (x : Except ZiaError β) : Related R (CM.ofR x) := fun c => Ends.ofR (L.refl c)

theorem get : Related R (MonadState.get : CM Ctx) := fun c => Ends.get (L.refl c)

theorem view : Related R CM.view := fun c => Ends.view (L.refl c)

theorem bound (f : Ctx → List Key) :
    Related R (_root_.modify (fun c => { c with bound := f c }) : CM Unit) :=
  fun c => Ends.modify (L.bound c _)

theorem reading (f : View → Except Fault β) : Related R (CM.reading f) :=
  fun c => Ends.reading fun _ _ => L.refl c

theorem searching {f : Env → SM β} (hf : ∀ e, ViewOk e.view → Minds (f e)) : Related R (CM.searching f) :=
  fun c => Ends.searching fun a ca h => L.cache f c a ca hf h

theorem exclusive : Related R CM.exclusive :=
  fun c => Ends.exclusive (fun _ => L.refl c) (fun _ => L.refl c)

theorem update (dd : Direct CId) : Related R (CM.update dd) :=
  fun c => Ends.update fun d id h => L.update c dd d id h

theorem tryCatch {m : CM β} {f : ZiaError → CM β} (h : Related R m) (hf : ∀ e, Related R (f e)) :
    Related R (MonadExcept.tryCatch m f : CM β) := by
  intro c
  refine Ends.tryCatch ((h c).mono fun r c1 h1 => ?_)
  cases r with
  | ok a => exact h1
  | error e => exact (hf e c1).mono fun r c2 h2 => L.trans h1 h2

omit L in
theorem ite {P : Prop} [Decidable P] {a b : CM β} (ha : Related R a) (hb : Related R b) :
    Related R (if P then a else b) := by split <;> assumption

end Related

/-- The search is one of those that commands make. -/
macro "sound_search" : tactic => `(tactic| (
  intro e he
  minds [(search_minds _).toAst _ he _, (search_minds _).reduce _ he _, (search_minds _).recReduce _ he _ _,
    (search_minds _).getAssoc _ he _, (search_minds _).expand _ he _, Search.combine_minds (search_minds _) _ he _ _,
    Search.concreteAst_minds (search_minds _) _ he _, Search.contractPair_minds (search_minds _) _ he _ _,
    Search.findInferred_minds (search_minds _) _ he _]))

/-- One structural step. -/
macro "related_step" L:ident : tactic => `(tactic| first
  | with_reducible assumption
  | with_reducible exact Related.pure $L _
  | with_reducible exact Related.throw $L _
  | with_reducible exact Related.fault _
  | with_reducible exact Related.ofE $L _
  | with_reducible exact Related.ofR $L _
  | with_reducible exact Related.get $L
  | with_reducible exact Related.view $L
  | with_reducible exact Related.exclusive $L
  | with_reducible exact Related.reading $L _
  | with_reducible exact Related.searching $L (by sound_search)
  | with_reducible exact Related.update $L _
  | with_reducible exact Related.bound $L _
  | with_reducible refine Related.bind $L ?_ fun _ => ?_
  | with_reducible refine Related.tryCatch $L ?_ fun _ => ?_
  | dsimp only
  | split)

/-- Structural steps, with further lemmas for the functions that are called. -/
macro "related" L:ident "[" ts:term,* "]" : tactic =>
  `(tactic| repeat' first $[| with_reducible exact $ts]* | related_step $L)

variable {R : Ctx → Ctx → Prop} (L : Loose R)
include L

namespace Updater

theorem newLabelledConcept_related (s : Str) (t : Option CCT) (l : Option CId) :
    Related R (newLabelledConcept s t l) := by
  unfold newLabelledConcept
  related L []

theorem deleteReduction_related (c : CId) (syn : Str) : Related R (deleteReduction c syn) := by
  unfold deleteReduction
  related L []

theorem unlabel_related (c : CId) (syn : Str) : Related R (unlabel c syn) := by
  unfold unlabel
  related L [deleteReduction_related L _ _]

theorem findOrInsertComposition_related (l r : CId) :
    Related R (findOrInsertComposition l r) := by
  unfold findOrInsertComposition
  related L []

theorem updateReduction_related (n : Nat) (c : CId) (syn : Str) (r : CId) :
    Related R (updateReduction n c syn r) := by
  unfold updateReduction
  related L []

theorem label_related (n : Nat) (c : CId) (syn string : Str) :
    Related R (label n c syn string) := by
  unfold label
  related L [findOrInsertComposition_related L _ _, updateReduction_related L _ _ _ _]

theorem relabel_related (n : Nat) (c : CId) (syn new : Str) : Related R (relabel n c syn new) := by
  unfold relabel
  related L [unlabel_related L _ _, label_related L _ _ _ _]

theorem conceptFromAst_related (n : Nat) (t : Syn) : Related R (conceptFromAst n t) := by
  induction t with
  | leaf s c k =>
    unfold conceptFromAst
    related L [newLabelledConcept_related L _ _ _]
  | branch s c l r f b ihl ihr =>
    unfold conceptFromAst
    related L [findOrInsertComposition_related L _ _, label_related L _ _ _ _]

theorem insertComposition_related (n : Nat) (c l r : CId) :
    Related R (insertComposition n c l r) := by
  unfold insertComposition
  related L []

theorem redefine_related (n : Nat) (c : CId) (l r : Syn) : Related R (redefine n c l r) := by
  unfold redefine
  related L [conceptFromAst_related L _ _, insertComposition_related L _ _ _ _]

theorem redefineComposition_related (n : Nat) (c : CId) (l r : Syn) (ol or : Str) :
    Related R (redefineComposition n c l r ol or) := by
  unfold redefineComposition
  related L [relabel_related L _ _ _ _, redefine_related L _ _ _ _]

theorem defineNewSyntax_related (n : Nat) (syn : Str) (l r : Syn) :
    Related R (defineNewSyntax n syn l r) := by
  unfold defineNewSyntax
  related L [conceptFromAst_related L _ _]

theorem blindlyRemove_related (c : CId) : Related R (blindlyRemove c) := by
  unfold blindlyRemove
  related L []

theorem removeString_related (s : Str) : Related R (removeString s) := by
  unfold removeString
  related L [blindlyRemove_related L _]

theorem removeConcept_related (c : CId) : Related R (removeConcept c) := by
  unfold removeConcept
  related L [removeString_related L _, blindlyRemove_related L _]

theorem tryDeleteConcept_related (c : CId) (syn : Str) : Related R (tryDeleteConcept c syn) := by
  unfold tryDeleteConcept
  related L [unlabel_related L _ _, removeConcept_related L _]

end Updater

namespace Parser

theorem astFromLeaf_related (n : Nat) (l : SLeaf) (s : Str) (c : Option CId) :
    Related R (astFromLeaf n l s c) := by
  unfold astFromLeaf
  related L [Updater.newLabelledConcept_related L _ _ _]

theorem astFromPair_related (n : Nat) (l r : Syn) : Related R (astFromPair n l r) := by
  unfold astFromPair
  related L []

theorem precedes_related (n : Nat) (a b : CId) : Related R (precedes n a b) :=
  Related.searching L (by sound_search)

theorem rankStep_related (n : Nat) (c l : CId) : Related R (rankStep (precedes n) c l) := by
  have rest : ∀ o, Related R (rankStep.unknown o) := by
    intro o
    unfold rankStep.unknown
    related L []
  unfold rankStep
  related L [precedes_related L _ _ _, rest _]

theorem rank_related (n : Nat) (c : CId) (ls : List CId) : Related R (rank (precedes n) c ls) := by
  induction ls with
  | nil => unfold rank; exact Related.pure L _
  | cons l ls ih =>
    unfold rank
    related L [rankStep_related L _ _ _, ih]

theorem lowest_related (n : Nat) (acc cs : List CId) : Related R (lowest (precedes n) acc cs) := by
  induction cs generalizing acc with
  | nil => unfold lowest; exact Related.pure L _
  | cons c cs ih =>
    unfold lowest
    related L [rank_related L _ _ _, ih _]

theorem lowestPrecedenceInfo_related (n : Nat) (ts : List Syn) :
    Related R (lowestPrecedenceInfo (precedes n) ts) := by
  unfold lowestPrecedenceInfo
  related L [lowest_related L _ _ _]

theorem commonAssoc_related (n : Nat) (a : Option Assoc) (ts : List Syn) :
    Related R (commonAssoc n a ts) := by
  induction ts generalizing a with
  | nil => unfold commonAssoc; exact Related.pure L _
  | cons t ts ih =>
    unfold commonAssoc
    related L [ih _]

theorem sliceAst_related (n : Nat) {parse : List Syn → CM Syn} (h : ∀ ts, Related R (parse ts))
    (slice : List Syn) (lp : Nat) (a : Assoc) : Related R (sliceAst n parse slice lp a) := by
  unfold sliceAst
  related L [h _]

theorem handler_related (n : Nat) {parse : List Syn → CM Syn} (h : ∀ ts, Related R (parse ts))
    (ts : List Syn) (st : Option (Syn × Nat)) (lp : Nat) (a : Assoc) :
    Related R (handler n parse ts st lp a) := by
  unfold handler
  related L [sliceAst_related L n h _ _ _]

theorem rightLoop_related (n : Nat) {parse : List Syn → CM Syn} (h : ∀ ts, Related R (parse ts))
    (ts : List Syn) (st : Option (Syn × Nat)) (lps : List Nat) :
    Related R (rightLoop n parse ts st lps) := by
  induction lps generalizing st with
  | nil => unfold rightLoop; exact Related.pure L _
  | cons lp rest ih =>
    unfold rightLoop
    related L [handler_related L n h _ _ _ _, ih _]

theorem leftLoop_related (n : Nat) {parse : List Syn → CM Syn} (h : ∀ ts, Related R (parse ts))
    (ts : List Syn) (st : Option (Syn × Nat)) (lps : List Nat) :
    Related R (leftLoop n parse ts st lps) := by
  induction lps generalizing st with
  | nil => unfold leftLoop; exact Related.pure L _
  | cons lp rest ih =>
    unfold leftLoop
    exact Related.bind L (handler_related L n h _ _ _ _) fun _ => ih _

theorem leftCase_related (n : Nat) {parse : List Syn → CM Syn} (h : ∀ ts, Related R (parse ts))
    (ts : List Syn) (lps : List Nat) : Related R (leftCase n parse ts lps) := by
  unfold leftCase
  related L [leftLoop_related L n h _ _ _]

theorem astFromList_related (n k : Nat) (ts : List Syn) : Related R (astFromList n k ts) := by
  unfold astFromList
  induction k generalizing ts with
  | zero =>
    unfold astFromListWith
    split <;> first | exact Related.pure L _ | exact Related.fault _ | (rename_i h _ _ _; cases h)
  | succ k ih =>
    unfold astFromListWith
    split
    · exact Related.fault _
    · exact Related.pure L _
    · exact Related.pure L _
    · rename_i h _ _ _; cases h
    · rename_i h _ _ _; cases h
      related L [lowestPrecedenceInfo_related L _ _, commonAssoc_related L _ _ _,
        rightLoop_related L n ih _ _ _, leftCase_related L n ih _ _, ih _]

mutual

theorem astFromNested_related (n : Nat) : ∀ t : NST, Related R (astFromNested n t)
  | .leaf l s c => by
    unfold astFromNested
    exact astFromLeaf_related L _ _ _ _
  | .parent children _ _ => by
    unfold astFromNested
    refine Related.bind L (astsFromNested_related n children) fun ts => ?_
    split
    · exact astFromPair_related L _ _ _
    · exact astFromList_related L _ _ _

theorem astsFromNested_related (n : Nat) : ∀ ts : List NST, Related R (astsFromNested n ts)
  | [] => by
    unfold astsFromNested
    exact Related.pure L _
  | c :: cs => by
    unfold astsFromNested
    refine Related.bind L (astFromNested_related n c) fun t => ?_
    exact Related.bind L (astsFromNested_related n cs) fun ts => Related.pure L _

end

theorem astFromExpression_related (n : Nat) (s : Str) : Related R (astFromExpression n s) := by
  unfold astFromExpression
  refine Related.bind L (Related.reading L _) fun ls => ?_
  refine Related.bind L (Related.ofR L _) fun t => ?_
  refine Related.bind L ?_ fun ts => astFromList_related L _ _ _
  cases t with
  | leaf l s c =>
    unfold syntaxList
    exact Related.bind L (astFromLeaf_related L _ _ _ _) fun _ => Related.pure L _
  | parent children _ _ =>
    unfold syntaxList
    exact astsFromNested_related L _ _

/-- The naming of variables, for relations that allow it. -/
theorem createVariables_related (V : ∀ c v, R c { c with vars := v }) (t : Syn) :
    Related R (createVariables t) := by
  have hv : ∀ f : Ctx → AMap Str CId,
      Related R (_root_.modify (fun c => { c with vars := f c }) : CM Unit) :=
    fun f c => Ends.modify (V c _)
  induction t with
  | branch s c l r f b ihl ihr =>
    unfold createVariables
    related L []
  | leaf s c k =>
    cases k with
    | «variable» =>
      unfold createVariables
      related L [hv _]
    | _ =>
      unfold createVariables
      exact Related.pure L _

end Parser

namespace Context

theorem onError_related {α : Type} (e : ZiaError) {m h : CM α} (hm : Related R m) (hh : Related R h) :
    Related R (onError e m h) :=
  Related.tryCatch L hm fun _ => Related.ite hh (Related.throw L _)

theorem tryRemovingReduction_related (t : Syn) : Related R (tryRemovingReduction t) := by
  unfold tryRemovingReduction
  refine Related.bind L (Related.exclusive L) fun _ => ?_
  split
  · exact Related.bind L (Related.ofE L _) fun _ => Updater.deleteReduction_related L _ _
  · exact Related.bind L (Related.ofE L _) fun _ => Related.throw L _

theorem executeReduction_related (n : Nat) (t nf : Syn) : Related R (executeReduction n t nf) := by
  unfold executeReduction
  related L [tryRemovingReduction_related L _, Updater.conceptFromAst_related L _ _,
    Updater.updateReduction_related L _ _ _ _]

theorem define_related (n : Nat) (new old : Syn) : Related R (define n new old) := by
  unfold define
  related L [Updater.relabel_related L _ _ _ _, Updater.label_related L _ _ _ _, Updater.unlabel_related L _ _,
    Updater.defineNewSyntax_related L _ _ _ _, Updater.tryDeleteConcept_related L _ _,
    Updater.redefineComposition_related L _ _ _ _ _ _, Updater.redefine_related L _ _ _ _]

theorem executeComposition_related (n : Nat) (new old : Syn) :
    Related R (executeComposition n new old) := by
  unfold executeComposition
  related L [define_related L _ _ _]

theorem matchRighthandPair_related (n k : Nat) (l rl rr : Syn) :
    Related R (matchRighthandPair n k l rl rr) := by
  induction k generalizing rl with
  | zero => unfold matchRighthandPair; exact Related.fault _
  | succ k ih =>
    unfold matchRighthandPair
    split
    · exact Related.throw L _
    · refine Related.bind L (Related.reading L _) fun o => ?_
      split
      · exact executeReduction_related L _ _ _
      · exact executeComposition_related L _ _ _
      · refine Related.bind L (Related.reading L _) fun m => ?_
        split
        · exact Related.throw L _
        · exact Related.bind L (Related.searching L (by sound_search)) fun t => ih _

theorem callLet_related (n : Nat) (right : Syn) : Related R (callLet n right) := by
  unfold callLet
  have h : ∀ l r, ∀ m ∈ executeLet n l r, Related R m := by
    intro l r m hm
    unfold executeLet at hm
    cases hr : r.expansion with
    | none => simp [hr] at hm
    | some p =>
      rw [hr] at hm
      simp only [Option.map_some, Option.mem_def, Option.some.injEq] at hm
      subst hm
      exact matchRighthandPair_related L _ _ _ _ _
  refine Related.bind L ?_ fun b => ?_
  · split
    · exact Related.pure L _
    · split
      · exact Related.pure L _
      · next hm =>
        refine onError_related L _ (onError_related L _ ?_ (Related.pure L _)) (Related.pure L _)
        exact Related.bind L (h _ _ _ hm) fun _ => Related.pure L _
  · related L [executeReduction_related L _ _ _]

theorem callForget_related (right : Syn) : Related R (callForget right) := by
  unfold callForget
  split
  · exact Related.pure L _
  · refine Related.bind L (Related.exclusive L) fun _ => Related.bind L (Related.ofE L _) fun _ => ?_
    exact Related.bind L (Updater.deleteReduction_related L _ _) fun _ => Related.pure L _

theorem callLabel_related (n : Nat) (right : Syn) : Related R (callLabel n right) := by
  unfold callLabel
  related L []

theorem stringOf_related (t : Syn) : Related R (stringOf t) := by
  unfold stringOf
  split
  · exact Related.pure L _
  · exact Related.bind L (Related.reading L _) fun _ => Related.pure L _

theorem pinning_related {α : Type} {m : CM α} (h : Related R m) : Related R (pinning m) := by
  intro c
  unfold pinning
  refine Ends.bind (Ends.get ?_)
  refine Ends.bind (Ends.modify ?_)
  refine Ends.bind (Ends.tryCatch (Ends.bind ((h { c with pinned := true }).mono fun r c1 h1 => ?_)))
  cases r with
  | ok a =>
    refine Ends.pure ?_
    exact Ends.bind (Ends.modify (Ends.ofR (L.pin h1)))
  | error e =>
    refine Ends.pure ?_
    exact Ends.bind (Ends.modify (Ends.ofR (L.pin h1)))

theorem calls_related (n k : Nat) : (∀ t, Related R (call n k t)) ∧
    (∀ l r, Related R (callPair n k l r)) ∧ (∀ l r, Related R (reduceAndCallPair n k l r)) ∧
    (∀ t, Related R (tryReducing n k t)) := by
  induction k with
  | zero =>
    refine ⟨fun t => ?_, fun l r => ?_, fun l r => ?_, fun t => ?_⟩
    · unfold call; exact Related.fault _
    · unfold callPair; exact Related.fault _
    · unfold reduceAndCallPair; exact Related.fault _
    · unfold tryReducing; exact Related.fault _
  | succ k ih =>
    obtain ⟨ih1, ih2, ih3, ih4⟩ := ih
    refine ⟨fun t => ?_, fun l r => ?_, fun l r => ?_, fun t => ?_⟩
    · unfold call
      refine Related.bind L (stringOf_related L _) fun o => ?_
      split
      · exact Related.pure L _
      · split
        · refine onError_related L _ (ih2 _ _) (onError_related L _ (ih4 _) ?_)
          related L []
        · exact onError_related L _ (ih4 _) (Related.ofE L _)
    · unfold callPair
      related L [ih3 _ _, ih4 _, callLet_related L _ _, callForget_related L _, callLabel_related L _ _]
    · unfold reduceAndCallPair
      related L [ih2 _ _]
    · unfold tryReducing
      related L [pinning_related L (ih1 _)]

/-- A whole command, for relations that also allow the naming of variables. -/
theorem command_related (V : ∀ c v, R c { c with vars := v }) (n : Nat) (s : Str) :
    Related R (command n s) := by
  unfold command
  refine Related.bind L (Parser.astFromExpression_related L _ _) fun t => ?_
  refine Related.bind L (Related.searching L (by sound_search)) fun t => ?_
  refine Related.bind L (Related.tryCatch L (Parser.createVariables_related L V _) fun _ => Related.fault _)
    fun t => ?_
  exact (calls_related L n n).1 t

end Context

end Zia

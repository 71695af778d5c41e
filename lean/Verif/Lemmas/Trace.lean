import Verif.Lemmas.Monad
import Mathlib.Logic.Relation

/-!
# What a command does to the pending changes

Every computation of a command only adds changes of a few kinds, each under the conditions that the code
checks before adding it. Properties of all commands follow by induction over these changes.
-/

namespace Zia

open CM

/-- The changes a command adds one at a time, with what has been checked. -/
inductive Emit (v : View) : Direct CId → Prop
  | str (t : Str) : Emit v (.new (.str t))
  | freeVariable : Emit v (.new .freeVariable)
  | boundVariable : Emit v (.new .boundVariable)
  | composition (l r : CId) (m : Mixed) (hm : v.read l = .ok m) (h : m.findAsHand r .left = none) :
    Emit v (.new (.composition ⟨l, r⟩))
  | unreduce (c r : CId) (m : Mixed) (hm : v.read c = .ok m) (h : m.reduction = some r) :
    Emit v (.reduce c (.remove r))
  | reduce (n : Nat) (c r : CId) (m : Mixed) (nf : Option CId) (hnf : v.normalForm n r = .ok nf)
      (hc : nf ≠ some c) (hm : v.read c = .ok m) (h : m.reduction ≠ some r) :
    Emit v (.reduce c (match (generalizing := false) nf with
      | none => .create r
      | some b => .update b r))
  | compose (n : Nat) (c l r : CId) (m : Mixed) (mc : Option (MComp CId)) (d : Direct CId)
      (hl : v.contains n l c = .ok false) (hr : v.contains n r c = .ok false)
      (hcl : v.checkReductions n c l = .ok (.ok ())) (hcr : v.checkReductions n c r = .ok (.ok ()))
      (hm : v.read c = .ok m) (hmc : m.maybeComposition = .ok mc)
      (h : composeDelta m.id mc l r = .ok (.ok d)) : Emit v d
  | remove (c : CId) : Emit v (.remove c)

/-- One move: a single change, or the three changes that introduce a new symbol. -/
inductive Move (s : Snap) : Nested → Nested → Prop
  | emit {d d' : Nested} {id : CId} (dd : Direct CId) (h : Emit ⟨s, d⟩ dd)
      (hd : d.update dd = .ok (d', id)) : Move s d d'
  | labelled [HashOrder] {d d1 d2 d3 : Nested} {l i1 i2 i3 : CId} (t : Str)
      (hl : (View.mk s d).concreteId .label = .ok (some l))
      (h1 : d.update (.new (.str t)) = .ok (d1, i1))
      (h2 : d1.update (.new (.reducesTo i1)) = .ok (d2, i2))
      (h3 : d2.update (.new (.right i2 l none)) = .ok (d3, i3)) : Move s d d3

/-- Any number of moves. -/
abbrev Trace (s : Snap) : Nested → Nested → Prop := Relation.ReflTransGen (Move s)

/-- The store is untouched and the pending changes grew by moves. -/
def Follows (c c' : Ctx) : Prop := c'.snap = c.snap ∧ Trace c.snap c.delta c'.delta

theorem Follows.refl (c : Ctx) : Follows c c := ⟨rfl, .refl⟩

theorem Follows.trans {a b c : Ctx} (h : Follows a b) (h' : Follows b c) : Follows a c := by
  obtain ⟨e, t⟩ := h
  obtain ⟨e', t'⟩ := h'
  refine ⟨e'.trans e, t.trans ?_⟩
  rw [e] at t'
  exact t'

theorem Follows.same {a b : Ctx} (h : b.snap = a.snap) (h' : b.delta = a.delta) : Follows a b :=
  ⟨h, by rw [h']⟩

/-- A computation that only makes moves. -/
def Traced {α : Type} (m : CM α) : Prop := ∀ c, Ends m c (fun _ c' => Follows c c')

namespace Traced

variable {α β : Type}

theorem bind {m : CM α} {f : α → CM β} (h : Traced m) (hf : ∀ a, Traced (f a)) :
    Traced (m >>= f) := by
  intro c
  refine Ends.bind ((h c).mono fun r c1 h1 => ?_)
  cases r with
  | ok a => exact (hf a c1).mono fun r c2 h2 => h1.trans h2
  | error e => exact h1

theorem pure (a : β) : Traced (Pure.pure a : CM β) := fun c => Ends.pure (.refl c)

theorem throw (e : ZiaError) : Traced (MonadExcept.throw e : CM β) :=
  fun c => Ends.throw (.refl c)

theorem fault (f : Fault) : Traced (CM.fault f : CM β) := fun _ => Ends.fault

theorem ofE (x : Except Fault β) : Traced (CM.ofE x) := fun c => Ends.ofE fun _ _ => .refl c

theorem ofR (x : Except ZiaError β) : Traced (CM.ofR x) := fun c => Ends.ofR (.refl c)

theorem get : Traced (MonadState.get : CM Ctx) := fun c => Ends.get (.refl c)

theorem view : Traced CM.view := fun c => Ends.view (.refl c)

theorem modify (f : Ctx → Ctx) (h : ∀ c, (f c).snap = c.snap) (h' : ∀ c, (f c).delta = c.delta) :
    Traced (_root_.modify f : CM Unit) := fun c => Ends.modify (.same (h c) (h' c))

theorem reading (f : View → Except Fault β) : Traced (CM.reading f) :=
  fun c => Ends.reading fun _ _ => .refl c

theorem searching (f : Env → SM β) : Traced (CM.searching f) :=
  fun _ => Ends.searching fun _ _ _ => .same rfl rfl

theorem exclusive : Traced CM.exclusive :=
  fun c => Ends.exclusive (fun _ => .refl c) (fun _ => .refl c)

theorem tryCatch {m : CM β} {f : ZiaError → CM β} (h : Traced m) (hf : ∀ e, Traced (f e)) :
    Traced (MonadExcept.tryCatch m f : CM β) := by
  intro c
  refine Ends.tryCatch ((h c).mono fun r c1 h1 => ?_)
  cases r with
  | ok a => exact h1
  | error e => exact (hf e c1).mono fun r c2 h2 => h1.trans h2

theorem ite {P : Prop} [Decidable P] {a b : CM β} (ha : Traced a) (hb : Traced b) :
    Traced (if P then a else b) := by split <;> assumption

end Traced

/-- One change with its checks. -/
theorem follows_emit {c : Ctx} {dd : Direct CId} {d : Nested} {id : CId} {ca : Cache}
    (h : Emit ⟨c.snap, c.delta⟩ dd) (hd : c.delta.update dd = .ok (d, id)) :
    Follows c { c with delta := d, cache := ca } := ⟨rfl, .single (.emit dd h hd)⟩

/-- A change that needs no check. -/
theorem Traced.update {dd : Direct CId} (h : ∀ v, Emit v dd) : Traced (CM.update dd) :=
  fun _ => Ends.update fun _ _ hd => follows_emit (h _) hd

/-- One structural step of a proof that a computation only makes moves. -/
macro "traced_step" : tactic => `(tactic| first
  | with_reducible assumption
  | with_reducible exact Traced.pure _
  | with_reducible exact Traced.throw _
  | with_reducible exact Traced.fault _
  | with_reducible exact Traced.ofE _
  | with_reducible exact Traced.ofR _
  | with_reducible exact Traced.get
  | with_reducible exact Traced.view
  | with_reducible exact Traced.exclusive
  | with_reducible exact Traced.reading _
  | with_reducible exact Traced.searching _
  | with_reducible exact Traced.modify _ (fun _ => rfl) (fun _ => rfl)
  | with_reducible refine Traced.bind ?_ fun _ => ?_
  | with_reducible refine Traced.tryCatch ?_ fun _ => ?_
  | dsimp only
  | split)

/-- Structural steps, with further lemmas for the functions that are called. -/
macro "traced" "[" ts:term,* "]" : tactic =>
  `(tactic| repeat' first $[| with_reducible exact $ts]* | traced_step)

set_option linter.unusedSectionVars false

variable [HashOrder]

namespace Updater

theorem newLabelledConcept_ends {c : Ctx} {s : Str} {l : CId}
    (hl : (View.mk c.snap c.delta).concreteId .label = .ok (some l)) :
    Ends (newLabelledConcept s none (some l)) c (fun _ c' => Follows c c') := by
  unfold newLabelledConcept
  simp only [Option.isSome_some, Bool.true_or, if_true]
  refine Ends.bind (Ends.update fun d1 i1 h1 => ?_)
  refine Ends.bind (Ends.update fun d2 i2 h2 => ?_)
  refine Ends.update fun d3 i3 h3 => ?_
  exact ⟨rfl, .single (.labelled s hl h1 h2 h3)⟩

theorem deleteReduction_traced (c : CId) (syn : Str) : Traced (deleteReduction c syn) := by
  intro x
  unfold deleteReduction
  refine Ends.bind (Ends.reading fun m hm => ?_)
  show Ends (match m.reduction with | none => _ | some r => _) x _
  split
  · exact Ends.throw (.refl x)
  · next r hr =>
    refine Ends.bind (Ends.update fun d i hd => ?_)
    exact Ends.pure (follows_emit (.unreduce c r m hm hr) hd)

theorem unlabel_traced (c : CId) (syn : Str) : Traced (unlabel c syn) := by
  unfold unlabel
  refine Traced.bind (Traced.reading _) fun o => ?_
  cases o
  · exact Traced.fault _
  · exact deleteReduction_traced _ _

theorem findOrInsertComposition_traced (l r : CId) : Traced (findOrInsertComposition l r) := by
  intro x
  unfold findOrInsertComposition
  refine Ends.bind (Ends.reading fun m hm => ?_)
  show Ends (match m.findAsHand r .left with | some c => _ | none => _) x _
  split
  · exact Ends.pure (.refl x)
  · next hr =>
    exact Ends.update fun d i hd => follows_emit (.composition l r m hm hr) hd

theorem updateReduction_traced (n : Nat) (c : CId) (syn : Str) (r : CId) :
    Traced (updateReduction n c syn r) := by
  intro x
  unfold updateReduction
  refine Ends.bind (Ends.reading fun nf hnf => ?_)
  show Ends (ite _ _ _) x _
  split
  · exact Ends.throw (.refl x)
  · next hc =>
    refine Ends.bind (Ends.reading fun m hm => ?_)
    show Ends (ite _ _ _) x _
    split
    · exact Ends.throw (.refl x)
    · next hr =>
      refine Ends.bind (Ends.reading fun k hk => ?_)
      show Ends (ite _ _ _) x _
      split
      · exact Ends.throw (.refl x)
      · refine Ends.bind (Ends.update fun d i hd => ?_)
        exact Ends.pure (follows_emit (.reduce n c r m nf hnf hc hm hr) hd)

theorem label_traced (n : Nat) (c : CId) (syn string : Str) : Traced (label n c syn string) := by
  unfold label
  traced [findOrInsertComposition_traced _ _, updateReduction_traced _ _ _ _,
    Traced.update fun v => .str _]

theorem relabel_traced (n : Nat) (c : CId) (syn new : Str) : Traced (relabel n c syn new) :=
  Traced.bind (unlabel_traced _ _) fun _ => label_traced _ _ _ _

theorem conceptFromAst_traced (n : Nat) (t : Syn) : Traced (conceptFromAst n t) := by
  induction t with
  | leaf s c k =>
    unfold conceptFromAst
    cases c with
    | some c => exact Traced.pure _
    | none =>
      refine Traced.bind (Traced.ofE _) fun s => ?_
      refine Traced.bind (Traced.reading _) fun o => ?_
      cases o with
      | some c => exact Traced.pure _
      | none =>
        intro x
        refine Ends.bind (Ends.reading fun o ho => ?_)
        cases o with
        | none => exact Ends.throw (.refl x)
        | some l => exact newLabelledConcept_ends ho
  | branch s c l r f b ihl ihr =>
    unfold conceptFromAst
    cases c with
    | some c => exact Traced.pure _
    | none =>
      refine Traced.bind (Traced.ofE _) fun s => ?_
      refine Traced.bind (Traced.reading _) fun o => ?_
      cases o with
      | some c => exact Traced.pure _
      | none =>
        traced [findOrInsertComposition_traced _ _, label_traced _ _ _ _]

theorem insertComposition_traced (n : Nat) (c l r : CId) : Traced (insertComposition n c l r) := by
  intro x
  unfold insertComposition
  refine Ends.bind (Ends.reading fun b hb => ?_)
  show Ends (ite _ _ _) x _
  split
  · exact Ends.throw (.refl x)
  · next h1 =>
    refine Ends.bind (Ends.reading fun b' hb' => ?_)
    show Ends (ite _ _ _) x _
    split
    · exact Ends.throw (.refl x)
    · next h2 =>
      have e1 : b = false := by simpa using h1
      have e2 : b' = false := by simpa using h2
      subst e1; subst e2
      refine Ends.bind (Ends.reading fun k hk => ?_)
      refine Ends.bind (Ends.ofR ?_)
      cases k with
      | error e => exact .refl x
      | ok u =>
        refine Ends.bind (Ends.reading fun k' hk' => ?_)
        refine Ends.bind (Ends.ofR ?_)
        cases k' with
        | error e => exact .refl x
        | ok u' =>
          refine Ends.bind (Ends.reading fun m hm => ?_)
          refine Ends.bind (Ends.ofE fun q hq => ?_)
          simp only [Except.bind_eq_ok] at hq
          obtain ⟨mc, hmc, hq⟩ := hq
          cases q with
          | error e => exact Ends.throw (.refl x)
          | ok d =>
            refine Ends.bind (Ends.update fun d' i hd => ?_)
            exact Ends.pure (follows_emit (.compose n c l r m mc d hb hb' hk hk' hm hmc hq) hd)

theorem redefine_traced (n : Nat) (c : CId) (l r : Syn) : Traced (redefine n c l r) :=
  Traced.bind (conceptFromAst_traced _ _) fun _ =>
    Traced.bind (conceptFromAst_traced _ _) fun _ => insertComposition_traced _ _ _ _

theorem redefineComposition_traced (n : Nat) (c : CId) (l r : Syn) (ol or : Str) :
    Traced (redefineComposition n c l r ol or) := by
  unfold redefineComposition
  refine Traced.bind (Traced.reading _) fun m => ?_
  split
  · refine Traced.bind (Traced.ofE _) fun _ => ?_
    refine Traced.bind (relabel_traced _ _ _ _) fun _ => ?_
    refine Traced.bind (Traced.ofE _) fun _ => ?_
    exact relabel_traced _ _ _ _
  · exact redefine_traced _ _ _ _

theorem defineNewSyntax_traced (n : Nat) (syn : Str) (l r : Syn) :
    Traced (defineNewSyntax n syn l r) := by
  unfold defineNewSyntax
  traced [conceptFromAst_traced _ _]

theorem blindlyRemove_traced (c : CId) : Traced (blindlyRemove c) :=
  Traced.bind (Traced.update fun _ => .remove c) fun _ => Traced.pure _

theorem removeString_traced (s : Str) : Traced (removeString s) := by
  unfold removeString
  refine Traced.bind Traced.get fun _ => ?_
  refine Traced.bind (Traced.ofE _) fun o => ?_
  split
  · exact blindlyRemove_traced _
  · exact blindlyRemove_traced _
  · exact Traced.fault _

theorem removeConcept_traced (c : CId) : Traced (removeConcept c) := by
  unfold removeConcept
  traced [removeString_traced _, blindlyRemove_traced _]

theorem tryDeleteConcept_traced (c : CId) (syn : Str) : Traced (tryDeleteConcept c syn) := by
  unfold tryDeleteConcept
  traced [unlabel_traced _ _, removeConcept_traced _]

end Updater

namespace Parser

theorem astFromLeaf_traced (n : Nat) (l : SLeaf) (s : Str) (c : Option CId) :
    Traced (astFromLeaf n l s c) := by
  unfold astFromLeaf
  dsimp only
  split
  · exact Traced.bind (Traced.pure _) fun _ => Traced.pure _
  · refine Traced.bind Traced.exclusive fun _ => ?_
    refine Traced.bind (Traced.reading _) fun o => ?_
    cases o with
    | some c => exact Traced.bind (Traced.pure _) fun _ => Traced.pure _
    | none =>
      intro x
      refine Ends.bind (Ends.reading fun o ho => ?_)
      refine Ends.bind ?_
      cases o with
      | none =>
        unfold Updater.newLabelledConcept
        simp only [Option.isSome_none, Bool.false_or]
        exact Ends.fault
      | some l =>
        refine (Updater.newLabelledConcept_ends ho).mono fun r c1 h1 => ?_
        cases r with
        | error e => exact h1
        | ok a => exact Ends.pure h1

theorem astFromPair_traced (n : Nat) (l r : Syn) : Traced (astFromPair n l r) := by
  unfold astFromPair
  traced []

theorem precedes_traced (n : Nat) (a b : CId) : Traced (precedes n a b) := Traced.searching _

theorem rankStep_traced (n : Nat) (c l : CId) : Traced (rankStep (precedes n) c l) := by
  have rest : ∀ o, Traced (rankStep.unknown o) := by
    intro o
    unfold rankStep.unknown
    traced []
  unfold rankStep
  traced [precedes_traced _ _ _, rest _]

theorem rank_traced (n : Nat) (c : CId) (ls : List CId) : Traced (rank (precedes n) c ls) := by
  induction ls with
  | nil => unfold rank; exact Traced.pure _
  | cons l ls ih =>
    unfold rank
    traced [rankStep_traced _ _ _, ih]

theorem lowest_traced (n : Nat) (acc cs : List CId) : Traced (lowest (precedes n) acc cs) := by
  induction cs generalizing acc with
  | nil => unfold lowest; exact Traced.pure _
  | cons c cs ih =>
    unfold lowest
    traced [rank_traced _ _ _, ih _]

theorem lowestPrecedenceInfo_traced (n : Nat) (ts : List Syn) :
    Traced (lowestPrecedenceInfo (precedes n) ts) := by
  unfold lowestPrecedenceInfo
  traced [lowest_traced _ _ _]

theorem commonAssoc_traced (n : Nat) (a : Option Assoc) (ts : List Syn) :
    Traced (commonAssoc n a ts) := by
  induction ts generalizing a with
  | nil => unfold commonAssoc; exact Traced.pure _
  | cons t ts ih =>
    unfold commonAssoc
    traced [ih _]

theorem sliceAst_traced (n : Nat) {parse : List Syn → CM Syn} (h : ∀ ts, Traced (parse ts))
    (slice : List Syn) (lp : Nat) (a : Assoc) : Traced (sliceAst n parse slice lp a) := by
  unfold sliceAst
  traced [h _]

theorem handler_traced (n : Nat) {parse : List Syn → CM Syn} (h : ∀ ts, Traced (parse ts))
    (ts : List Syn) (st : Option (Syn × Nat)) (lp : Nat) (a : Assoc) :
    Traced (handler n parse ts st lp a) := by
  unfold handler
  traced [sliceAst_traced n h _ _ _]

theorem rightLoop_traced (n : Nat) {parse : List Syn → CM Syn} (h : ∀ ts, Traced (parse ts))
    (ts : List Syn) (st : Option (Syn × Nat)) (lps : List Nat) :
    Traced (rightLoop n parse ts st lps) := by
  induction lps generalizing st with
  | nil => unfold rightLoop; exact Traced.pure _
  | cons lp rest ih =>
    unfold rightLoop
    traced [handler_traced n h _ _ _ _, ih _]

theorem leftLoop_traced (n : Nat) {parse : List Syn → CM Syn} (h : ∀ ts, Traced (parse ts))
    (ts : List Syn) (st : Option (Syn × Nat)) (lps : List Nat) :
    Traced (leftLoop n parse ts st lps) := by
  induction lps generalizing st with
  | nil => unfold leftLoop; exact Traced.pure _
  | cons lp rest ih =>
    unfold leftLoop
    exact Traced.bind (handler_traced n h _ _ _ _) fun _ => ih _

theorem leftCase_traced (n : Nat) {parse : List Syn → CM Syn} (h : ∀ ts, Traced (parse ts))
    (ts : List Syn) (lps : List Nat) : Traced (leftCase n parse ts lps) := by
  unfold leftCase
  traced [leftLoop_traced n h _ _ _]

theorem astFromList_traced (n k : Nat) (ts : List Syn) : Traced (astFromList n k ts) := by
  unfold astFromList
  induction k generalizing ts with
  | zero =>
    unfold astFromListWith
    split <;> first | exact Traced.pure _ | exact Traced.fault _ | (rename_i h _ _ _; cases h)
  | succ k ih =>
    unfold astFromListWith
    split
    · exact Traced.fault _
    · exact Traced.pure _
    · exact Traced.pure _
    · rename_i h _ _ _; cases h
    · rename_i h _ _ _; cases h
      traced [lowestPrecedenceInfo_traced _ _, commonAssoc_traced _ _ _,
        rightLoop_traced n ih _ _ _, leftCase_traced n ih _ _, ih _]

mutual

theorem astFromNested_traced (n : Nat) : ∀ t : NST, Traced (astFromNested n t)
  | .leaf l s c => by
    unfold astFromNested
    exact astFromLeaf_traced _ _ _ _
  | .parent children _ _ => by
    unfold astFromNested
    refine Traced.bind (astsFromNested_traced n children) fun ts => ?_
    split
    · exact astFromPair_traced _ _ _
    · exact astFromList_traced _ _ _

theorem astsFromNested_traced (n : Nat) : ∀ ts : List NST, Traced (astsFromNested n ts)
  | [] => by
    unfold astsFromNested
    exact Traced.pure _
  | c :: cs => by
    unfold astsFromNested
    refine Traced.bind (astFromNested_traced n c) fun t => ?_
    exact Traced.bind (astsFromNested_traced n cs) fun ts => Traced.pure _

end

theorem astFromExpression_traced (n : Nat) (s : Str) : Traced (astFromExpression n s) := by
  unfold astFromExpression
  refine Traced.bind (Traced.reading _) fun ls => ?_
  refine Traced.bind (Traced.ofR _) fun t => ?_
  refine Traced.bind ?_ fun ts => astFromList_traced _ _ _
  cases t with
  | leaf l s c =>
    unfold syntaxList
    exact Traced.bind (astFromLeaf_traced _ _ _ _) fun _ => Traced.pure _
  | parent children _ _ =>
    unfold syntaxList
    exact astsFromNested_traced _ _

theorem createVariables_traced (t : Syn) : Traced (createVariables t) := by
  induction t with
  | branch s c l r f b ihl ihr =>
    unfold createVariables
    traced []
  | leaf s c k =>
    cases k with
    | «variable» =>
      unfold createVariables
      have h : ∀ b : Bool, Traced (CM.update (.new (if b = true then NewDelta.boundVariable
          else NewDelta.freeVariable))) := by
        intro b
        cases b
        · exact Traced.update fun v => .freeVariable
        · exact Traced.update fun v => .boundVariable
      traced [h _]
    | _ =>
      unfold createVariables
      exact Traced.pure _

end Parser

namespace Context

theorem onError_traced {α : Type} (e : ZiaError) {m h : CM α} (hm : Traced m) (hh : Traced h) :
    Traced (onError e m h) :=
  Traced.tryCatch hm fun _ => Traced.ite hh (Traced.throw _)

theorem tryRemovingReduction_traced (t : Syn) : Traced (tryRemovingReduction t) := by
  unfold tryRemovingReduction
  refine Traced.bind Traced.exclusive fun _ => ?_
  split
  · exact Traced.bind (Traced.ofE _) fun _ => Updater.deleteReduction_traced _ _
  · exact Traced.bind (Traced.ofE _) fun _ => Traced.throw _

theorem executeReduction_traced (n : Nat) (t nf : Syn) : Traced (executeReduction n t nf) := by
  unfold executeReduction
  traced [tryRemovingReduction_traced _, Updater.conceptFromAst_traced _ _,
    Updater.updateReduction_traced _ _ _ _]

theorem define_traced (n : Nat) (new old : Syn) : Traced (define n new old) := by
  unfold define
  traced [Updater.relabel_traced _ _ _ _, Updater.label_traced _ _ _ _, Updater.unlabel_traced _ _,
    Updater.defineNewSyntax_traced _ _ _ _, Updater.tryDeleteConcept_traced _ _,
    Updater.redefineComposition_traced _ _ _ _ _ _, Updater.redefine_traced _ _ _ _]

theorem executeComposition_traced (n : Nat) (new old : Syn) :
    Traced (executeComposition n new old) := by
  unfold executeComposition
  traced [define_traced _ _ _]

theorem matchRighthandPair_traced (n k : Nat) (l rl rr : Syn) :
    Traced (matchRighthandPair n k l rl rr) := by
  induction k generalizing rl with
  | zero => unfold matchRighthandPair; exact Traced.fault _
  | succ k ih =>
    unfold matchRighthandPair
    split
    · exact Traced.throw _
    · refine Traced.bind (Traced.reading _) fun o => ?_
      split
      · exact executeReduction_traced _ _ _
      · exact executeComposition_traced _ _ _
      · refine Traced.bind (Traced.reading _) fun m => ?_
        split
        · exact Traced.throw _
        · exact Traced.bind (Traced.searching _) fun t => ih _

theorem callLet_traced (n : Nat) (right : Syn) : Traced (callLet n right) := by
  unfold callLet
  have h : ∀ l r, ∀ m ∈ executeLet n l r, Traced m := by
    intro l r m hm
    unfold executeLet at hm
    cases hr : r.expansion with
    | none => simp [hr] at hm
    | some p =>
      rw [hr] at hm
      simp only [Option.map_some, Option.mem_def, Option.some.injEq] at hm
      subst hm
      exact matchRighthandPair_traced _ _ _ _ _
  refine Traced.bind ?_ fun b => ?_
  · split
    · exact Traced.pure _
    · split
      · exact Traced.pure _
      · next hm =>
        refine onError_traced _ (onError_traced _ ?_ (Traced.pure _)) (Traced.pure _)
        exact Traced.bind (h _ _ _ hm) fun _ => Traced.pure _
  · traced [executeReduction_traced _ _ _]

theorem callForget_traced (right : Syn) : Traced (callForget right) := by
  unfold callForget
  split
  · exact Traced.pure _
  · refine Traced.bind Traced.exclusive fun _ => Traced.bind (Traced.ofE _) fun _ => ?_
    exact Traced.bind (Updater.deleteReduction_traced _ _) fun _ => Traced.pure _

theorem callLabel_traced (n : Nat) (right : Syn) : Traced (callLabel n right) := by
  unfold callLabel
  traced []

theorem stringOf_traced (t : Syn) : Traced (stringOf t) := by
  unfold stringOf
  split
  · exact Traced.pure _
  · exact Traced.bind (Traced.reading _) fun _ => Traced.pure _

theorem pinning_traced {α : Type} {m : CM α} (h : Traced m) : Traced (pinning m) := by
  unfold pinning
  refine Traced.bind Traced.get fun _ => ?_
  refine Traced.bind (Traced.modify _ (fun _ => rfl) (fun _ => rfl)) fun _ => ?_
  refine Traced.bind (Traced.tryCatch (Traced.bind h fun _ => Traced.pure _)
    (fun _ => Traced.pure _)) fun _ => ?_
  exact Traced.bind (Traced.modify _ (fun _ => rfl) (fun _ => rfl)) fun _ => Traced.ofR _

theorem calls_traced (n k : Nat) : (∀ t, Traced (call n k t)) ∧
    (∀ l r, Traced (callPair n k l r)) ∧ (∀ l r, Traced (reduceAndCallPair n k l r)) ∧
    (∀ t, Traced (tryReducing n k t)) := by
  induction k with
  | zero =>
    refine ⟨fun t => ?_, fun l r => ?_, fun l r => ?_, fun t => ?_⟩
    · unfold call; exact Traced.fault _
    · unfold callPair; exact Traced.fault _
    · unfold reduceAndCallPair; exact Traced.fault _
    · unfold tryReducing; exact Traced.fault _
  | succ k ih =>
    obtain ⟨ih1, ih2, ih3, ih4⟩ := ih
    refine ⟨fun t => ?_, fun l r => ?_, fun l r => ?_, fun t => ?_⟩
    · unfold call
      refine Traced.bind (stringOf_traced _) fun o => ?_
      split
      · exact Traced.pure _
      · split
        · refine onError_traced _ (ih2 _ _) (onError_traced _ (ih4 _) ?_)
          traced []
        · exact onError_traced _ (ih4 _) (Traced.ofE _)
    · unfold callPair
      traced [ih3 _ _, ih4 _, callLet_traced _ _, callForget_traced _, callLabel_traced _ _]
    · unfold reduceAndCallPair
      traced [ih2 _ _]
    · unfold tryReducing
      traced [pinning_traced (ih1 _)]

theorem command_traced (n : Nat) (s : Str) : Traced (command n s) := by
  unfold command
  refine Traced.bind (Parser.astFromExpression_traced _ _) fun t => ?_
  refine Traced.bind (Traced.searching _) fun t => ?_
  refine Traced.bind (Traced.tryCatch (Parser.createVariables_traced _) fun _ => Traced.fault _)
    fun t => ?_
  exact (calls_traced n n).1 t

/-- Every command is a trace of moves followed by a commit. -/
theorem execute_trace {n : Nat} {c c' : Ctx} {s r : Str} (h : execute n c s = .ok (r, c')) :
    ∃ d, Trace c.snap c.delta d ∧ c.snap.apply d = .ok c'.snap ∧ c'.delta = Nested.default := by
  simp only [execute, Except.bind_eq_ok] at h
  obtain ⟨⟨r1, c1⟩, h1, c2, h2, h3⟩ := h
  have ht := command_traced n s c r1 c1 h1
  obtain ⟨e1, t⟩ := ht
  simp only [commit, Except.bind_eq_ok, Except.pure_eq_ok] at h2
  obtain ⟨s2, h2, rfl⟩ := h2
  cases h3
  rw [e1] at h2
  exact ⟨c1.delta, t, h2, rfl⟩

end Context

end Zia

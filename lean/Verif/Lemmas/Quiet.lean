import Verif.Lemmas.Run
import Verif.Spec.Teach

/-!
# Commands that teach nothing

Reading a command only introduces symbols and variables, and only `let` and `forget` make other changes.
-/

namespace Zia

open CM Spec

/-- Reflexive, transitive, and blind to everything but the store and the pending changes. -/
structure Closed (R : Ctx → Ctx → Prop) : Prop where
  same : ∀ a b : Ctx, b.snap = a.snap → b.delta = a.delta → R a b
  trans : ∀ a b c, R a b → R b c → R a c

/-- Every end of a computation is related to its start. -/
def Keeps {α : Type} (R : Ctx → Ctx → Prop) (m : CM α) : Prop := ∀ c, Ends m c (fun _ c' => R c c')

namespace Keeps

variable {α β : Type} {R : Ctx → Ctx → Prop}

theorem bind (H : Closed R) {m : CM α} {f : α → CM β} (h : Keeps R m) (hf : ∀ a, Keeps R (f a)) :
    Keeps R (m >>= f) := by
  intro c
  refine Ends.bind ((h c).mono fun r c1 h1 => ?_)
  cases r with
  | ok a => exact (hf a c1).mono fun r c2 h2 => H.trans _ _ _ h1 h2
  | error e => exact h1

variable (H : Closed R)
include H

theorem pure (a : β) : Keeps R (Pure.pure a : CM β) := fun _ => Ends.pure (H.same _ _ rfl rfl)

theorem throw (e : ZiaError) : Keeps R (MonadExcept.throw e : CM β) :=
  fun _ => Ends.throw (H.same _ _ rfl rfl)

omit H in
theorem fault (f : Fault) : Keeps R (CM.fault f : CM β) := fun _ => Ends.fault

theorem ofE (x : Except Fault β) : Keeps R (CM.ofE x) := fun _ => Ends.ofE fun _ _ => H.same _ _ rfl rfl

theorem ofR (x : Except ZiaError β) : Keeps R (CM.ofR x) := fun _ => Ends.ofR (H.same _ _ rfl rfl)

theorem get : Keeps R (MonadState.get : CM Ctx) := fun _ => Ends.get (H.same _ _ rfl rfl)

theorem view : Keeps R CM.view := fun _ => Ends.view (H.same _ _ rfl rfl)

theorem modify (f : Ctx → Ctx) (h : ∀ c, (f c).snap = c.snap) (h' : ∀ c, (f c).delta = c.delta) :
    Keeps R (_root_.modify f : CM Unit) := fun c => Ends.modify (H.same _ _ (h c) (h' c))

theorem reading (f : View → Except Fault β) : Keeps R (CM.reading f) :=
  fun _ => Ends.reading fun _ _ => H.same _ _ rfl rfl

theorem searching (f : Env → SM β) : Keeps R (CM.searching f) :=
  fun _ => Ends.searching fun _ _ _ => H.same _ _ rfl rfl

theorem exclusive : Keeps R CM.exclusive :=
  fun _ => Ends.exclusive (fun _ => H.same _ _ rfl rfl) (fun _ => H.same _ _ rfl rfl)

theorem tryCatch {m : CM β} {f : ZiaError → CM β} (h : Keeps R m) (hf : ∀ e, Keeps R (f e)) :
    Keeps R (MonadExcept.tryCatch m f : CM β) := by
  intro c
  refine Ends.tryCatch ((h c).mono fun r c1 h1 => ?_)
  cases r with
  | ok a => exact h1
  | error e => exact (hf e c1).mono fun r c2 h2 => H.trans _ _ _ h1 h2

end Keeps

/-- One structural step. -/
macro "keeps_step " H:term : tactic => `(tactic| first
  | with_reducible assumption
  | with_reducible exact Keeps.pure $H _
  | with_reducible exact Keeps.throw $H _
  | with_reducible exact Keeps.fault _
  | with_reducible exact Keeps.ofE $H _
  | with_reducible exact Keeps.ofR $H _
  | with_reducible exact Keeps.get $H
  | with_reducible exact Keeps.view $H
  | with_reducible exact Keeps.exclusive $H
  | with_reducible exact Keeps.reading $H _
  | with_reducible exact Keeps.searching $H _
  | with_reducible exact Keeps.modify $H _ (fun _ => rfl) (fun _ => rfl)
  | with_reducible refine Keeps.bind $H ?_ fun _ => ?_
  | with_reducible refine Keeps.tryCatch $H ?_ fun _ => ?_
  | dsimp only
  | split)

/-- Structural steps, with further lemmas for the functions that are called. -/
macro "keeps" "[" ts:term,* "]" "using" H:term : tactic =>
  `(tactic| repeat' first $[| with_reducible exact $ts]* | keeps_step $H)

set_option linter.unusedSectionVars false

variable [HashOrder]

/-! ## Reading a command -/

/-- The pending changes grew by introductions. -/
def Adds (c c' : Ctx) : Prop :=
  c'.snap = c.snap ∧ ∃ L, c'.delta.order = c.delta.order ++ L ∧ ∀ p ∈ L, Introduces p

theorem adds_closed : Closed Adds where
  same a b h h' := ⟨h, [], by rw [h', List.append_nil], by simp⟩
  trans := by
    rintro a b c ⟨h1, L1, e1, i1⟩ ⟨h2, L2, e2, i2⟩
    refine ⟨h2.trans h1, L1 ++ L2, by rw [e2, e1, List.append_assoc], fun p hp => ?_⟩
    rcases List.mem_append.1 hp with hp | hp
    · exact i1 p hp
    · exact i2 p hp

theorem update_adds {dd : Direct CId} (h : ∀ id, Introduces (id, dd)) : Keeps Adds (CM.update dd) :=
  fun _ => Ends.update fun _ id hd => ⟨rfl, [(id, dd)], Nested.update_order hd, by simpa using h id⟩

theorem newLabelledConcept_adds (s : Str) (l : Option CId) :
    Keeps Adds (Updater.newLabelledConcept s none l) := by
  unfold Updater.newLabelledConcept
  cases l with
  | none => simp only [Option.isSome_none, Bool.false_or]; exact Keeps.fault _
  | some l =>
    simp only [Option.isSome_some, Bool.true_or, if_true]
    exact Keeps.bind adds_closed (update_adds fun _ => trivial) fun _ =>
      Keeps.bind adds_closed (update_adds fun _ => trivial) fun _ => update_adds fun _ => trivial

namespace Parser

theorem astFromLeaf_adds (n : Nat) (l : SLeaf) (s : Str) (c : Option CId) :
    Keeps Adds (astFromLeaf n l s c) := by
  unfold astFromLeaf
  keeps [newLabelledConcept_adds _ _] using adds_closed

variable {R : Ctx → Ctx → Prop} (H : Closed R)
include H

theorem astFromPair_keeps (n : Nat) (l r : Syn) : Keeps R (astFromPair n l r) := by
  unfold astFromPair
  keeps [] using H

theorem precedes_keeps (n : Nat) (a b : CId) : Keeps R (precedes n a b) := Keeps.searching H _

theorem rankStep_keeps (n : Nat) (c l : CId) : Keeps R (rankStep (precedes n) c l) := by
  have rest : ∀ o, Keeps R (rankStep.unknown o) := by
    intro o
    unfold rankStep.unknown
    keeps [] using H
  unfold rankStep
  keeps [precedes_keeps H _ _ _, rest _] using H

theorem rank_keeps (n : Nat) (c : CId) (ls : List CId) : Keeps R (rank (precedes n) c ls) := by
  induction ls with
  | nil => unfold rank; exact Keeps.pure H _
  | cons l ls ih =>
    unfold rank
    keeps [rankStep_keeps H _ _ _, ih] using H

theorem lowest_keeps (n : Nat) (acc cs : List CId) : Keeps R (lowest (precedes n) acc cs) := by
  induction cs generalizing acc with
  | nil => unfold lowest; exact Keeps.pure H _
  | cons c cs ih =>
    unfold lowest
    keeps [rank_keeps H _ _ _, ih _] using H

theorem lowestPrecedenceInfo_keeps (n : Nat) (ts : List Syn) :
    Keeps R (lowestPrecedenceInfo (precedes n) ts) := by
  unfold lowestPrecedenceInfo
  keeps [lowest_keeps H _ _ _] using H

theorem commonAssoc_keeps (n : Nat) (a : Option Assoc) (ts : List Syn) :
    Keeps R (commonAssoc n a ts) := by
  induction ts generalizing a with
  | nil => unfold commonAssoc; exact Keeps.pure H _
  | cons t ts ih =>
    unfold commonAssoc
    keeps [ih _] using H

theorem sliceAst_keeps (n : Nat) {parse : List Syn → CM Syn} (h : ∀ ts, Keeps R (parse ts))
    (slice : List Syn) (lp : Nat) (a : Assoc) : Keeps R (sliceAst n parse slice lp a) := by
  unfold sliceAst
  keeps [h _] using H

theorem handler_keeps (n : Nat) {parse : List Syn → CM Syn} (h : ∀ ts, Keeps R (parse ts))
    (ts : List Syn) (st : Option (Syn × Nat)) (lp : Nat) (a : Assoc) :
    Keeps R (handler n parse ts st lp a) := by
  unfold handler
  keeps [sliceAst_keeps H n h _ _ _] using H

theorem rightLoop_keeps (n : Nat) {parse : List Syn → CM Syn} (h : ∀ ts, Keeps R (parse ts))
    (ts : List Syn) (st : Option (Syn × Nat)) (lps : List Nat) :
    Keeps R (rightLoop n parse ts st lps) := by
  induction lps generalizing st with
  | nil => unfold rightLoop; exact Keeps.pure H _
  | cons lp rest ih =>
    unfold rightLoop
    keeps [handler_keeps H n h _ _ _ _, ih _] using H

theorem leftLoop_keeps (n : Nat) {parse : List Syn → CM Syn} (h : ∀ ts, Keeps R (parse ts))
    (ts : List Syn) (st : Option (Syn × Nat)) (lps : List Nat) :
    Keeps R (leftLoop n parse ts st lps) := by
  induction lps generalizing st with
  | nil => unfold leftLoop; exact Keeps.pure H _
  | cons lp rest ih =>
    unfold leftLoop
    exact Keeps.bind H (handler_keeps H n h _ _ _ _) fun _ => ih _

theorem leftCase_keeps (n : Nat) {parse : List Syn → CM Syn} (h : ∀ ts, Keeps R (parse ts))
    (ts : List Syn) (lps : List Nat) : Keeps R (leftCase n parse ts lps) := by
  unfold leftCase
  keeps [leftLoop_keeps H n h _ _ _] using H

theorem astFromList_keeps (n k : Nat) (ts : List Syn) : Keeps R (astFromList n k ts) := by
  unfold astFromList
  induction k generalizing ts with
  | zero =>
    unfold astFromListWith
    split <;> first | exact Keeps.pure H _ | exact Keeps.fault _ | (rename_i h _ _ _; cases h)
  | succ k ih =>
    unfold astFromListWith
    split
    · exact Keeps.fault _
    · exact Keeps.pure H _
    · exact Keeps.pure H _
    · rename_i h _ _ _; cases h
    · rename_i h _ _ _; cases h
      keeps [lowestPrecedenceInfo_keeps H _ _, commonAssoc_keeps H _ _ _,
        rightLoop_keeps H n ih _ _ _, leftCase_keeps H n ih _ _, ih _] using H

omit H

mutual

theorem astFromNested_adds (n : Nat) : ∀ t : NST, Keeps Adds (astFromNested n t)
  | .leaf l s c => by
    unfold astFromNested
    exact astFromLeaf_adds _ _ _ _
  | .parent children _ _ => by
    unfold astFromNested
    refine Keeps.bind adds_closed (astsFromNested_adds n children) fun ts => ?_
    split
    · exact astFromPair_keeps adds_closed _ _ _
    · exact astFromList_keeps adds_closed _ _ _

theorem astsFromNested_adds (n : Nat) : ∀ ts : List NST, Keeps Adds (astsFromNested n ts)
  | [] => by
    unfold astsFromNested
    exact Keeps.pure adds_closed _
  | c :: cs => by
    unfold astsFromNested
    refine Keeps.bind adds_closed (astFromNested_adds n c) fun t => ?_
    exact Keeps.bind adds_closed (astsFromNested_adds n cs) fun ts => Keeps.pure adds_closed _

end

theorem astFromExpression_adds (n : Nat) (s : Str) : Keeps Adds (astFromExpression n s) := by
  unfold astFromExpression
  refine Keeps.bind adds_closed (Keeps.reading adds_closed _) fun ls => ?_
  refine Keeps.bind adds_closed (Keeps.ofR adds_closed _) fun t => ?_
  refine Keeps.bind adds_closed ?_ fun ts => astFromList_keeps adds_closed _ _ _
  cases t with
  | leaf l s c =>
    unfold syntaxList
    exact Keeps.bind adds_closed (astFromLeaf_adds _ _ _ _) fun _ => Keeps.pure adds_closed _
  | parent children _ _ =>
    unfold syntaxList
    exact astsFromNested_adds _ _

theorem createVariables_adds (t : Syn) : Keeps Adds (createVariables t) := by
  induction t with
  | branch s c l r f b ihl ihr =>
    unfold createVariables
    keeps [] using adds_closed
  | leaf s c k =>
    cases k with
    | «variable» =>
      unfold createVariables
      have h : ∀ b : Bool, Keeps Adds (CM.update (.new (if b = true then NewDelta.boundVariable
          else NewDelta.freeVariable))) := by
        intro b
        cases b <;> exact update_adds fun _ => trivial
      keeps [h _] using adds_closed
    | _ =>
      unfold createVariables
      exact Keeps.pure adds_closed _

end Parser

/-! ## Carrying it out -/

/-- A computation whose errors are all found late. -/
def Late {α : Type} (m : CM α) : Prop := ∀ c, Ends m c (fun r _ => ∀ e, r = .error e → FoundLate e = true)

namespace Late

variable {α β : Type}

theorem bind {m : CM α} {f : α → CM β} (h : Late m) (hf : ∀ a, Late (f a)) : Late (m >>= f) := by
  intro c
  refine Ends.bind ((h c).mono fun r c1 h1 => ?_)
  cases r with
  | ok a => exact hf a c1
  | error e => intro e' he; cases he; exact h1 e rfl

theorem pure (a : β) : Late (Pure.pure a : CM β) := fun _ => Ends.pure fun _ he => by cases he

theorem throw {e : ZiaError} (h : FoundLate e = true) : Late (MonadExcept.throw e : CM β) :=
  fun _ => Ends.throw fun _ he => by cases he; exact h

theorem fault (f : Fault) : Late (CM.fault f : CM β) := fun _ => Ends.fault

theorem ofE (x : Except Fault β) : Late (CM.ofE x) := fun _ => Ends.ofE fun _ _ _ he => by cases he

theorem get : Late (MonadState.get : CM Ctx) := fun _ => Ends.get fun _ he => by cases he

theorem reading (f : View → Except Fault β) : Late (CM.reading f) :=
  fun _ => Ends.reading fun _ _ _ he => by cases he

theorem searching (f : Env → SM β) : Late (CM.searching f) :=
  fun _ => Ends.searching fun _ _ _ _ he => by cases he

theorem update (dd : Direct CId) : Late (CM.update dd) :=
  fun _ => Ends.update fun _ _ _ _ he => by cases he

end Late

/-- One structural step. -/
macro "late_step" : tactic => `(tactic| first
  | with_reducible assumption
  | with_reducible exact Late.pure _
  | with_reducible exact Late.throw rfl
  | with_reducible exact Late.fault _
  | with_reducible exact Late.ofE _
  | with_reducible exact Late.get
  | with_reducible exact Late.reading _
  | with_reducible exact Late.searching _
  | with_reducible exact Late.update _
  | with_reducible refine Late.bind ?_ fun _ => ?_
  | dsimp only
  | split)

/-- Structural steps, with further lemmas for the functions that are called. -/
macro "late" "[" ts:term,* "]" : tactic =>
  `(tactic| repeat' first $[| with_reducible exact $ts]* | late_step)

namespace Updater

theorem newLabelledConcept_late (s : Str) (t : Option CCT) (l : Option CId) :
    Late (newLabelledConcept s t l) := by
  unfold newLabelledConcept
  late []

theorem deleteReduction_late (c : CId) (syn : Str) : Late (deleteReduction c syn) := by
  unfold deleteReduction
  late []

theorem unlabel_late (c : CId) (syn : Str) : Late (unlabel c syn) := by
  unfold unlabel
  late [deleteReduction_late _ _]

theorem findOrInsertComposition_late (l r : CId) : Late (findOrInsertComposition l r) := by
  unfold findOrInsertComposition
  late []

theorem updateReduction_late (n : Nat) (c : CId) (syn : Str) (r : CId) :
    Late (updateReduction n c syn r) := by
  unfold updateReduction
  late []

theorem label_late (n : Nat) (c : CId) (syn string : Str) : Late (label n c syn string) := by
  unfold label
  late [findOrInsertComposition_late _ _, updateReduction_late _ _ _ _]

theorem relabel_late (n : Nat) (c : CId) (syn new : Str) : Late (relabel n c syn new) :=
  Late.bind (unlabel_late _ _) fun _ => label_late _ _ _ _

theorem conceptFromAst_late (n : Nat) (t : Syn) : Late (conceptFromAst n t) := by
  induction t with
  | leaf s c k =>
    unfold conceptFromAst
    late [newLabelledConcept_late _ _ _]
  | branch s c l r f b ihl ihr =>
    unfold conceptFromAst
    late [findOrInsertComposition_late _ _, label_late _ _ _ _]

theorem checkReductions_late {v : View} {n : Nat} {a b : CId} {x : Except ZiaError Unit}
    (h : v.checkReductions n a b = .ok x) : ∀ e, x = .error e → FoundLate e = true := by
  induction n generalizing b with
  | zero => cases h
  | succ n ih =>
    unfold View.checkReductions at h
    simp only [Except.bind_eq_ok] at h
    obtain ⟨m, _, h⟩ := h
    split at h
    · cases h; intro e he; cases he
    · split at h
      · cases h; intro e he; cases he; rfl
      · simp only [Except.bind_eq_ok] at h
        obtain ⟨b', _, h⟩ := h
        cases b' with
        | true => cases h; intro e he; cases he; rfl
        | false => exact ih h

theorem insertComposition_late (n : Nat) (c l r : CId) : Late (insertComposition n c l r) := by
  unfold insertComposition
  have hc : ∀ b, Late (do CM.ofR (← CM.reading (·.checkReductions n c b)) : CM Unit) := by
    intro b x
    refine Ends.bind (Ends.reading fun k hk => ?_)
    exact Ends.ofR (checkReductions_late hk)
  have hd : ∀ m : Mixed, Late (do
      match ← CM.ofE (do composeDelta m.id (← m.maybeComposition) l r) with
      | .error e => throw e
      | .ok d => do
        let _ ← CM.update d : CM Unit) := by
    intro m x
    refine Ends.bind (Ends.ofE fun q hq => ?_)
    simp only [Except.bind_eq_ok] at hq
    obtain ⟨mc, _, hq⟩ := hq
    cases q with
    | ok d => exact (Late.bind (Late.update d) fun _ => Late.pure ()) x
    | error e =>
      refine Ends.throw fun e' he => ?_
      cases he
      unfold composeDelta at hq
      split at hq <;> cases hq
      rfl
  refine Late.bind (Late.reading _) fun b => ?_
  split
  · exact Late.throw rfl
  · refine Late.bind (Late.reading _) fun b' => ?_
    split
    · exact Late.throw rfl
    · intro x
      refine Ends.bind (Ends.reading fun k hk => ?_)
      refine Ends.bind (Ends.ofR ?_)
      cases k with
      | error e => intro e' he; cases he; exact checkReductions_late hk e rfl
      | ok u =>
        refine Ends.bind (Ends.reading fun k' hk' => ?_)
        refine Ends.bind (Ends.ofR ?_)
        cases k' with
        | error e => intro e' he; cases he; exact checkReductions_late hk' e rfl
        | ok u' => exact Ends.bind (Ends.reading fun m hm => hd m x)

theorem redefine_late (n : Nat) (c : CId) (l r : Syn) : Late (redefine n c l r) :=
  Late.bind (conceptFromAst_late _ _) fun _ =>
    Late.bind (conceptFromAst_late _ _) fun _ => insertComposition_late _ _ _ _

theorem redefineComposition_late (n : Nat) (c : CId) (l r : Syn) (ol or : Str) :
    Late (redefineComposition n c l r ol or) := by
  unfold redefineComposition
  late [relabel_late _ _ _ _, redefine_late _ _ _ _]

theorem defineNewSyntax_late (n : Nat) (syn : Str) (l r : Syn) :
    Late (defineNewSyntax n syn l r) := by
  unfold defineNewSyntax
  late [conceptFromAst_late _ _]

theorem blindlyRemove_late (c : CId) : Late (blindlyRemove c) :=
  Late.bind (Late.update _) fun _ => Late.pure _

theorem removeString_late (s : Str) : Late (removeString s) := by
  unfold removeString
  late [blindlyRemove_late _]

theorem removeConcept_late (c : CId) : Late (removeConcept c) := by
  unfold removeConcept
  late [removeString_late _, blindlyRemove_late _]

theorem tryDeleteConcept_late (c : CId) (syn : Str) : Late (tryDeleteConcept c syn) := by
  unfold tryDeleteConcept
  late [unlabel_late _ _, removeConcept_late _]

end Updater

/-- Store and pending changes are the same. -/
def Same (c c' : Ctx) : Prop := c'.snap = c.snap ∧ c'.delta = c.delta

theorem same_closed : Closed Same where
  same _ _ h h' := ⟨h, h'⟩
  trans _ _ _ h h' := ⟨h'.1.trans h.1, h'.2.trans h.2⟩

/-- When a computation ends in a way that satisfies `Q`, it has changed nothing. -/
def Quiet {α : Type} (Q : Except ZiaError α → Prop) (m : CM α) : Prop :=
  ∀ c, Ends m c (fun r c' => Q r → Same c c')

/-- An error that is not found late. -/
def Early {α : Type} : Except ZiaError α → Prop
  | .ok _ => False
  | .error e => FoundLate e = false

namespace Quiet

variable {α β : Type} {Q : Except ZiaError β → Prop}

theorem of_keeps {m : CM β} (h : Keeps Same m) : Quiet Q m := fun c => (h c).mono fun _ _ h _ => h

theorem of_late {m : CM β} (h : Late m) : Quiet Early m := fun c => (h c).mono fun r c' h1 h2 => by
  cases r with
  | ok a => exact h2.elim
  | error e => rw [Early, h1 e rfl] at h2; cases h2

/-- First a part that changes nothing. -/
theorem bind {m : CM α} {f : α → CM β} (h : Keeps Same m) (hf : ∀ a, Quiet Q (f a)) :
    Quiet Q (m >>= f) := by
  intro c
  refine Ends.bind ((h c).mono fun r c1 h1 => ?_)
  cases r with
  | ok a => exact (hf a c1).mono fun r c2 h2 hq => same_closed.trans _ _ _ h1 (h2 hq)
  | error e => exact fun _ => h1

theorem fault (f : Fault) : Quiet Q (CM.fault f : CM β) := fun _ => Ends.fault

/-- Handling an error that is not found late. -/
theorem onError {e : ZiaError} {m h : CM β} (he : FoundLate e = false)
    (hQ : ∀ x, Q (.error x) → FoundLate x = false)
    (hm : Quiet (fun r => Q r ∨ Early r) m) (hh : Quiet Q h) : Quiet Q (Context.onError e m h) := by
  intro c
  refine Ends.tryCatch ((hm c).mono fun r c1 h1 => ?_)
  cases r with
  | ok a => exact fun hq => h1 (.inl hq)
  | error x =>
    show Ends (ite _ _ _) c1 _
    split
    · next hx =>
      subst hx
      exact (hh c1).mono fun r c2 h2 hq => same_closed.trans _ _ _ (h1 (.inr he)) (h2 hq)
    · exact Ends.throw fun hq => h1 (.inr (hQ x hq))

end Quiet

namespace Context

theorem tryRemovingReduction_quiet (t : Syn) : Quiet Early (tryRemovingReduction t) := by
  unfold tryRemovingReduction
  refine Quiet.bind (Keeps.exclusive same_closed) fun _ => ?_
  split
  · exact Quiet.of_late (Late.bind (Late.ofE _) fun _ => Updater.deleteReduction_late _ _)
  · exact Quiet.of_late (Late.bind (Late.ofE _) fun _ => Late.throw rfl)

theorem executeReduction_quiet (n : Nat) (t nf : Syn) : Quiet Early (executeReduction n t nf) := by
  unfold executeReduction
  split
  · exact Quiet.of_keeps (Keeps.throw same_closed _)
  · split
    · exact tryRemovingReduction_quiet _
    · refine Quiet.bind (Keeps.searching same_closed _) fun o => ?_
      split
      · exact Quiet.of_keeps (by keeps [] using same_closed)
      · refine Quiet.bind (Keeps.exclusive same_closed) fun _ => Quiet.of_late ?_
        late [Updater.conceptFromAst_late _ _, Updater.updateReduction_late _ _ _ _]

/-- One structural step: what changes nothing comes first, then only late errors. -/
macro "quiet_step" : tactic => `(tactic| first
  | with_reducible exact Quiet.fault _
  | with_reducible exact Quiet.of_keeps (Keeps.throw same_closed _)
  | with_reducible refine Quiet.bind (Keeps.exclusive same_closed) fun _ => ?_
  | with_reducible refine Quiet.bind (Keeps.reading same_closed _) fun _ => ?_
  | with_reducible refine Quiet.bind (Keeps.searching same_closed _) fun _ => ?_
  | with_reducible refine Quiet.bind (Keeps.view same_closed) fun _ => ?_
  | with_reducible refine Quiet.bind (Keeps.ofE same_closed _) fun _ => ?_
  | dsimp only
  | split)

theorem define_quiet (n : Nat) (new old : Syn) : Quiet Early (define n new old) := by
  unfold define
  repeat' first
    | with_reducible exact Quiet.of_late (Updater.relabel_late _ _ _ _)
    | with_reducible exact Quiet.of_late (Updater.label_late _ _ _ _)
    | with_reducible exact Quiet.of_late (Updater.defineNewSyntax_late _ _ _ _)
    | with_reducible exact Quiet.of_late (Updater.redefine_late _ _ _ _)
    | with_reducible exact Quiet.of_late (Updater.redefineComposition_late _ _ _ _ _ _)
    | with_reducible exact Quiet.of_late (Late.bind (Updater.tryDeleteConcept_late _ _) fun _ =>
        Late.bind (Updater.tryDeleteConcept_late _ _) fun _ => Updater.tryDeleteConcept_late _ _)
    | with_reducible exact Quiet.of_late (Late.bind (Updater.unlabel_late _ _) fun _ =>
        Late.bind (Late.ofE _) fun _ => Late.bind (Late.ofE _) fun _ => Updater.relabel_late _ _ _ _)
    | quiet_step

theorem executeComposition_quiet (n : Nat) (new old : Syn) :
    Quiet Early (executeComposition n new old) := by
  unfold executeComposition
  split
  · exact Quiet.of_keeps (Keeps.throw same_closed _)
  · exact define_quiet _ _ _

theorem matchRighthandPair_quiet (n k : Nat) (l rl rr : Syn) :
    Quiet Early (matchRighthandPair n k l rl rr) := by
  induction k generalizing rl with
  | zero => unfold matchRighthandPair; exact Quiet.fault _
  | succ k ih =>
    unfold matchRighthandPair
    split
    · exact Quiet.of_keeps (Keeps.throw same_closed _)
    · refine Quiet.bind (Keeps.reading same_closed _) fun o => ?_
      split
      · exact executeReduction_quiet _ _ _
      · exact executeComposition_quiet _ _ _
      · refine Quiet.bind (Keeps.reading same_closed _) fun m => ?_
        split
        · exact Quiet.of_keeps (Keeps.throw same_closed _)
        · exact Quiet.bind (Keeps.searching same_closed _) fun t => ih _

/-- The command `let` went on as if it was not there, or failed early. -/
def LetQuiet : Except ZiaError (Option Str) → Prop
  | .ok o => o = none
  | .error e => FoundLate e = false

theorem callLet_quiet (n : Nat) (right : Syn) : Quiet LetQuiet (callLet n right) := by
  have done : ∀ m : CM Unit, Quiet Early m →
      Quiet (fun r => r = .ok false ∨ Early r) (do m; return true : CM Bool) := by
    intro m hm c
    refine Ends.bind ((hm c).mono fun r c1 h1 => ?_)
    cases r with
    | ok a => exact Ends.pure fun h => by rcases h with h | h <;> cases h
    | error e => intro h; rcases h with h | h
                 · cases h
                 · exact h1 h
  have first : Quiet (fun r => r = .ok false ∨ Early r) (match right.expansion with
    | none => pure false
    | some (l, r) =>
      match executeLet n l r with
      | none => pure false
      | some m => onError .unusedSymbol (onError .cannotReduceFurther (do m; return true)
          (pure false)) (pure false) : CM Bool) := by
    split
    · exact Quiet.of_keeps (Keeps.pure same_closed _)
    · split
      · exact Quiet.of_keeps (Keeps.pure same_closed _)
      · next r _ _ m hm =>
        have hq : Quiet Early m := by
          unfold executeLet at hm
          cases hr : r.expansion with
          | none => simp [hr] at hm
          | some p =>
            rw [hr] at hm
            simp only [Option.map_some, Option.some.injEq] at hm
            subst hm
            exact matchRighthandPair_quiet _ _ _ _ _
        have hor : ∀ x, ((.error x : Except ZiaError Bool) = .ok false ∨
            Early (.error x : Except ZiaError Bool))
            → FoundLate x = false := by
          intro x hx
          rcases hx with hx | hx
          · cases hx
          · exact hx
        refine Quiet.onError rfl hor ?_ (Quiet.of_keeps (Keeps.pure same_closed _))
        intro c
        refine (Quiet.onError (Q := fun r => r = .ok false ∨ Early r) rfl hor ?_
          (Quiet.of_keeps (Keeps.pure same_closed _)) c).mono fun r c' h h' => h (by
            rcases h' with h' | h'
            · exact h'
            · exact .inr h')
        intro c
        exact (done _ hq c).mono fun r c' h h' => h (by
            rcases h' with h' | h'
            · exact h'
            · exact .inr h')
  unfold callLet
  intro c
  refine Ends.bind ((first c).mono fun b c1 h1 => ?_)
  cases b with
  | error e => exact fun h => h1 (.inr h)
  | ok b =>
    cases b with
    | true => exact Ends.pure fun h => by cases h
    | false =>
      have h1 := h1 (.inl rfl)
      show Ends (_ : CM (Option Str)) c1 _
      refine Ends.mono (Q := fun r c' => LetQuiet r → Same c1 c') ?_ fun r c' h hq =>
        same_closed.trans _ _ _ h1 (h hq)
      refine Quiet.bind (Q := LetQuiet) (Keeps.searching same_closed _) (fun o => ?_) c1
      cases o with
      | none => exact Quiet.of_keeps (Keeps.pure same_closed _)
      | some t =>
        intro c
        refine Ends.bind ((executeReduction_quiet n right t c).mono fun r c2 h2 => ?_)
        cases r with
        | ok a => exact Ends.pure fun h => by cases h
        | error e => exact h2

theorem callForget_quiet (right : Syn) : Quiet LetQuiet (callForget right) := by
  unfold callForget
  split
  · exact Quiet.of_keeps (Keeps.pure same_closed _)
  · refine Quiet.bind (Keeps.exclusive same_closed) fun _ => ?_
    refine Quiet.bind (Keeps.ofE same_closed _) fun s => ?_
    intro c
    refine Ends.bind ((Updater.deleteReduction_late _ s c).mono fun r c1 h1 => ?_)
    cases r with
    | ok a => exact Ends.pure fun h => by cases h
    | error e =>
      intro h
      have := h1 e rfl
      rw [show FoundLate e = false from h] at this
      cases this

theorem callLet_empty (n : Nat) (right : Syn) (c : Ctx) :
    Ends (callLet n right) c fun r _ => ∀ s, r = .ok (some s) → s = [] := by
  unfold callLet
  refine Ends.bind fun b c1 _ => ?_
  cases b with
  | error e => intro s hs; cases hs
  | ok b =>
    cases b with
    | true => exact Ends.pure fun s hs => by cases hs; rfl
    | false =>
      refine Ends.bind fun o c2 _ => ?_
      cases o with
      | error e => intro s hs; cases hs
      | ok o =>
        cases o with
        | none => exact Ends.pure fun s hs => by cases hs
        | some t =>
          refine Ends.bind fun o c2 _ => ?_
          cases o with
          | error e => intro s hs; cases hs
          | ok o => exact Ends.pure fun s hs => by cases hs; rfl

theorem callForget_empty (right : Syn) (c : Ctx) :
    Ends (callForget right) c fun r _ => ∀ s, r = .ok (some s) → s = [] := by
  unfold callForget
  split
  · exact Ends.pure fun s hs => by cases hs
  · refine Ends.bind fun o c2 _ => ?_
    cases o with
    | error e => intro s hs; cases hs
    | ok o =>
      refine Ends.bind fun o c2 _ => ?_
      cases o with
      | error e => intro s hs; cases hs
      | ok o =>
        refine Ends.bind fun o c2 _ => ?_
        cases o with
        | error e => intro s hs; cases hs
        | ok o => exact Ends.pure fun s hs => by cases hs; rfl

theorem callLabel_same (n : Nat) (right : Syn) : Keeps Same (callLabel n right) := by
  unfold callLabel
  keeps [] using same_closed

theorem stringOf_same (t : Syn) : Keeps Same (stringOf t) := by
  unfold stringOf
  keeps [] using same_closed

theorem pinning_quiet {m : CM Str} (h : Quiet Answers m) : Quiet Answers (pinning m) := by
  unfold pinning
  refine Quiet.bind (Keeps.get same_closed) fun p => ?_
  refine Quiet.bind (Keeps.modify same_closed _ (fun _ => rfl) (fun _ => rfl)) fun _ => ?_
  intro c
  refine Ends.bind (Ends.tryCatch (Ends.bind ((h c).mono fun r c1 h1 => ?_)))
  cases r with
  | ok a =>
    refine Ends.pure ?_
    refine Ends.bind (Ends.modify ?_)
    exact Ends.ofR fun hq => ⟨(h1 hq).1, (h1 hq).2⟩
  | error e =>
    refine Ends.pure ?_
    refine Ends.bind (Ends.modify ?_)
    exact Ends.ofR fun hq => ⟨(h1 hq).1, (h1 hq).2⟩

theorem answers_early {x : ZiaError} : Answers (.error x) → FoundLate x = false := id

theorem quiet_or {m : CM Str} (h : Quiet Answers m) : Quiet (fun r => Answers r ∨ Early r) m :=
  fun c => (h c).mono fun r c' h h' => h (by
    rcases h' with h' | h'
    · exact h'
    · cases r with
      | ok a => exact h'.elim
      | error e => exact h')

theorem calls_quiet (n k : Nat) : (∀ t, Quiet Answers (call n k t)) ∧
    (∀ l r, Quiet Answers (callPair n k l r)) ∧ (∀ l r, Quiet Answers (reduceAndCallPair n k l r)) ∧
    (∀ t, Quiet Answers (tryReducing n k t)) := by
  induction k with
  | zero =>
    refine ⟨fun t => ?_, fun l r => ?_, fun l r => ?_, fun t => ?_⟩
    · unfold call; exact Quiet.fault _
    · unfold callPair; exact Quiet.fault _
    · unfold reduceAndCallPair; exact Quiet.fault _
    · unfold tryReducing; exact Quiet.fault _
  | succ k ih =>
    obtain ⟨ih1, ih2, ih3, ih4⟩ := ih
    refine ⟨fun t => ?_, fun l r => ?_, fun l r => ?_, fun t => ?_⟩
    · unfold call
      refine Quiet.bind (stringOf_same _) fun o => ?_
      split
      · exact Quiet.of_keeps (Keeps.pure same_closed _)
      · split
        · refine Quiet.onError rfl (fun _ => answers_early) (quiet_or (ih2 _ _))
            (Quiet.onError rfl (fun _ => answers_early) (quiet_or (ih4 _)) (Quiet.of_keeps ?_))
          keeps [] using same_closed
        · exact Quiet.onError rfl (fun _ => answers_early) (quiet_or (ih4 _))
            (Quiet.of_keeps (Keeps.ofE same_closed _))
    · unfold callPair
      have rest : ∀ o : Option Str, (match o with | some s => s = [] | none => True) →
          Quiet Answers (match o with
          | some s => return s
          | none => do
            if (← ofE (Search.cctOfAst (env (← get)) r)) = some .reduction then tryReducing n k l
            else reduceAndCallPair n k l r : CM Str) := by
        intro o ho
        cases o with
        | some s => exact fun c => Ends.pure fun h => (h ho).elim
        | none =>
          refine Quiet.bind (Keeps.get same_closed) fun _ => ?_
          refine Quiet.bind (Keeps.ofE same_closed _) fun _ => ?_
          split
          · exact ih4 _
          · exact ih3 _ _
      have quiet : ∀ m : CM (Option Str), Quiet LetQuiet m →
          (∀ c, Ends m c fun r _ => ∀ s, r = .ok (some s) → s = []) →
          Quiet Answers (do
            let o ← m
            match o with
            | some s => return s
            | none => do
              if (← ofE (Search.cctOfAst (env (← get)) r)) = some .reduction then tryReducing n k l
              else reduceAndCallPair n k l r : CM Str) := by
        intro m hm he c
        refine Ends.bind fun x c1 hx => ?_
        have h1 := hm c x c1 hx
        have h2 := he c x c1 hx
        cases x with
        | error e => exact h1
        | ok o =>
          cases o with
          | some s => exact Ends.pure fun h => (h (h2 s rfl)).elim
          | none =>
            exact (rest none trivial c1).mono fun y c2 h3 hy => same_closed.trans _ _ _ (h1 rfl) (h3 hy)
      have go : Quiet Answers (do
            let o ← callLabel n r
            match o with
            | some s => return s
            | none => do
              if (← ofE (Search.cctOfAst (env (← get)) r)) = some .reduction then tryReducing n k l
              else reduceAndCallPair n k l r : CM Str) := by
        refine Quiet.bind (callLabel_same n r) fun o => ?_
        cases o with
        | some s => exact Quiet.of_keeps (Keeps.pure same_closed _)
        | none => exact rest none trivial
      refine Quiet.bind (Keeps.get same_closed) fun _ => ?_
      refine Quiet.bind (Keeps.ofE same_closed _) fun t => ?_
      split
      · exact quiet _ (callLet_quiet n r) (callLet_empty n r)
      · exact quiet _ (callForget_quiet r) (callForget_empty r)
      · exact go
      · exact rest none trivial
    · unfold reduceAndCallPair
      refine Quiet.bind (Keeps.searching same_closed _) fun x => ?_
      refine Quiet.bind (Keeps.searching same_closed _) fun y => ?_
      split
      · exact Quiet.of_keeps (Keeps.throw same_closed _)
      · exact ih2 _ _
      · exact ih2 _ _
      · exact ih2 _ _
    · unfold tryReducing
      refine Quiet.bind (Keeps.searching same_closed _) fun x => ?_
      split
      · split
        · exact Quiet.of_keeps (by keeps [] using same_closed)
        · exact pinning_quiet (ih1 _)

/-- Only introductions are made by a command that is answered. -/
theorem command_introduces {n : Nat} {s : Str} {c c1 : Ctx} {r : Except ZiaError Str}
    (h : command n s c = .ok (r, c1)) (hr : Answers r) : Adds c c1 := by
  suffices Ends (command n s) c (fun r c' => Answers r → Adds c c') from this r c1 h hr
  have cons : ∀ {m : CM Syn} {f : Syn → CM Str}, Keeps Adds m →
      (∀ t c, Ends (f t) c (fun r c' => Answers r → Adds c c')) →
      ∀ c, Ends (m >>= f) c (fun r c' => Answers r → Adds c c') := by
    intro m f hm hf c
    refine Ends.bind ((hm c).mono fun x c1 h1 => ?_)
    cases x with
    | error e => exact fun _ => h1
    | ok t => exact (hf t c1).mono fun y c2 h2 hy => adds_closed.trans _ _ _ h1 (h2 hy)
  unfold command
  refine cons (Parser.astFromExpression_adds n s) (fun t => ?_) c
  refine cons (Keeps.searching adds_closed _) fun t => ?_
  refine cons (Keeps.tryCatch adds_closed (Parser.createVariables_adds t) fun _ => Keeps.fault _) fun t c => ?_
  exact ((calls_quiet n n).1 t c).mono fun y c2 h2 hy => adds_closed.same _ _ (h2 hy).1 (h2 hy).2

end Context

end Zia

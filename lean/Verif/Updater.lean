import Verif.Search

/-!
# Changing the context

Models /repo/zia/src/context_updater.rs, and the state of `Context` (context.rs).
-/

namespace Zia

variable [HashOrder]

/-- `context.rs` 44-63 `struct Context`. `pinned` says whether another pointer to the change set is
alive (`Rc::get_mut`/`Arc::get_mut` in single_threaded.rs 45-47, multi_threaded.rs 86-88 would return
`None`): a `ContextSearch` keeps one until it is dropped. -/
structure Ctx where
  snap : Snap
  delta : Nested
  cache : Cache
  vars : AMap Str CId
  bound : List Key
  pinned : Bool
  deriving DecidableEq, Repr

/-- A computation on the context: it may fault, and may end with an error the user sees; changes made
before the error stay. -/
abbrev CM := ExceptT ZiaError (StateT Ctx (Except Fault))

namespace CM

/-- A fault as a computation. -/
def fault {α : Type} (f : Fault) : CM α := fun _ => .error f

/-- A reading function. -/
def ofE {α : Type} (x : Except Fault α) : CM α := fun c => do return (.ok (← x), c)

/-- The `?` operator on a result. -/
def ofR {α : Type} (x : Except ZiaError α) : CM α := fun c => .ok (x, c)

/-- What the reading functions see. -/
def view : CM View := do
  let c ← get
  return ⟨c.snap, c.delta⟩

/-- Read with a function of the view. -/
def reading {α : Type} (f : View → Except Fault α) : CM α := do ofE (f (← view))

/-- `context.rs` 1224-1231 `context_search` and `context_search.rs` 1289-1327: the environment of a new
search. -/
def env (c : Ctx) : Env := ⟨⟨c.snap, c.delta⟩, .one [], [], [], c.bound⟩

/-- Run a search on the context; only the cache changes. -/
def searching {α : Type} (f : Env → SM α) : CM α := fun c => do
  let (a, ca) ← f (env c) c.cache
  return (.ok a, { c with cache := ca })

/-- `self.delta.get_mut()` with the error for more than one pointer, e.g. `context.rs` 1046-1049. -/
def exclusive : CM Unit := do
  if (← get).pinned then throw .multiplePointersToDelta else pure ()

/-- `NestedDelta::update_concept_delta` (`context_delta.rs` 687-694, 81-181), which also empties the
cache (180, `context_cache/macro.rs` 33-36). -/
def update (dd : Direct CId) : CM CId := fun c => do
  let (d, id) ← c.delta.update dd
  return (.ok id, { c with delta := d, cache := .empty })

end CM

namespace Updater

open CM

/-- `context_updater.rs` 149-185 `new_labelled_concept`. -/
def newLabelledConcept (s : Str) (t : Option CCT) (label : Option CId) : CM CId := do
  if label.isSome || t = some .label then
    let str ← update (.new (.str s))
    let comp ← update (.new (.reducesTo str))
    update (.new (match label with
      | none => .double comp t
      | some l => .right comp l t))
  else fault (.panic .other)

/-- `context_updater.rs` 210-232 `delete_reduction`. -/
def deleteReduction (c : CId) (syn : Str) : CM Unit := do
  match (← reading (·.read c)).reduction with
  | none => throw (.redundantReduction syn)
  | some r => do
    let _ ← update (.reduce c (.remove r))

/-- `context_updater.rs` 197-208 `unlabel`. -/
def unlabel (c : CId) (syn : Str) : CM Unit := do
  match ← reading (·.conceptOfLabel c) with
  | none => fault (.panic .noLabel)
  | some l => deleteReduction l (str% "label_of " ++ syn)

/-- `context_updater.rs` 315-336 `find_or_insert_composition`. -/
def findOrInsertComposition (l r : CId) : CM CId := do
  match (← reading (·.read l)).findAsHand r .left with
  | some c => return c
  | none => update (.new (.composition ⟨l, r⟩))

/-- `context_updater.rs` 261-303 `update_reduction`. -/
def updateReduction (n : Nat) (c : CId) (syn : Str) (r : CId) : CM Unit := do
  let nf ← reading (·.normalForm n r)
  if nf = some c then throw .cyclicReduction
  else do
    if (← reading (·.read c)).reduction = some r then throw (.redundantReduction syn)
    else do
      if r = (← reading (·.reductionOfComposition n c)) then
        throw (.redundantReduction c.display)
      else do
        let _ ← update (.reduce c (match nf with
          | none => .create r
          | some b => .update b r))

/-- `context_updater.rs` 234-259 (with `new_string`, 305-313) `label`. -/
def label (n : Nat) (c : CId) (syn string : Str) : CM Unit := do
  match ← reading (·.concreteId .label) with
  | none => throw .noLabelConcept
  | some l => do
    let comp ← findOrInsertComposition l c
    let str ← match ← ofE ((← get).delta.getString string) with
      | some (.create id) => pure id
      | _ => update (.new (.str string))
    updateReduction n comp (str% "label_of " ++ syn) str

/-- `context_updater.rs` 187-195 `relabel`. -/
def relabel (n : Nat) (c : CId) (syn new : Str) : CM Unit := do
  unlabel c syn
  label n c syn new

/-- `context_updater.rs` 112-147 `concept_from_ast`. -/
def conceptFromAst (n : Nat) : Syn → CM CId
  | t@(.leaf _ c _) => do
    match c with
    | some c => return c
    | none => do
      let s ← ofE t.display
      match ← reading (·.conceptFromLabel n s) with
      | some c => return c
      | none => do
        match ← reading (·.concreteId .label) with
        | none => throw .noLabelConcept
        | some l => newLabelledConcept s none (some l)
  | t@(.branch _ c l r _ _) => do
    match c with
    | some c => return c
    | none => do
      let s ← ofE t.display
      match ← reading (·.conceptFromLabel n s) with
      | some c => return c
      | none => do
        let lc ← conceptFromAst n l
        let rc ← conceptFromAst n r
        let c ← findOrInsertComposition lc rc
        if !s.contains ' ' then label n c s s
        return c

/-- `context_updater.rs` 338-367 `insert_composition`. -/
def insertComposition (n : Nat) (c l r : CId) : CM Unit := do
  if ← reading (·.contains n l c) then throw .infiniteComposition
  else if ← reading (·.contains n r c) then throw .infiniteComposition
  else do
    ofR (← reading (·.checkReductions n c l))
    ofR (← reading (·.checkReductions n c r))
    let m ← reading (·.read c)
    match ← ofE (do composeDelta m.id (← m.maybeComposition) l r) with
    | .error e => throw e
    | .ok d => do
      let _ ← update d

/-- `context_updater.rs` 74-83 `redefine`. -/
def redefine (n : Nat) (c : CId) (l r : Syn) : CM Unit := do
  let lc ← conceptFromAst n l
  let rc ← conceptFromAst n r
  insertComposition n c lc rc

/-- `context_updater.rs` 46-72 `redefine_composition`. -/
def redefineComposition (n : Nat) (c : CId) (l r : Syn) (origL origR : Str) : CM Unit := do
  match (← reading (·.read c)).composition with
  | some (lc, rc) => do
    relabel n lc origL (← ofE l.display)
    relabel n rc origR (← ofE r.display)
  | none => redefine n c l r

/-- `context_updater.rs` 85-110 `define_new_syntax`. -/
def defineNewSyntax (n : Nat) (syn : Str) (l r : Syn) : CM Unit := do
  let found ← match l.concept, r.concept with
    | some lc, some rc => do pure ((← reading (·.read lc)).findAsHand rc .left)
    | _, _ => pure none
  let t ← match found with
    | some c => reading (·.bindConceptToSyntax (Syn.ofStr syn) c)
    | none => pure (Syn.ofStr syn)
  let _ ← conceptFromAst n (t.bindPair l r)

/-- `context_updater.rs` 385-388 `blindly_remove_concept`. -/
def blindlyRemove (c : CId) : CM Unit := do
  let _ ← update (.remove c)

/-- `context_updater.rs` 369-383 `remove_string`. -/
def removeString (s : Str) : CM Unit := do
  match ← ofE ((← get).delta.getString s) with
  | some (.update _ after) => blindlyRemove after
  | some (.create id) => blindlyRemove id
  | _ => fault (.panic .unwrapNone)

/-- `context_updater.rs` 402-409 `remove_concept`. -/
def removeConcept (c : CId) : CM Unit := do
  match (← reading (·.read c)).string with
  | some s => removeString s
  | none => pure ()
  blindlyRemove c

/-- `context_updater.rs` 390-400 `try_delete_concept`. -/
def tryDeleteConcept (c : CId) (syn : Str) : CM Unit := do
  if ← reading (·.isDisconnected c) then
    unlabel c syn
    removeConcept c

end Updater

end Zia

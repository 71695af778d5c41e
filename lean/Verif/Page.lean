import Verif.Context
import Verif.Tutorials

/-!
# The front ends

Models the web page (/repo/zia-lang.org/crate/src/lib.rs and page/home) as a machine of messages and
frames, and the loop of the terminal shell (/repo/izia/src/main.rs). Styles, sizes, focus, scrolling
and logging are left out: they read nothing back. `n` is the fuel of the interpreter.
-/

namespace Zia

variable [HashOrder]

namespace Page

/-- How the page can crash: an index out of range, or a fault of the interpreter. -/
inductive Crash
  | index
  | context (f : Fault)
  deriving DecidableEq, Repr

/-- A call of the interpreter. -/
def ofContext {α : Type} : Except Fault α → Except Crash α
  | .ok a => .ok a
  | .error f => .error (.context f)

/-- `tutorials.rs` 262-266 `struct Model`. -/
structure Lesson where
  steps : List TutorialStep
  current : Nat
  showing : Bool
  deriving DecidableEq, Repr

/-- `home/mod.rs` 48-56 `InterpreterHistoryEntry`, `EntryKind`. -/
inductive Entry
  | command (value : Str)
  | evaluation (value : Str)
  deriving DecidableEq, Repr

/-- `home/mod.rs` 16-24 `struct Model`. The references to elements of the page are not part of it: the
text area exists exactly when the home page was rendered last, see `App.area`. -/
structure Home where
  context : Ctx
  input : Str
  history : List Entry
  isOpen : Bool
  tutorial : Option Lesson
  deriving DecidableEq

/-- `home/mod.rs` 58-70 `enum Msg`. -/
inductive Msg
  | toggleMenu
  | input (s : Str)
  | submit
  | startEmpty
  | startTutorial (steps : List TutorialStep)
  | setInput (s : Str)
  | skip (steps : List TutorialStep) (current : Nat)
  deriving DecidableEq, Repr

/-- `home/mod.rs` 26-38 and `menu.rs` 14-20: the page at first. -/
def Home.first (n : Nat) : Except Crash Home := do
  let c ← ofContext (Context.new n)
  return ⟨c, [], [], true, none⟩

/-- `home/mod.rs` 41-45 `reset`. -/
def Home.reset (n : Nat) (h : Home) : Except Crash Home := do
  let c ← ofContext (Context.new n)
  return { h with context := c, history := [], isOpen := false }

/-- `steps[i]`. -/
def stepAt (steps : List TutorialStep) (i : Nat) : Except Crash TutorialStep :=
  match steps[i]? with
  | some s => .ok s
  | none => .error .index

/-- `home/mod.rs` 140-160: the tutorial after an answer, and the next input. -/
def Lesson.answered (l : Lesson) (output : Str) : Except Crash (Lesson × Str) :=
  if output.isEmpty then
    let l := { l with current := l.current + 1 }
    if l.current < l.steps.length then do
      let s ← stepAt l.steps l.current
      return (l, s.command)
    else return (l, [])
  else return ({ l with showing := true }, [])

/-- `home/mod.rs` 72-175 `update`. `area` is whether the text area exists. The second component is the
argument of the message `SetCommandInput` that is sent after the next render, if one is. -/
def update (n : Nat) (area : Bool) (m : Msg) (h : Home) : Except Crash (Home × Option Str) :=
  match m with
  | .toggleMenu => return ({ h with isOpen := !h.isOpen }, none)
  | .skip steps i => do
    let s ← stepAt steps (i + 1)
    return ({ h with tutorial := some ⟨steps, i + 1, false⟩ }, some s.command)
  | .setInput s => if area then return ({ h with input := s }, none) else return (h, none)
  | .input s => return ({ h with input := s }, none)
  | .startEmpty => do return (← h.reset n, none)
  | .startTutorial steps => do
    let h ← h.reset n
    let s ← stepAt steps 0
    return ({ h with tutorial := some ⟨steps, 0, false⟩ }, some s.command)
  | .submit => do
    let (output, c) ← ofContext (Context.execute n h.context h.input)
    let (t, next) ← match h.tutorial with
      | some l => do
        let (l, next) ← l.answered output
        pure (some l, next)
      | none => pure (none, [])
    return ({ h with
      context := c
      input := []
      history := h.history ++ [.command h.input, .evaluation output]
      tutorial := t }, some next)

/-- The classes of `command_input.rs` 86-106. -/
inductive Colour
  | new | variable | concrete | abst | unmatched
  deriving DecidableEq, Repr

/-- `command_input.rs` 86-106: the colour of a lexeme. -/
def colour : Category → Option Colour
  | .concept .new => some .new
  | .concept .variable => some .variable
  | .concept (.concrete _ _) => some .concrete
  | .concept (.abst _) => some .abst
  | .opening none => some .unmatched
  | .closing none => some .unmatched
  | _ => none

/-- `command_input.rs` 32-61: what is above the command input. -/
inductive Note
  | empty
  | explanation (s : Str)
  | next (steps : List TutorialStep) (current : Nat)
  deriving DecidableEq, Repr

/-- What a render of the home page shows and offers: the entries of `history.rs` 5-30, what is above the
input, the coloured text of `command_input.rs` 81-109, the text area (`command_input.rs` 169) and the
menu (`menu.rs` 22-76), if it is open. -/
structure Screen where
  history : List Entry
  note : Note
  spans : List (Option Colour × Str)
  text : Str
  menu : Option (List Tutorial)
  deriving DecidableEq, Repr

/-- `command_input.rs` 34-60. -/
def noteOf : Option Lesson → Except Crash Note
  | none => .ok .empty
  | some ⟨steps, current, showing⟩ =>
    if showing then
      if current + 1 < steps.length then .ok (.next steps current) else .ok .empty
    else do
      let s ← stepAt steps current
      return .explanation s.explanation

/-- `home/mod.rs` 181-189 `view`, `command_input.rs` 12-115 `view`. -/
def view (n : Nat) (h : Home) : Except Crash Screen := do
  let note ← noteOf h.tutorial
  let ls ← ofContext (lex (Parser.conceptKind ⟨h.context.snap, h.context.delta⟩ n) h.input)
  return {
    history := h.history
    note := note
    spans := ls.map fun l => (colour l.category, l.text)
    text := h.input
    menu := if h.isOpen then some Tutorials.all else none }

/-- `lib.rs` 25-36: the model of the application, with the arguments of the messages
`SetCommandInput` waiting for the next render and what was rendered last: nothing yet, the page for
unknown addresses (`some none`), or the home page. -/
structure App where
  onHome : Bool
  home : Home
  pending : List Str
  screen : Option (Option Screen)
  deriving DecidableEq

/-- `lib.rs` 63-72 `init`. -/
def App.init (n : Nat) (onHome : Bool) : Except Crash App := do
  let h ← Home.first n
  return ⟨onHome, h, [[]], none⟩

/-- Whether the text area is in the document. -/
def App.area (a : App) : Bool :=
  match a.screen with
  | some (some _) => true
  | _ => false

/-- What happens to the application: a message from the user, a change of address (`lib.rs` 48-57) or
a frame. -/
inductive Event
  | msg (m : Msg)
  | url (onHome : Bool)
  | frame
  deriving DecidableEq, Repr

/-- `lib.rs` 87-94 `update`. -/
def App.handle (n : Nat) (m : Msg) (a : App) : Except Crash App := do
  let (h, next) ← update n a.area m a.home
  return { a with home := h, pending := a.pending ++ next.toList }

/-- `lib.rs` 107-124 `view`: the home page or the page for unknown addresses. -/
def App.render (n : Nat) (a : App) : Except Crash (Option Screen) :=
  if a.onHome then do
    let s ← view n a.home
    return some s
  else .ok none

/-- A render, then the messages that were waiting for it. -/
def App.frame (n : Nat) (a : App) : Except Crash App := do
  let screen ← a.render n
  a.pending.foldlM (fun b s => b.handle n (.setInput s))
    { a with screen := some screen, pending := [] }

/-- One event. -/
def App.step (n : Nat) (e : Event) (a : App) : Except Crash App :=
  match e with
  | .msg m => a.handle n m
  | .url b => .ok { a with onHome := b }
  | .frame => a.frame n

end Page

namespace Shell

/-- How the shell ends. -/
inductive Exit
  | exiting
  | crash (f : Fault)
  deriving DecidableEq, Repr

/-- `main.rs` 29-32: the loop of the shell on the lines typed until the first that is not an input. The
lines it prints and how it ends. -/
def loop (n : Nat) (c : Ctx) : List Str → List Str × Exit
  | [] => ([str% "Exiting"], .exiting)
  | s :: ss =>
    match Context.execute n c s with
    | .error f => ([], .crash f)
    | .ok (r, c) =>
      let (out, e) := loop n c ss
      (r :: out, e)

/-- `main.rs` 24-33 `main`, after the notice. -/
def main (n : Nat) (lines : List Str) : List Str × Exit :=
  match Context.new n with
  | .error f => ([], .crash f)
  | .ok c => loop n c lines

end Shell

end Zia

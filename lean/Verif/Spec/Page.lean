import Verif.Page

/-!
# What a visitor of the web page relies on
-/

namespace Zia.Spec

open Zia Zia.Page

variable [HashOrder]

/-- Commands and answers, as a conversation. -/
def entries : List Str → List Str → List Entry
  | c :: cs, r :: rs => .command c :: .evaluation r :: entries cs rs
  | _, _ => []

/-- What the visitor sees is what the interpreter did: the conversation consists of commands and the
answers that a new context gives to them, one after the other, and the context of the page is the one
after the last of them. -/
def Conversation (n : Nat) (h : Home) (cmds answers : List Str) : Prop :=
  cmds.length = answers.length ∧ h.history = entries cmds answers ∧
    ∃ c, Context.new n = .ok c ∧ Context.run n c cmds = .ok (answers, h.context)

/-- The messages that what was rendered last lets the visitor send: the logo of the header
(`header.rs` 16-27), the text area (`command_input.rs` 162-168), the open menu (`menu.rs` 50-70) and the
button for the next step of a tutorial (`command_input.rs` 48-57). -/
inductive Offered : Option (Option Screen) → Msg → Prop
  | menu {s} : Offered (some s) .toggleMenu
  | input {s t} : Offered (some (some s)) (.input t)
  | submit {s} : Offered (some (some s)) .submit
  | empty {s : Screen} : s.menu.isSome → Offered (some (some s)) .startEmpty
  | tutorial {s : Screen} {ts t} : s.menu = some ts → t ∈ ts →
      Offered (some (some s)) (.startTutorial t.steps)
  | next {s : Screen} {steps i} : s.note = .next steps i → Offered (some (some s)) (.skip steps i)

/-- An event that can happen: a frame, a change of address, or a message that is offered. -/
def Possible (a : App) : Event → Prop
  | .msg m => Offered a.screen m
  | _ => True

/-- The page after some events that can happen. -/
inductive Visit (n : Nat) : App → Prop
  | start {b a} : App.init n b = .ok a → Visit n a
  | event {a e a'} : Visit n a → Possible a e → a.step n e = .ok a' → Visit n a'

/-- The answer given last. -/
def lastAnswer (h : Home) : Option Str :=
  match h.history.getLast? with
  | some (.evaluation s) => some s
  | _ => none

/-- A visitor who starts a tutorial on the home page and from then on only enters the command that is
proposed and, if it is answered with something, presses the button for the next step if there is one.
`Led n steps k a`: the page after `k` steps. -/
inductive Led (n : Nat) (steps : List TutorialStep) : Nat → App → Prop
  | start {a b c : App} : a.onHome = true → a.step n (.msg (.startTutorial steps)) = .ok b →
      b.step n .frame = .ok c → Led n steps 0 c
  | enter {k} {a b c : App} : Led n steps k a → k < steps.length → a.step n (.msg .submit) = .ok b →
      lastAnswer b.home = some [] → b.step n .frame = .ok c → Led n steps (k + 1) c
  | click {k} {a b c d e : App} {r ss i} : Led n steps k a → k < steps.length →
      a.step n (.msg .submit) = .ok b → lastAnswer b.home = some r → r ≠ [] →
      b.step n .frame = .ok c → Offered c.screen (.skip ss i) →
      c.step n (.msg (.skip ss i)) = .ok d → d.step n .frame = .ok e → Led n steps (k + 1) e

end Zia.Spec

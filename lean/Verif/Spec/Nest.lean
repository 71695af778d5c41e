import Verif.Nest

/-!
# What grouping should mean

A command is a sequence of items; an item is a symbol or a parenthesised sequence of items.
-/

namespace Zia.Spec

open Zia

/-- What matters of a lexeme for grouping. -/
inductive Tok
  | sym (text : Str) (k : Kind)
  | opening
  | closing
  deriving DecidableEq, Repr

/-- The tokens of a list of lexemes: whitespace separates and is dropped. -/
def toks : List Lexeme → List Tok
  | [] => []
  | ⟨t, .concept k⟩ :: r => .sym t k :: toks r
  | ⟨_, .whitespace⟩ :: r => toks r
  | ⟨_, .opening _⟩ :: r => .opening :: toks r
  | ⟨_, .closing _⟩ :: r => .closing :: toks r

/-- A sequence of items: symbols, and groups holding a sequence of items. -/
inductive Items
  | nil
  | sym (text : Str) (k : Kind) (rest : Items)
  | group (inner rest : Items)
  deriving DecidableEq, Repr

/-- The tokens the user wrote for a sequence of items. -/
def Items.write : Items → List Tok
  | .nil => []
  | .sym t k r => .sym t k :: r.write
  | .group i r => .opening :: i.write ++ .closing :: r.write

/-- No group is empty. -/
def Items.Full : Items → Prop
  | .nil => True
  | .sym _ _ r => r.Full
  | .group i r => i ≠ .nil ∧ i.Full ∧ r.Full

/-- The symbols of a sequence of items, in order. -/
def Items.symbols : Items → List Str
  | .nil => []
  | .sym t _ r => t :: r.symbols
  | .group i r => i.symbols ++ r.symbols

/-- The text of a sequence of items: single spaces between items, parentheses around groups. -/
def Items.text : Items → Str
  | .nil => []
  | .sym t _ .nil => t
  | .sym t _ r => t ++ ' ' :: r.text
  | .group i .nil => '(' :: i.text ++ [')']
  | .group i r => '(' :: i.text ++ ')' :: ' ' :: r.text

/-- The symbol tokens, in order. -/
def symbolsOf : List Tok → List Str
  | [] => []
  | .sym t _ :: r => t :: symbolsOf r
  | _ :: r => symbolsOf r

/-- Parenthesis depth after a token list; `none` if a parenthesis closes nothing. -/
def tokDepth : Nat → List Tok → Option Nat
  | d, [] => some d
  | d, .opening :: r => tokDepth (d + 1) r
  | 0, .closing :: _ => none
  | d + 1, .closing :: r => tokDepth d r
  | d, .sym _ _ :: r => tokDepth d r

/-- No parenthesis is closed right after it was opened. -/
def NoEmptyGroup : List Tok → Prop
  | [] => True
  | [_] => True
  | a :: b :: r => ¬ (a = .opening ∧ b = .closing) ∧ NoEmptyGroup (b :: r)

/-- A prefix of a command with which nothing is wrong yet, at nesting depth `d`. -/
def Viable (ts : List Tok) (d : Nat) : Prop := tokDepth 0 ts = some d ∧ NoEmptyGroup ts

/-- The leaves of a grouped tree, in order. -/
def leavesOf : NST → List Str
  | .leaf _ s _ => [s]
  | .parent cs _ _ => go cs
where
  go : List NST → List Str
    | [] => []
    | c :: cs => leavesOf c ++ go cs

/-- The tree with redundant levels (a parent with a single child) taken away and everything but
leaves and shape forgotten. That redundant levels below the top mean nothing to the rest of the
interpreter is C67. -/
inductive Shape
  | leaf (s : Str)
  | node (cs : List Shape)

/-- A level with one child is that child. -/
def Shape.mk : List Shape → Shape
  | [s] => s
  | cs => .node cs

/-- Shape of a grouped tree. -/
def shapeOf : NST → Shape
  | .leaf _ s _ => .leaf s
  | .parent cs _ _ => Shape.mk (go cs)
where
  go : List NST → List Shape
    | [] => []
    | c :: cs => shapeOf c :: go cs

/-- Shape the user wrote. -/
def Items.shapes : Items → List Shape
  | .nil => []
  | .sym t _ r => .leaf t :: r.shapes
  | .group i r => Shape.mk i.shapes :: r.shapes

end Zia.Spec

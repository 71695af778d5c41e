import Verif.Lexer

/-!
# What lexing should mean (independent of how `lex` computes it)
-/

namespace Zia.Spec

open Zia

/-- A character a symbol can consist of: neither a parenthesis nor whitespace. -/
def SymbolChar (c : Char) : Prop := c ≠ '(' ∧ c ≠ ')' ∧ isWs c = false

/-- The four classes of text a lexeme can hold, by its text alone. -/
inductive Cls
  | opening | closing | space | symbol
  deriving DecidableEq, Repr

/-- Text of a class: one parenthesis, or a non-empty run of whitespace or of symbol characters. -/
def HasClass : Cls → Str → Prop
  | .opening, t => t = ['(']
  | .closing, t => t = [')']
  | .space, t => t ≠ [] ∧ ∀ c ∈ t, isWs c = true
  | .symbol, t => t ≠ [] ∧ ∀ c ∈ t, SymbolChar c

/-- The class shown by the category of a lexeme. -/
def clsOf : Category → Cls
  | .concept _ => .symbol
  | .whitespace => .space
  | .opening _ => .opening
  | .closing _ => .closing

/-- A segmentation of a text into maximal runs: every piece has its class and no two neighbouring
pieces are both whitespace or both symbols. -/
def Canonical : List (Cls × Str) → Prop
  | [] => True
  | [(k, t)] => HasClass k t
  | (k, t) :: (k', t') :: rest =>
    HasClass k t ∧ ¬ (k = k' ∧ (k = .space ∨ k = .symbol)) ∧ Canonical ((k', t') :: rest)

/-- The text of a segmentation. -/
def textOf (ps : List (Cls × Str)) : Str := (ps.map (·.2)).flatten

/-- The segmentation shown by a list of lexemes. -/
def segments (ls : List Lexeme) : List (Cls × Str) :=
  ls.map fun l => (clsOf l.category, l.text)

/-- Running parenthesis depth over a list of classes, starting at depth `d`; `none` as soon as a
closing parenthesis has nothing to close. -/
def depth : Nat → List Cls → Option Nat
  | d, [] => some d
  | d, .opening :: r => depth (d + 1) r
  | 0, .closing :: _ => none
  | d + 1, .closing :: r => depth d r
  | d, .space :: r => depth d r
  | d, .symbol :: r => depth d r

/-- The parenthesis at `i` is closed by the one at `j`: the stretch strictly between is balanced. -/
def Matches (cs : List Cls) (i j : Nat) : Prop :=
  i < j ∧ cs[i]? = some .opening ∧ cs[j]? = some .closing ∧
    depth 0 ((cs.take j).drop (i + 1)) = some 0

end Zia.Spec

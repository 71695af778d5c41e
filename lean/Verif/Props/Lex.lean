import Verif.Lemmas.Lex

/-!
# Properties C01, C02, C03: lexing

`kind` is the classification of a symbol (`concept_kind_from_symbol`), which reads the context;
every theorem holds for every such function, hence for every context.
-/

namespace Zia.Props

open Zia Zia.Spec

/-- C01. The lexemes' texts concatenate to the command and none is empty. -/
theorem lex_lossless (kind : Str → Except Fault Kind) (command : Str) (ls : List Lexeme)
    (h : lex kind command = .ok ls) :
    (ls.map (·.text)).flatten = command ∧ ∀ l ∈ ls, l.text ≠ [] := by
  obtain ⟨stack, I⟩ := lex_inv h
  refine ⟨I.text, fun l hl => ?_⟩
  have hw := (I.wf l hl).1
  cases hc : l.category <;> simp [hc, clsOf, HasClass] at hw
  all_goals first | exact hw.1 | (rw [hw]; simp)

/-- C01, totality: lexing fails only if the lookup of some symbol of the context fails. -/
theorem lex_total (kind : Str → Except Fault Kind) (command : Str)
    (hk : ∀ s, ∃ k, kind s = .ok k) : ∃ ls, lex kind command = .ok ls := by
  obtain ⟨st, hst⟩ := lexLoop_total hk command ⟨[], []⟩
  exact ⟨st.rev.reverse, by simp [lex, hst]; rfl⟩

/-- C02. The lexemes are maximal runs, and each symbol is classified by its whole text. -/
theorem lex_canonical (kind : Str → Except Fault Kind) (command : Str) (ls : List Lexeme)
    (h : lex kind command = .ok ls) :
    Canonical (segments ls) ∧ textOf (segments ls) = command ∧
      ∀ t k, ⟨t, .concept k⟩ ∈ ls → kind t = .ok k := by
  obtain ⟨stack, I⟩ := lex_inv h
  refine ⟨I.canonical, ?_, fun t k hm => (I.wf _ hm).2 k rfl⟩
  simpa [textOf, segments, Function.comp_def] using I.text

/-- C02, uniqueness: a text has at most one segmentation into maximal runs, so the previous theorem
determines the lexemes. -/
theorem canonical_unique (ps qs : List (Cls × Str)) (hp : Canonical ps) (hq : Canonical qs)
    (h : textOf ps = textOf qs) : ps = qs :=
  Zia.canonical_unique ps qs hp hq h

/-- C03. A parenthesis names its partner exactly when the two really match, from both sides. -/
theorem lex_links (kind : Str → Except Fault Kind) (command : Str) (ls : List Lexeme)
    (h : lex kind command = .ok ls) (i j : Nat) :
    ((ls[i]?.map (·.category)) = some (.opening (some j)) ↔
        Matches (ls.map (clsOf ·.category)) i j) ∧
    ((ls[j]?.map (·.category)) = some (.closing (some i)) ↔
        Matches (ls.map (clsOf ·.category)) i j) := by
  obtain ⟨stack, I⟩ := lex_inv h
  exact ⟨I.opens i j, I.closes i j⟩

/-- C03, uniqueness: matching is one-to-one, so each parenthesis has at most one partner. -/
theorem matches_unique (cs : List Cls) (i j i' j' : Nat) (h : Matches cs i j)
    (h' : Matches cs i' j') : i = i' ↔ j = j' :=
  Zia.matches_unique cs i j i' j' h h'

/-- A classification used to show that the hypotheses above are met. -/
def sampleKind (s : Str) : Except Fault Kind :=
  if s = ['_', 'x', '_'] then .ok .variable else .ok (if s = ['l'] then .abst (.com 3) else .new)

example : lex sampleKind "l  (_x_ (b)))".toList = .ok
    [⟨['l'], .concept (.abst (.com 3))⟩, ⟨[' ', ' '], .whitespace⟩, ⟨['('], .opening (some 8)⟩,
     ⟨['_', 'x', '_'], .concept .variable⟩, ⟨[' '], .whitespace⟩, ⟨['('], .opening (some 7)⟩,
     ⟨['b'], .concept .new⟩, ⟨[')'], .closing (some 5)⟩, ⟨[')'], .closing (some 2)⟩,
     ⟨[')'], .closing none⟩] := by decide

example : ∀ s, ∃ k, sampleKind s = .ok k := fun s => by
  unfold sampleKind; split
  · exact ⟨_, rfl⟩
  · exact ⟨_, rfl⟩

example : Canonical [(.symbol, ['a']), (.space, [' ']), (.opening, ['('])] := by
  simp [Canonical, HasClass, SymbolChar, isWs]

example : Matches [.opening, .opening, .symbol, .closing, .closing] 0 4 := by
  simp [Matches, depth]

end Zia.Props

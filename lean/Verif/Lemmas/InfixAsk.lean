import Verif.Lemmas.Infix
import Verif.Lemmas.WonderCall

/-!
# Reading the question `x -> y`
-/

namespace Zia
open CM Spec Relation
set_option linter.unusedSectionVars false
variable [HashOrder] {s : Snap} {D : Nat → Prop}

/-- The text of the question whether `x` reduces to `y`, without brackets. -/
def bareWondering (x y : Str) : Str := x ++ str% " -> " ++ y

theorem nest_infix (kx ka ky : Kind) (x y : Str) :
    nest [⟨x, .concept kx⟩, ⟨[' '], .whitespace⟩, ⟨str% "->", .concept ka⟩,
      ⟨[' '], .whitespace⟩, ⟨y, .concept ky⟩] =
    .ok (.parent [NST.fromConceptKind kx x, NST.fromConceptKind ka (str% "->"),
        NST.fromConceptKind ky y] ((x ++ ' ' :: str% "->") ++ ' ' :: y) none) := rfl

theorem lex_infix {x y : Str} (hx : IsSymbol x) (hy : IsSymbol y) {kind : Str → Except Fault Kind}
    {ls : List Lexeme} (h : lex kind (bareWondering x y) = .ok ls) :
    ∃ kx ka ky, ls = [⟨x, .concept kx⟩, ⟨[' '], .whitespace⟩, ⟨str% "->", .concept ka⟩,
      ⟨[' '], .whitespace⟩, ⟨y, .concept ky⟩] ∧
      kind x = .ok kx ∧ kind (str% "->") = .ok ka ∧ kind y = .ok ky := by
  obtain ⟨stack, I⟩ := lex_inv h
  have hsp : HasClass .space [' '] := ⟨by simp, by decide⟩
  have hred : HasClass .symbol (str% "->") := ⟨by decide, by simp [SymbolChar]; decide⟩
  have hcan : Canonical [(.symbol, x), (.space, [' ']), (.symbol, str% "->"), (.space, [' ']),
      (.symbol, y)] :=
    ⟨hx, by decide, hsp, by decide, hred, by decide, hsp, by decide, hy⟩
  have hs := canonical_unique _ _ I.canonical hcan (by
    have := I.text
    simp only [textOf, segments, List.map_map]
    rw [show ((fun x : Cls × Str => x.2) ∘ fun l : Lexeme => (clsOf l.category, l.text)) = (·.text) from rfl, this]
    simp [bareWondering])
  simp only [segments, List.map_eq_cons_iff, List.map_eq_nil_iff, Prod.mk.injEq] at hs
  obtain ⟨⟨t4, k4⟩, _, rfl, ⟨c4, rfl⟩, ⟨t5, k5⟩, _, rfl, ⟨c5, rfl⟩,
    ⟨t7, k7⟩, _, rfl, ⟨c7, rfl⟩, ⟨t8, k8⟩, _, rfl, ⟨c8, rfl⟩, ⟨t9, k9⟩, _, rfl, ⟨c9, rfl⟩, rfl⟩ := hs
  have hw := fun l hl => (I.wf l hl).2
  clear I hcan h
  obtain ⟨k4, rfl⟩ : ∃ k, k4 = .concept k := by cases k4 <;> simp_all [clsOf]
  obtain ⟨k7, rfl⟩ : ∃ k, k7 = .concept k := by cases k7 <;> simp_all [clsOf]
  obtain ⟨k9, rfl⟩ : ∃ k, k9 = .concept k := by cases k9 <;> simp_all [clsOf]
  obtain rfl : k5 = .whitespace := by cases k5 <;> simp_all [clsOf]
  obtain rfl : k8 = .whitespace := by cases k8 <;> simp_all [clsOf]
  exact ⟨k4, k7, k9, rfl, hw ⟨t4, .concept k4⟩ (by simp) _ rfl, hw ⟨str% "->", .concept k7⟩ (by simp) _ rfl,
    hw ⟨t9, .concept k9⟩ (by simp) _ rfl⟩

/-- How reading `x -> y` ends for known words. -/
theorem asksWhether_bare (A : Asked s D) (T : Ties s D) {n : Nat} {x y : Str} (hx : IsSymbol x) (hy : IsSymbol y)
    (vx : Syn.isVariableName x = false) (vy : Syn.isVariableName y = false)
    {c : Ctx} (hc : Asking (.rest s) D c) {i j : Nat} (di : D i) (dj : D j)
    (hR : Ranked ⟨s, Nested.default⟩ (.com (builtin .precedes)) (.com (builtin .reduction)))
    (ha : (View.mk c.snap c.delta).conceptFromLabel n (str% "->") = .ok (some (.com (builtin .reduction))))
    (hi : (View.mk c.snap c.delta).conceptFromLabel n x = .ok (some (.com i)))
    (hj : (View.mk c.snap c.delta).conceptFromLabel n y = .ok (some (.com j))) :
    AsksWhether s D n (bareWondering x y) i j c := by
  unfold AsksWhether Parser.astFromExpression
  refine Ends.bind (Ends.reading fun ls hls => ?_)
  obtain ⟨kx, ka, ky, rfl, h2, h3, h4⟩ := lex_infix hx hy hls
  obtain ⟨X, pX, eX⟩ := leafOf_known hx vx hi h2
  obtain ⟨V, pV, eV⟩ := leafOf_known ⟨by decide, by simp [SymbolChar]; decide⟩ (by decide) ha h3
  obtain ⟨Y, pY, eY⟩ := leafOf_known hy vy hj h4
  show Ends _ _ _
  rw [nest_infix]
  refine Ends.bind (Ends.ofR ?_)
  show Ends _ _ _
  simp only [Parser.syntaxList, Parser.astsFromNested, nested_leaf, eX, eV, eY, bind_assoc, pure_bind]
  refine (list_arrow (W := .rest s) A T hc di dj pX pV pY (by rw [hc.snap, hc.delta]; exact hR)).mono ?_
  rintro _ c' ⟨hc', _, _, u, f1, g1, f2, g2, rfl⟩
  exact ⟨hc', X, V, Y, _, _, _, _, _, _, pX, pV, pY, rfl⟩

end Zia

import Verif.Boot
import Verif.Lemmas.Brackets
import Verif.Lemmas.Check
import Verif.Lemmas.Pieces

/-!
# Spaces between symbols, and redundant brackets
-/

namespace Zia.Props

open Spec

/-! ## C66: only the symbols and brackets of a command matter -/

theorem spacing_ignored_command [HashOrder] (n : Nat) {s s' : Str} (h : pieces s = pieces s') :
    Context.command n s = Context.command n s' := by
  unfold Context.command
  rw [astFromExpression_pieces, astFromExpression_pieces, h]

/-- C66: in every context, two commands with the same symbols and brackets in the same order have the same outcome: the same
answer and the same context, or the same crash. -/
theorem spacing_ignored [HashOrder] (n : Nat) (c : Ctx) {s s' : Str} (h : pieces s = pieces s') :
    Context.execute n c s = Context.execute n c s' := by
  unfold Context.execute
  rw [spacing_ignored_command n h]

/-- C66, for sessions. -/
theorem spacing_ignored_session [HashOrder] (n : Nat) (c : Ctx) {us us' : List Str} (h : us.map pieces = us'.map pieces) :
    Context.run n c us = Context.run n c us' := by
  induction us generalizing c us' with
  | nil =>
    cases us' with
    | nil => rfl
    | cons => cases h
  | cons u us ih =>
    cases us' with
    | nil => cases h
    | cons u' us' =>
      simp only [List.map_cons, List.cons.injEq] at h
      simp only [Context.run, spacing_ignored n c h.1]
      congr 1
      funext p
      rw [ih p.2 h.2]

/-! What `pieces` ignores. -/

theorem piecesAfter_space {w : Str} (hw : ∀ c ∈ w, isWs c = true) (t s : Str) (hne : w ≠ []) :
    piecesAfter t (w ++ s) = (if t = [] then [] else [t]) ++ pieces s := by
  induction w generalizing t with
  | nil => exact absurd rfl hne
  | cons c w ih =>
    have hc := hw c (List.mem_cons_self ..)
    have n1 : ¬(c = '(' ∨ c = ')') := by
      rintro (rfl | rfl) <;> revert hc <;> decide
    rw [List.cons_append, piecesAfter, if_neg n1, if_pos hc]
    by_cases hw' : w = []
    · subst hw'
      rfl
    · rw [ih (fun c h => hw c (List.mem_cons_of_mem _ h)) [] hw']
      rfl

theorem piecesAfter_end {w : Str} (hw : ∀ c ∈ w, isWs c = true) (t : Str) : piecesAfter t w = piecesAfter t [] := by
  by_cases hne : w = []
  · rw [hne]
  · have := piecesAfter_space hw t [] hne
    rw [List.append_nil] at this
    rw [this]
    simp [piecesAfter, pieces]

theorem piecesAfter_congr {a b b' : Str} (h : ∀ t, piecesAfter t b = piecesAfter t b') (t : Str) :
    piecesAfter t (a ++ b) = piecesAfter t (a ++ b') := by
  induction a generalizing t with
  | nil => exact h t
  | cons c a ih => simp only [List.cons_append, piecesAfter, ih]

/-- C66: spaces around a command do not matter. -/
theorem outer_spaces_ignored [HashOrder] (n : Nat) (c : Ctx) {s w w' : Str} (hw : ∀ c ∈ w, isWs c = true)
    (hw' : ∀ c ∈ w', isWs c = true) : Context.execute n c (w ++ s ++ w') = Context.execute n c s := by
  refine spacing_ignored n c ?_
  have h1 : pieces (w ++ (s ++ w')) = pieces (s ++ w') := by
    by_cases hne : w = []
    · rw [hne]; rfl
    · have := piecesAfter_space hw [] (s ++ w') hne
      exact this
  have h2 : pieces (s ++ w') = pieces (s ++ []) := piecesAfter_congr (fun t => piecesAfter_end hw' t) []
  rw [List.append_assoc, h1, h2, List.append_nil]

/-- C66: it does not matter how many spaces there are, or which. -/
theorem inner_spaces_ignored [HashOrder] (n : Nat) (c : Ctx) {a b w w' : Str} (hw : ∀ c ∈ w, isWs c = true)
    (hw' : ∀ c ∈ w', isWs c = true) (hne : w ≠ []) (hne' : w' ≠ []) :
    Context.execute n c (a ++ (w ++ b)) = Context.execute n c (a ++ (w' ++ b)) := by
  refine spacing_ignored n c (piecesAfter_congr (fun t => ?_) [])
  rw [piecesAfter_space hw t b hne, piecesAfter_space hw' t b hne']

/-- C66: spaces next to a bracket do not matter. -/
theorem bracket_spaces_ignored [HashOrder] (n : Nat) (c : Ctx) {a b w w' : Str} (hw : ∀ c ∈ w, isWs c = true)
    (hw' : ∀ c ∈ w', isWs c = true) {p : Char} (hp : p = '(' ∨ p = ')') :
    Context.execute n c (a ++ (w ++ p :: (w' ++ b))) = Context.execute n c (a ++ p :: b) := by
  refine spacing_ignored n c (piecesAfter_congr (fun t => ?_) [])
  have h0 : piecesAfter [] (w' ++ b) = piecesAfter [] b := by
    by_cases hne : w' = []
    · rw [hne]; rfl
    · exact piecesAfter_space hw' [] b hne
  have h1 : piecesAfter t (p :: (w' ++ b)) = piecesAfter t (p :: b) := by
    simp only [piecesAfter, if_pos hp, h0]
  by_cases hne : w = []
  · rw [hne]
    exact h1
  · rw [piecesAfter_space hw t _ hne, ← h1]
    simp only [pieces, piecesAfter, if_pos hp, if_true, List.nil_append]

section

open Insertion

/-- Two commands with the same symbols and brackets. -/
example : pieces (str% " let(a ( ->  b) ) ") = pieces (str% "let (a (-> b))") ∧
    pieces (str% "let (a (-> b))") = [str% "let", str% "(", str% "a", str% "(", str% "->", str% "b", str% ")", str% ")"] ∧
    pieces (str% "let (ab)") ≠ pieces (str% "let (a b)") := by decide

/-- Both are answered. -/
example : (Context.run 60 boot [str% " let(a ( ->  b) ) ", str% "  a "]).map (·.1) = .ok [[], str% "b"] := by
  rw [spacing_ignored_session 60 boot (us' := [str% "let (a (-> b))", str% "a"]) (by decide)]
  decide +kernel

end

/-! ## C67: redundant brackets do not matter -/

/-- C67: in every context, brackets around a single symbol and brackets directly around brackets do not matter: two commands that
differ in them have the same outcome, the same answer and the same context, or the same crash. (Brackets around a whole
command may matter, `outer_brackets_matter`.) -/
theorem redundant_brackets_ignored [HashOrder] (n : Nat) (c : Ctx) {s s' : Str} {x y : Bracketed} (hx : x.Good)
    (h : SameWithin x y) (es : pieces s = x.pieces) (es' : pieces s' = y.pieces) :
    Context.execute n c s = Context.execute n c s' := by
  unfold Context.execute Context.command
  rw [astFromExpression_same n hx h es es']

section

open Insertion

/-- Brackets around a whole command may matter: in a new context, `_x_ exists_such_that` and `(_x_ exists_such_that)` leave
different stores behind. -/
theorem outer_brackets_matter : ∃ (n : Nat) (c : Ctx) (s : Str), Reachable c ∧
    (Context.execute n c s).map (·.2.snap) ≠ (Context.execute n c (str% "(" ++ s ++ str% ")")).map (·.2.snap) :=
  ⟨60, boot, str% "_x_ exists_such_that", History.reachable boot_calm, by decide +kernel⟩

/-- `((a)) ((-> (b)))` and `a (-> b)` differ in redundant brackets. -/
example : ∃ x y : Bracketed, x.Good ∧ SameWithin x y ∧ pieces (str% "((a)) ((-> (b)))") = x.pieces ∧
    pieces (str% "a (-> b)") = y.pieces := by
  refine ⟨.group (.group (.sym (str% "a") .nil) .nil)
    (.group (.group (.sym (str% "->") (.group (.sym (str% "b") .nil) .nil)) .nil) .nil),
    .sym (str% "a") (.group (.sym (str% "->") (.sym (str% "b") .nil)) .nil), ?_, ?_, by decide, by decide⟩
  · simp [Bracketed.Good, SymbolChar]
    decide
  · exact ((SameWithin.double _ _).trans (.word _ _)).trans
      (.sym _ ((SameWithin.double _ _).trans (.group (.sym _ (.word _ _)) (.refl _))))

end

end Zia.Props

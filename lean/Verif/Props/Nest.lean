import Verif.Lemmas.Nest

/-!
# Properties C04, C05: grouping by parentheses

`toks ls` are the symbols and parentheses of the command; `Viable ts d` says that nothing is wrong
with the tokens `ts` read so far and that `d` groups are open.
-/

namespace Zia.Props

open Zia Zia.Spec

/-- C04. A command is accepted iff it has a symbol, its parentheses balance and no group is empty. -/
theorem nest_accepts_iff (ls : List Lexeme) :
    (∃ t, nest ls = .ok t) ↔ toks ls ≠ [] ∧ Viable (toks ls) 0 := by
  have h := nest_outcome ls
  constructor
  · rintro ⟨t, ht⟩
    rw [ht] at h
    obtain ⟨items, hne, _, hw, hv, _⟩ := h
    refine ⟨?_, hv⟩
    rw [← hw, Ne, Items.write_eq_nil]; exact hne
  · rintro ⟨hne, hv⟩
    cases hn : nest ls with
    | ok t => exact ⟨t, rfl⟩
    | error e =>
      rw [hn] at h
      rcases h with ⟨p, r, h1, h2⟩ | ⟨_, d, hd, hv'⟩ | ⟨_, h⟩
      · rw [h1] at hv; exact absurd hv (rejects_not_viable h2 0)
      · exact absurd (viable_depth_unique hv hv') (Ne.symm hd)
      · exact absurd h hne

/-- C04. `EmptyParentheses` is reported iff the first offending token is a closing parenthesis that
comes first of all or right after an opening one. -/
theorem nest_emptyParentheses_iff (ls : List Lexeme) :
    nest ls = .error .emptyParentheses ↔
      ∃ p r, toks ls = p ++ .closing :: r ∧ (∃ d, Viable p d) ∧
        (p = [] ∨ p.getLast? = some .opening) := by
  have h := nest_outcome ls
  constructor
  · intro hn
    rw [hn] at h
    rcases h with ⟨p, r, h1, h2⟩ | ⟨h, _⟩ | ⟨h, _⟩
    · rcases h2 with ⟨_, h2, h3⟩ | ⟨h2, _⟩
      · exact ⟨p, r, h1, h2, h3⟩
      · cases h2
    · cases h
    · cases h
  · rintro ⟨p, r, h1, h2, h3⟩
    have hr : Rejects p .emptyParentheses := Or.inl ⟨rfl, h2, h3⟩
    cases hn : nest ls with
    | ok t =>
      rw [hn] at h
      obtain ⟨_, _, _, _, hv, _⟩ := h
      rw [h1] at hv; exact absurd hv (rejects_not_viable hr 0)
    | error e =>
      rw [hn] at h
      rcases h with ⟨p', r', g1, g2⟩ | ⟨_, d, hd, hv⟩ | ⟨_, h⟩
      · rw [(rejects_unique h1 g1 hr g2).2]
      · rw [h1] at hv; exact absurd hv (rejects_not_viable hr d)
      · rw [h1] at h; simp at h

/-- C04. `UnmatchedParentheses` is reported iff the first offending token is a closing parenthesis
outside all groups after some symbol, or nothing offends but a group is left open. -/
theorem nest_unmatched_iff (ls : List Lexeme) :
    nest ls = .error .unmatchedParentheses ↔
      (∃ p r, toks ls = p ++ .closing :: r ∧ Viable p 0 ∧ p ≠ [] ∧ p.getLast? ≠ some .opening) ∨
      (∃ d, d ≠ 0 ∧ Viable (toks ls) d) := by
  have h := nest_outcome ls
  constructor
  · intro hn
    rw [hn] at h
    rcases h with ⟨p, r, h1, h2⟩ | ⟨_, h⟩ | ⟨h, _⟩
    · rcases h2 with ⟨h2, _⟩ | ⟨_, h2⟩
      · cases h2
      · exact Or.inl ⟨p, r, h1, h2⟩
    · exact Or.inr h
    · cases h
  · rintro (⟨p, r, h1, h2⟩ | ⟨d, hd, hv⟩)
    · have hr : Rejects p .unmatchedParentheses := Or.inr ⟨rfl, h2⟩
      cases hn : nest ls with
      | ok t =>
        rw [hn] at h
        obtain ⟨_, _, _, _, hv, _⟩ := h
        rw [h1] at hv; exact absurd hv (rejects_not_viable hr 0)
      | error e =>
        rw [hn] at h
        rcases h with ⟨p', r', g1, g2⟩ | ⟨_, d, hd, hv⟩ | ⟨_, h⟩
        · rw [(rejects_unique h1 g1 hr g2).2]
        · rw [h1] at hv; exact absurd hv (rejects_not_viable hr d)
        · rw [h1] at h; simp at h
    · cases hn : nest ls with
      | ok t =>
        rw [hn] at h
        obtain ⟨_, _, _, _, hv', _⟩ := h
        exact absurd (viable_depth_unique hv hv') hd
      | error e =>
        rw [hn] at h
        rcases h with ⟨p', r', g1, g2⟩ | ⟨h, _⟩ | ⟨_, h⟩
        · rw [g1] at hv; exact absurd hv (rejects_not_viable g2 d)
        · rw [h]
        · rw [h] at hv
          have : d = 0 := by simpa [tokDepth] using hv.1.symm
          exact absurd this hd

/-- C04. `EmptyExpression` is reported iff the command has no symbol and no parenthesis. -/
theorem nest_emptyExpression_iff (ls : List Lexeme) :
    nest ls = .error .emptyExpression ↔ toks ls = [] := by
  have h := nest_outcome ls
  constructor
  · intro hn
    rw [hn] at h
    rcases h with ⟨p, r, h1, h2⟩ | ⟨h, _⟩ | ⟨_, h⟩
    · rcases h2 with ⟨h2, _⟩ | ⟨h2, _⟩ <;> cases h2
    · cases h
    · exact h
  · intro he
    cases hn : nest ls with
    | ok t =>
      have := (nest_accepts_iff ls).1 ⟨t, hn⟩
      exact absurd he this.1
    | error e =>
      rw [hn] at h
      rcases h with ⟨p, r, h1, h2⟩ | ⟨_, d, hd, hv⟩ | ⟨h, _⟩
      · rw [h1] at he; simp at he
      · rw [he] at hv
        have : d = 0 := by simpa [tokDepth] using hv.1.symm
        exact absurd this hd
      · rw [h]

/-- C04. There are no other outcomes. -/
theorem nest_errors (ls : List Lexeme) (e : ZiaError) (h : nest ls = .error e) :
    e = .emptyParentheses ∨ e = .unmatchedParentheses ∨ e = .emptyExpression := by
  have hn := nest_outcome ls
  rw [h] at hn
  rcases hn with ⟨p, r, _, ⟨h, _⟩ | ⟨h, _⟩⟩ | ⟨h, _⟩ | ⟨h, _⟩ <;> simp [h]

/-- C05. An accepted command is a sequence of items written exactly as the command's tokens; the
tree has the shape of these items, their text and their symbols in order. -/
theorem nest_structure (ls : List Lexeme) (t : NST) (h : nest ls = .ok t) :
    ∃ items : Items, items ≠ .nil ∧ items.Full ∧ items.write = toks ls ∧
      shapeOf t = Shape.mk items.shapes ∧ t.syn = items.text ∧
      leavesOf t = symbolsOf (toks ls) := by
  have hn := nest_outcome ls
  rw [h] at hn
  obtain ⟨items, h1, h2, h3, _, h5⟩ := hn
  obtain ⟨s1, s2, s3, s4⟩ := buildFrom_spec items h2 none t h5 (Or.inl rfl)
  refine ⟨items, h1, h2, h3, ?_, by simpa using s4, ?_⟩
  · rw [shapeOf_eq_children t s1, s2]; simp
  · rw [s3, ← h3, Items.write_symbols]; simp

/-- C05. What is written determines the items, so the previous theorem determines the tree. -/
theorem items_unique (x y : Items) (h : x.write = y.write) : x = y := write_injective x y h

/-- C05. Every non-empty sequence of items without empty groups is accepted when written out, and
the result has exactly its shape. -/
theorem nest_complete (items : Items) (ls : List Lexeme) (hne : items ≠ .nil) (hf : items.Full)
    (hw : toks ls = items.write) :
    ∃ t, nest ls = .ok t ∧ shapeOf t = Shape.mk items.shapes := by
  have hv : Viable (toks ls) 0 := by
    rw [hw]; exact ⟨tokDepth_write items 0, noEmptyGroup_write items hf⟩
  have hnn : toks ls ≠ [] := by rw [hw, Ne, Items.write_eq_nil]; exact hne
  obtain ⟨t, ht⟩ := (nest_accepts_iff ls).2 ⟨hnn, hv⟩
  obtain ⟨items', _, _, h3, h4, _⟩ := nest_structure ls t ht
  have : items' = items := write_injective _ _ (by rw [h3, hw])
  exact ⟨t, ht, by rw [h4, this]⟩

/-- The command `a (b c)` used to show that the hypotheses above are met. -/
def sampleItems : Items := .sym ['a'] .new (.group (.sym ['b'] .new (.sym ['c'] .new .nil)) .nil)

example : sampleItems ≠ .nil ∧ sampleItems.Full ∧
    toks [⟨['a'], .concept .new⟩, ⟨[' '], .whitespace⟩, ⟨['('], .opening (some 6)⟩,
      ⟨['b'], .concept .new⟩, ⟨[' '], .whitespace⟩, ⟨['c'], .concept .new⟩,
      ⟨[')'], .closing (some 2)⟩] = sampleItems.write := by
  simp [sampleItems, Items.Full, toks, Items.write]

example : ∃ t, nest [⟨['a'], .concept .new⟩, ⟨['('], .opening none⟩, ⟨['b'], .concept .new⟩,
    ⟨[')'], .closing none⟩] = .ok t := ⟨_, rfl⟩

example : nest [⟨['('], .opening none⟩, ⟨[')'], .closing none⟩] = .error .emptyParentheses := rfl
example : nest [⟨['a'], .concept .new⟩, ⟨[')'], .closing none⟩] = .error .unmatchedParentheses := rfl
example : nest [⟨['('], .opening none⟩] = .error .unmatchedParentheses := rfl
example : nest [⟨[' '], .whitespace⟩] = .error .emptyExpression := rfl

end Zia.Props

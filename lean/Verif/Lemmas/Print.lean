import Verif.Spec.Print
import Verif.Lemmas.Lex
import Verif.Lemmas.Nest

/-!
# Printing and reading back
-/

namespace Zia

open Spec

set_option linter.unusedVariables false

/-- One sequence of items after another. -/
def Items.append : Items → Items → Items
  | .nil, b => b
  | .sym t k r, b => .sym t k (Items.append r b)
  | .group i r, b => .group i (Items.append r b)

/-- The items of the text of an expression. -/
def PTree.items (kf : Str → Kind) : PTree → Items
  | .leaf s => .sym s (kf s) .nil
  | .pair (.leaf a) (.leaf b) => .sym a (kf a) (.sym b (kf b) .nil)
  | .pair (.leaf a) (.pair x y) => .sym a (kf a) (Items.append (PTree.items kf x) (PTree.items kf y))
  | .pair (.pair x y) (.leaf b) => .group (Items.append (PTree.items kf x) (PTree.items kf y)) (.sym b (kf b) .nil)
  | .pair (.pair x y) (.pair z w) => .group (Items.append (PTree.items kf x) (PTree.items kf y))
      (Items.append (PTree.items kf z) (PTree.items kf w))

/-- The maximal runs of the text of a sequence of items. -/
def Items.segs : Items → List (Cls × Str)
  | .nil => []
  | .sym t _ .nil => [(.symbol, t)]
  | .sym t _ r => (.symbol, t) :: (.space, [' ']) :: Items.segs r
  | .group i .nil => (.opening, ['(']) :: Items.segs i ++ [(.closing, [')'])]
  | .group i r => (.opening, ['(']) :: Items.segs i ++ (.closing, [')']) :: (.space, [' ']) :: Items.segs r

/-- The tokens of a segmentation. -/
def segToks (kf : Str → Kind) : List (Cls × Str) → List Tok
  | [] => []
  | (.symbol, t) :: r => .sym t (kf t) :: segToks kf r
  | (.space, _) :: r => segToks kf r
  | (.opening, _) :: r => .opening :: segToks kf r
  | (.closing, _) :: r => .closing :: segToks kf r

/-- The kinds are given by the function, and the symbols are symbols. -/
def Items.Good (kf : Str → Kind) : Items → Prop
  | .nil => True
  | .sym t k r => k = kf t ∧ IsSymbol t ∧ Items.Good kf r
  | .group i r => Items.Good kf i ∧ Items.Good kf r

variable {kf : Str → Kind}

theorem segToks_append (a b : List (Cls × Str)) : segToks kf (a ++ b) = segToks kf a ++ segToks kf b := by
  induction a with
  | nil => rfl
  | cons p a ih =>
    obtain ⟨c, t⟩ := p
    cases c <;> simp [segToks, ih]

theorem segToks_segs : ∀ {x : Items}, Items.Good kf x → segToks kf (Items.segs x) = x.write
  | .nil, _ => rfl
  | .sym t k .nil, h => by simp [Items.segs, segToks, Items.write, h.1]
  | .sym t k (.sym t' k' r), h => by
    have := segToks_segs (x := .sym t' k' r) h.2.2
    rw [Items.segs, Items.write, segToks, segToks, this, h.1]
    simp
  | .sym t k (.group i r), h => by
    have := segToks_segs (x := .group i r) h.2.2
    rw [Items.segs, Items.write, segToks, segToks, this, h.1]
    simp
  | .group i .nil, h => by
    have := segToks_segs (x := i) h.1
    rw [Items.segs, Items.write, List.cons_append, segToks, segToks_append, this]
    rfl
  | .group i (.sym t' k' r), h => by
    have h1 := segToks_segs (x := i) h.1
    have h2 := segToks_segs (x := .sym t' k' r) h.2
    rw [Items.segs, Items.write, List.cons_append, segToks, segToks_append, segToks, segToks, h1, h2]
    · rfl
    · simp
  | .group i (.group i' r), h => by
    have h1 := segToks_segs (x := i) h.1
    have h2 := segToks_segs (x := .group i' r) h.2
    rw [Items.segs, Items.write, List.cons_append, segToks, segToks_append, segToks, segToks, h1, h2]
    · rfl
    · simp

theorem textOf_segs : ∀ (x : Items), textOf (Items.segs x) = x.text
  | .nil => rfl
  | .sym t k .nil => by simp [Items.segs, textOf, Items.text]
  | .sym t k (.sym t' k' r) => by
    have := textOf_segs (.sym t' k' r)
    rw [Items.segs, Items.text, ← this]
    · simp [textOf]
    all_goals simp
  | .sym t k (.group i r) => by
    have := textOf_segs (.group i r)
    rw [Items.segs, Items.text, ← this]
    · simp [textOf]
    all_goals simp
  | .group i .nil => by
    have := textOf_segs i
    rw [Items.segs, Items.text, ← this]
    simp [textOf]
  | .group i (.sym t' k' r) => by
    have h1 := textOf_segs i
    have h2 := textOf_segs (.sym t' k' r)
    rw [Items.segs, Items.text, ← h1, ← h2]
    · simp [textOf]
    all_goals simp
  | .group i (.group i' r) => by
    have h1 := textOf_segs i
    have h2 := textOf_segs (.group i' r)
    rw [Items.segs, Items.text, ← h1, ← h2]
    · simp [textOf]
    all_goals simp

/-- No run continues from the end of one segmentation into the other. -/
def Apart (a b : List (Cls × Str)) : Prop :=
  ∀ p q, a.getLast? = some p → b.head? = some q → ¬ (p.1 = q.1 ∧ (p.1 = .space ∨ p.1 = .symbol))

theorem canonical_append : ∀ {a b : List (Cls × Str)}, Canonical a → Canonical b → Apart a b →
    Canonical (a ++ b)
  | [], b, _, hb, _ => hb
  | [(k, t)], [], ha, _, _ => ha
  | [(k, t)], (k', t') :: b, ha, hb, h => ⟨ha, h _ _ rfl rfl, hb⟩
  | (k, t) :: (k', t') :: a, b, ha, hb, h =>
    ⟨ha.1, ha.2.1, canonical_append (a := (k', t') :: a) ha.2.2 hb
      (fun p q hp hq => h p q (by rw [List.getLast?_cons_cons]; exact hp) hq)⟩

theorem segs_head : ∀ {x : Items} {p : Cls × Str}, (Items.segs x).head? = some p →
    p.1 = .symbol ∨ p.1 = .opening
  | .nil, p, h => by simp [Items.segs] at h
  | .sym t k .nil, p, h => by simp [Items.segs] at h; simp [← h]
  | .sym t k (.sym ..), p, h => by simp [Items.segs] at h; simp [← h]
  | .sym t k (.group ..), p, h => by simp [Items.segs] at h; simp [← h]
  | .group i .nil, p, h => by simp [Items.segs] at h; simp [← h]
  | .group i (.sym ..), p, h => by simp [Items.segs] at h; simp [← h]
  | .group i (.group ..), p, h => by simp [Items.segs] at h; simp [← h]

theorem getLast?_append_cons {α : Type} (a : List α) (x : α) (b : List α) :
    (a ++ x :: b).getLast? = (x :: b).getLast? := by
  rw [List.getLast?_append]
  cases h : (x :: b).getLast? with
  | none => simp at h
  | some p => rfl

theorem segs_ne_nil : ∀ {x : Items}, x ≠ .nil → Items.segs x ≠ []
  | .nil, h => absurd rfl h
  | .sym t k .nil, _ => by simp [Items.segs]
  | .sym t k (.sym ..), _ => by simp [Items.segs]
  | .sym t k (.group ..), _ => by simp [Items.segs]
  | .group i .nil, _ => by simp [Items.segs]
  | .group i (.sym ..), _ => by simp [Items.segs]
  | .group i (.group ..), _ => by simp [Items.segs]

theorem segs_last : ∀ {x : Items} {p : Cls × Str}, (Items.segs x).getLast? = some p →
    p.1 = .symbol ∨ p.1 = .closing
  | .nil, p, h => by simp [Items.segs] at h
  | .sym t k .nil, p, h => by simp [Items.segs] at h; simp [← h]
  | .sym t k (.sym t' k' r), p, h => by
    refine segs_last (x := .sym t' k' r) ?_
    obtain ⟨q, qs, hq⟩ := List.exists_cons_of_ne_nil (segs_ne_nil (x := .sym t' k' r) (by simp))
    rw [Items.segs, List.getLast?_cons_cons, hq, List.getLast?_cons_cons] at h
    · rw [hq]; exact h
    · simp
  | .sym t k (.group i r), p, h => by
    refine segs_last (x := .group i r) ?_
    obtain ⟨q, qs, hq⟩ := List.exists_cons_of_ne_nil (segs_ne_nil (x := .group i r) (by simp))
    rw [Items.segs, List.getLast?_cons_cons, hq, List.getLast?_cons_cons] at h
    · rw [hq]; exact h
    · simp
  | .group i .nil, p, h => by
    rw [Items.segs, getLast?_append_cons] at h
    simp at h; simp [← h]
  | .group i (.sym t' k' r), p, h => by
    refine segs_last (x := .sym t' k' r) ?_
    obtain ⟨q, qs, hq⟩ := List.exists_cons_of_ne_nil (segs_ne_nil (x := .sym t' k' r) (by simp))
    rw [Items.segs, getLast?_append_cons, List.getLast?_cons_cons, hq, List.getLast?_cons_cons] at h
    · rw [hq]; exact h
    · simp
  | .group i (.group i' r), p, h => by
    refine segs_last (x := .group i' r) ?_
    obtain ⟨q, qs, hq⟩ := List.exists_cons_of_ne_nil (segs_ne_nil (x := .group i' r) (by simp))
    rw [Items.segs, getLast?_append_cons, List.getLast?_cons_cons, hq, List.getLast?_cons_cons] at h
    · rw [hq]; exact h
    · simp

theorem space_class : HasClass .space [' '] :=
  ⟨by simp, fun c hc => by rw [List.mem_singleton.1 hc]; decide⟩

theorem canonical_space {x : Items} (h : Canonical (Items.segs x)) :
    Canonical ((.space, [' ']) :: Items.segs x) := by
  refine canonical_append (a := [(.space, [' '])]) space_class h fun p q hp hq hpq => ?_
  cases hp
  rcases segs_head hq with e | e <;> rw [e] at hpq <;> cases hpq.1

theorem canonical_group {x : Items} (h : Canonical (Items.segs x)) {b : List (Cls × Str)}
    (hb : Canonical ((.closing, [')']) :: b)) :
    Canonical ((.opening, ['(']) :: Items.segs x ++ (.closing, [')']) :: b) := by
  refine canonical_append (a := (.opening, ['(']) :: Items.segs x) ?_ hb fun p q hp hq hpq => ?_
  · exact canonical_append (a := [(.opening, ['('])]) rfl h fun p q hp hq hpq => by
      cases hp
      rcases hpq.2 with e | e <;> cases e
  · cases hq
    rw [hpq.1] at hpq
    rcases hpq.2 with e | e <;> cases e

theorem canonical_close {b : List (Cls × Str)} (hb : Canonical b) : Canonical ((.closing, [')']) :: b) :=
  canonical_append (a := [(.closing, [')'])]) rfl hb fun p q hp hq hpq => by
    cases hp
    rcases hpq.2 with e | e <;> cases e

theorem canonical_segs : ∀ {x : Items}, Items.Good kf x → Canonical (Items.segs x)
  | .nil, _ => trivial
  | .sym t k .nil, h => h.2.1
  | .sym t k (.sym t' k' r), h => by
    have := canonical_space (canonical_segs (x := .sym t' k' r) h.2.2)
    rw [Items.segs]
    · exact ⟨h.2.1, by simp, this⟩
    · simp
  | .sym t k (.group i r), h => by
    have := canonical_space (canonical_segs (x := .group i r) h.2.2)
    rw [Items.segs]
    · exact ⟨h.2.1, by simp, this⟩
    · simp
  | .group i .nil, h => by
    rw [Items.segs]
    exact canonical_group (canonical_segs h.1) rfl
  | .group i (.sym t' k' r), h => by
    rw [Items.segs]
    · exact canonical_group (canonical_segs h.1)
        (canonical_close (canonical_space (canonical_segs (x := .sym t' k' r) h.2)))
    · simp
  | .group i (.group i' r), h => by
    rw [Items.segs]
    · exact canonical_group (canonical_segs h.1)
        (canonical_close (canonical_space (canonical_segs (x := .group i' r) h.2)))
    · simp

theorem toks_segments : ∀ {ls : List Lexeme}, (∀ t k, ⟨t, .concept k⟩ ∈ ls → kf t = k) →
    toks ls = segToks kf (segments ls)
  | [], _ => rfl
  | ⟨t, .concept k⟩ :: ls, h => by
    have := toks_segments (ls := ls) fun t k hm => h t k (List.mem_cons_of_mem _ hm)
    simp [toks, segments, clsOf, segToks, h t k (List.mem_cons_self ..), this]
  | ⟨t, .whitespace⟩ :: ls, h => by
    have := toks_segments (ls := ls) fun t k hm => h t k (List.mem_cons_of_mem _ hm)
    simp [toks, segments, clsOf, segToks, this]
  | ⟨t, .opening _⟩ :: ls, h => by
    have := toks_segments (ls := ls) fun t k hm => h t k (List.mem_cons_of_mem _ hm)
    simp [toks, segments, clsOf, segToks, this]
  | ⟨t, .closing _⟩ :: ls, h => by
    have := toks_segments (ls := ls) fun t k hm => h t k (List.mem_cons_of_mem _ hm)
    simp [toks, segments, clsOf, segToks, this]

/-! ## The items of an expression -/

theorem good_append : ∀ {x y : Items}, Items.Good kf x → Items.Good kf y → Items.Good kf (Items.append x y)
  | .nil, _, _, hy => hy
  | .sym t k r, y, hx, hy => ⟨hx.1, hx.2.1, good_append hx.2.2 hy⟩
  | .group i r, y, hx, hy => ⟨hx.1, good_append hx.2 hy⟩

theorem good_items : ∀ {t : PTree}, t.Symbols → Items.Good kf (PTree.items kf t)
  | .leaf s, h => ⟨rfl, h, trivial⟩
  | .pair (.leaf a) (.leaf b), h => ⟨rfl, h.1, rfl, h.2, trivial⟩
  | .pair (.leaf a) (.pair x y), h => ⟨rfl, h.1, good_append (good_items h.2.1) (good_items h.2.2)⟩
  | .pair (.pair x y) (.leaf b), h =>
    ⟨good_append (good_items h.1.1) (good_items h.1.2), rfl, h.2, trivial⟩
  | .pair (.pair x y) (.pair z w), h =>
    ⟨good_append (good_items h.1.1) (good_items h.1.2), good_append (good_items h.2.1) (good_items h.2.2)⟩

theorem append_ne_nil {x y : Items} (h : x ≠ .nil) : Items.append x y ≠ .nil := by
  cases x with
  | nil => exact absurd rfl h
  | sym t k r => simp [Items.append]
  | group i r => simp [Items.append]

theorem items_ne_nil : ∀ (t : PTree), PTree.items kf t ≠ .nil
  | .leaf s => by simp [PTree.items]
  | .pair (.leaf a) (.leaf b) => by simp [PTree.items]
  | .pair (.leaf a) (.pair x y) => by simp [PTree.items]
  | .pair (.pair x y) (.leaf b) => by simp [PTree.items]
  | .pair (.pair x y) (.pair z w) => by simp [PTree.items]

theorem text_sym {t : Str} {k : Kind} {r : Items} (h : r ≠ .nil) :
    (Items.sym t k r).text = t ++ ' ' :: r.text := by
  rw [Items.text]; exact fun e => h e

theorem text_group {i r : Items} (h : r ≠ .nil) :
    (Items.group i r).text = '(' :: i.text ++ ')' :: ' ' :: r.text := by
  rw [Items.text]; exact fun e => h e

theorem text_append {x y : Items} (hx : x ≠ .nil) (hy : y ≠ .nil) :
    (Items.append x y).text = x.text ++ ' ' :: y.text := by
  induction x with
  | nil => exact absurd rfl hx
  | sym t k r ih =>
    by_cases h : r = .nil
    · subst h
      rw [Items.append, Items.append, text_sym hy, Items.text]
    · rw [Items.append, text_sym (append_ne_nil h), text_sym h, ih h]
      simp
  | group i r _ ih =>
    by_cases h : r = .nil
    · subst h
      rw [Items.append, Items.append, text_group hy, Items.text]
      simp
    · rw [Items.append, text_group (append_ne_nil h), text_group h, ih h]
      simp

theorem items_text : ∀ (t : PTree), (PTree.items kf t).text = t.text
  | .leaf s => rfl
  | .pair (.leaf a) (.leaf b) => rfl
  | .pair (.leaf a) (.pair x y) => by
    rw [PTree.items, PTree.text, text_sym (append_ne_nil (items_ne_nil x)),
      text_append (items_ne_nil x) (items_ne_nil y), items_text x, items_text y]
  | .pair (.pair x y) (.leaf b) => by
    rw [PTree.items, PTree.text, text_group (by simp), text_append (items_ne_nil x) (items_ne_nil y),
      items_text x, items_text y]
    simp [Items.text]
  | .pair (.pair x y) (.pair z w) => by
    rw [PTree.items, PTree.text, text_group (append_ne_nil (items_ne_nil z)),
      text_append (items_ne_nil x) (items_ne_nil y), text_append (items_ne_nil z) (items_ne_nil w),
      items_text x, items_text y, items_text z, items_text w]
    simp

theorem full_append : ∀ {x y : Items}, x.Full → y.Full → (Items.append x y).Full
  | .nil, _, _, hy => hy
  | .sym t k r, y, hx, hy => full_append (x := r) hx hy
  | .group i r, y, hx, hy => ⟨hx.1, hx.2.1, full_append hx.2.2 hy⟩

theorem items_full : ∀ (t : PTree), (PTree.items kf t).Full
  | .leaf s => trivial
  | .pair (.leaf a) (.leaf b) => trivial
  | .pair (.leaf a) (.pair x y) => full_append (items_full x) (items_full y)
  | .pair (.pair x y) (.leaf b) =>
    ⟨append_ne_nil (items_ne_nil x), full_append (items_full x) (items_full y), trivial⟩
  | .pair (.pair x y) (.pair z w) =>
    ⟨append_ne_nil (items_ne_nil x), full_append (items_full x) (items_full y),
      full_append (items_full z) (items_full w)⟩

/-! ## Reading back -/

theorem shape_mk_tree (cs : List Shape) : (Shape.mk cs).tree = Shape.tree.go cs := by
  match cs with
  | [] => simp [Shape.mk, Shape.tree]
  | [c] => simp [Shape.mk, Shape.tree.go]
  | a :: b :: cs => simp [Shape.mk, Shape.tree]

theorem tree_sym {t : Str} {k : Kind} {r : Items} (h : r ≠ .nil) :
    (Items.sym t k r).tree = r.tree.map (.pair (.leaf t)) := by
  rw [Items.tree]; exact fun e => h e

theorem tree_group {i r : Items} (h : r ≠ .nil) :
    (Items.group i r).tree = i.tree.bind fun a => r.tree.map (.pair a) := by
  rw [Items.tree]; exact fun e => h e

theorem go_cons {s : Shape} {cs : List Shape} (h : cs ≠ []) :
    Shape.tree.go (s :: cs) = s.tree.bind fun a => (Shape.tree.go cs).map (.pair a) := by
  obtain ⟨d, ds, rfl⟩ := List.exists_cons_of_ne_nil h
  rw [Shape.tree.go]
  simp

theorem shapes_ne_nil {x : Items} (h : x ≠ .nil) : x.shapes ≠ [] := by
  cases x with
  | nil => exact absurd rfl h
  | sym t k r => simp [Items.shapes]
  | group i r => simp [Items.shapes]

theorem shapes_tree (x : Items) : Shape.tree.go x.shapes = x.tree := by
  induction x with
  | nil => simp [Items.shapes, Shape.tree.go, Items.tree]
  | sym t k r ih =>
    by_cases h : r = .nil
    · subst h
      simp [Items.shapes, Shape.tree.go, Items.tree, Shape.tree]
    · rw [Items.shapes, go_cons (shapes_ne_nil h), tree_sym h, ih, Shape.tree]
      rfl
  | group i r ih₁ ih₂ =>
    by_cases h : r = .nil
    · subst h
      simp [Items.shapes, Shape.tree.go, Items.tree, shape_mk_tree, ih₁]
    · rw [Items.shapes, go_cons (shapes_ne_nil h), tree_group h, ih₂, shape_mk_tree, ih₁]

/-- The number of symbols. -/
def PTree.size : PTree → Nat
  | .leaf _ => 1
  | .pair l r => PTree.size l + PTree.size r

/-- The number of symbols. -/
def Items.size : Items → Nat
  | .nil => 0
  | .sym _ _ r => 1 + Items.size r
  | .group i r => Items.size i + Items.size r

theorem size_tree : ∀ {x : Items} {t : PTree}, x.tree = some t → PTree.size t = Items.size x
  | .nil, t, h => by cases h
  | .sym s k .nil, t, h => by cases h; rfl
  | .sym s k (.sym s' k' r), t, h => by
    rw [tree_sym (by simp)] at h
    obtain ⟨a, ha, rfl⟩ := Option.map_eq_some_iff.1 h
    rw [PTree.size, Items.size, size_tree ha]; rfl
  | .sym s k (.group i r), t, h => by
    rw [tree_sym (by simp)] at h
    obtain ⟨a, ha, rfl⟩ := Option.map_eq_some_iff.1 h
    rw [PTree.size, Items.size, size_tree ha]; rfl
  | .group i .nil, t, h => by
    rw [Items.tree] at h
    rw [Items.size, size_tree h]; rfl
  | .group i (.sym s' k' r), t, h => by
    rw [tree_group (by simp)] at h
    obtain ⟨b, hb, h⟩ := Option.bind_eq_some_iff.1 h
    obtain ⟨a, ha, rfl⟩ := Option.map_eq_some_iff.1 h
    rw [PTree.size, Items.size, size_tree ha, size_tree hb]
  | .group i (.group i' r), t, h => by
    rw [tree_group (by simp)] at h
    obtain ⟨b, hb, h⟩ := Option.bind_eq_some_iff.1 h
    obtain ⟨a, ha, rfl⟩ := Option.map_eq_some_iff.1 h
    rw [PTree.size, Items.size, size_tree ha, size_tree hb]

theorem size_append (x y : Items) : Items.size (Items.append x y) = Items.size x + Items.size y := by
  induction x with
  | nil => simp [Items.append, Items.size]
  | sym t k r ih => simp [Items.append, Items.size, ih]; omega
  | group i r _ ih => simp [Items.append, Items.size, ih]; omega

theorem size_items : ∀ (t : PTree), Items.size (PTree.items kf t) = PTree.size t
  | .leaf s => rfl
  | .pair (.leaf a) (.leaf b) => rfl
  | .pair (.leaf a) (.pair x y) => by
    simp [PTree.items, Items.size, PTree.size, size_append, size_items x, size_items y]
  | .pair (.pair x y) (.leaf b) => by
    simp [PTree.items, Items.size, PTree.size, size_append, size_items x, size_items y]
  | .pair (.pair x y) (.pair z w) => by
    simp [PTree.items, Items.size, PTree.size, size_append, size_items x, size_items y, size_items z,
      size_items w]

theorem size_pos : ∀ t : PTree, 0 < PTree.size t
  | .leaf _ => Nat.zero_lt_one
  | .pair l r => Nat.lt_of_lt_of_le (size_pos l) (Nat.le_add_right _ _)

/-- The parts of a compound part are read back exactly if the first is a symbol and the second is read
back. -/
theorem inner_tree (x y : PTree) :
    (Items.append (PTree.items kf x) (PTree.items kf y)).tree = some (.pair x y) ↔
      (∃ s, x = .leaf s) ∧ (PTree.items kf y).tree = some y := by
  have hy := items_ne_nil (kf := kf) y
  cases x with
  | leaf s =>
    simp only [PTree.items, Items.append, tree_sym hy]
    simp
  | pair a b =>
    constructor
    · intro h
      exfalso
      have first : ∀ {i r : Items}, Items.size i < PTree.size (.pair a b) →
          (Items.group i r).tree ≠ some (.pair (.pair a b) y) := by
        intro i r hi h
        by_cases hr : r = .nil
        · subst hr
          rw [Items.tree] at h
          have := size_tree h
          simp only [PTree.size] at this hi
          omega
        · rw [tree_group hr] at h
          obtain ⟨c, hc, h⟩ := Option.bind_eq_some_iff.1 h
          obtain ⟨d, hd, h⟩ := Option.map_eq_some_iff.1 h
          cases h
          have := size_tree hc
          omega
      have symbol : ∀ {t : Str} {k : Kind} {r : Items}, r ≠ .nil →
          (Items.sym t k r).tree ≠ some (.pair (.pair a b) y) := by
        intro t k r hr h
        rw [tree_sym hr] at h
        obtain ⟨d, hd, h⟩ := Option.map_eq_some_iff.1 h
        cases h
      match a, b with
      | .leaf a, .leaf b => exact symbol (append_ne_nil (by simp)) h
      | .leaf a, .pair z w => exact symbol (append_ne_nil (append_ne_nil (items_ne_nil z))) h
      | .pair z w, .leaf b =>
        refine first ?_ h
        rw [size_append, size_items, size_items]
        simp [PTree.size]
      | .pair z w, .pair u v =>
        refine first ?_ h
        rw [size_append, size_items, size_items]
        have := size_pos u
        simp [PTree.size]
        omega
    · rintro ⟨⟨s, hs⟩, _⟩
      cases hs

theorem inner_leaf (s : Str) : (PTree.leaf s).Inner ↔ True := by rw [PTree.Inner]

theorem inner_pair (x y : PTree) : (PTree.pair x y).Inner ↔ (∃ s, x = .leaf s) ∧ y.Printable := by
  cases x with
  | leaf s =>
    rw [PTree.Inner]
    exact ⟨fun h => ⟨⟨s, rfl⟩, h⟩, fun h => h.2⟩
  | pair a b =>
    rw [PTree.Inner]
    exact ⟨fun h => h.elim, fun h => by obtain ⟨s, hs⟩ := h.1; cases hs⟩

theorem printable_pair (x y : PTree) : (PTree.pair x y).Printable ↔ x.Inner ∧ y.Inner := by
  rw [PTree.Printable]

theorem items_tree : ∀ (t : PTree), (PTree.items kf t).tree = some t ↔ t.Printable
  | .leaf s => by
    rw [PTree.items, Items.tree, PTree.Printable]
    simp
  | .pair (.leaf a) (.leaf b) => by
    rw [printable_pair, inner_leaf, inner_leaf, PTree.items, tree_sym (by simp), Items.tree]
    simp
  | .pair (.leaf a) (.pair x y) => by
    have h := inner_tree (kf := kf) x y
    rw [items_tree y] at h
    rw [printable_pair, inner_leaf, inner_pair, ← h, PTree.items,
      tree_sym (append_ne_nil (items_ne_nil x))]
    simp
  | .pair (.pair x y) (.leaf b) => by
    have h := inner_tree (kf := kf) x y
    rw [items_tree y] at h
    rw [printable_pair, inner_leaf, inner_pair, ← h, PTree.items, tree_group (by simp), Items.tree]
    simp [Option.bind_eq_some_iff]
  | .pair (.pair x y) (.pair z w) => by
    have h := inner_tree (kf := kf) x y
    have h' := inner_tree (kf := kf) z w
    rw [items_tree y] at h
    rw [items_tree w] at h'
    rw [printable_pair, inner_pair, inner_pair, ← h, ← h', PTree.items,
      tree_group (append_ne_nil (items_ne_nil z))]
    constructor
    · intro h
      obtain ⟨b, hb, h⟩ := Option.bind_eq_some_iff.1 h
      obtain ⟨a, ha, h⟩ := Option.map_eq_some_iff.1 h
      cases h
      exact ⟨hb, ha⟩
    · rintro ⟨h1, h2⟩
      rw [h1, h2]
      rfl

end Zia

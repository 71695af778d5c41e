import Verif.Lemmas.Infix

/-!
# Reading `let (x -> y)`
-/

namespace Zia
open CM Spec Relation
set_option linter.unusedSectionVars false
variable [HashOrder] {s : Snap} {W : Stand s} {D : Nat → Prop}

/-- The text that teaches that `x` reduces to `y`, without the brackets around `-> y`. -/
def telling (x y : Str) : Str := str% "let (" ++ x ++ str% " -> " ++ y ++ str% ")"

theorem nest_telling (kl kx ka ky : Kind) (x y : Str) (a d : Option Nat) :
    nest [⟨str% "let", .concept kl⟩, ⟨[' '], .whitespace⟩, ⟨['('], .opening a⟩, ⟨x, .concept kx⟩, ⟨[' '], .whitespace⟩,
      ⟨str% "->", .concept ka⟩, ⟨[' '], .whitespace⟩, ⟨y, .concept ky⟩, ⟨[')'], .closing d⟩] =
    .ok ((NST.fromConceptKind kl (str% "let")).appendNode
      ((((NST.fromConceptKind kx x).appendNode (NST.fromConceptKind ka (str% "->"))).appendNode
        (NST.fromConceptKind ky y)).nest)) := rfl

theorem lex_telling {x y : Str} (hx : IsSymbol x) (hy : IsSymbol y) {kind : Str → Except Fault Kind}
    {ls : List Lexeme} (h : lex kind (telling x y) = .ok ls) :
    ∃ kl kx ka ky a d, ls = [⟨str% "let", .concept kl⟩, ⟨[' '], .whitespace⟩, ⟨['('], .opening a⟩,
      ⟨x, .concept kx⟩, ⟨[' '], .whitespace⟩, ⟨str% "->", .concept ka⟩,
      ⟨[' '], .whitespace⟩, ⟨y, .concept ky⟩, ⟨[')'], .closing d⟩] ∧
      kind (str% "let") = .ok kl ∧ kind x = .ok kx ∧ kind (str% "->") = .ok ka ∧ kind y = .ok ky := by
  obtain ⟨stack, I⟩ := lex_inv h
  have hsp : HasClass .space [' '] := ⟨by simp, by decide⟩
  have hlet : HasClass .symbol (str% "let") := ⟨by decide, by simp [SymbolChar]; decide⟩
  have hred : HasClass .symbol (str% "->") := ⟨by decide, by simp [SymbolChar]; decide⟩
  have hcan : Canonical [(.symbol, str% "let"), (.space, [' ']), (.opening, ['(']), (.symbol, x), (.space, [' ']),
      (.symbol, str% "->"), (.space, [' ']), (.symbol, y), (.closing, [')'])] :=
    ⟨hlet, by decide, hsp, by decide, rfl, by decide, hx, by decide, hsp, by decide, hred,
      by decide, hsp, by decide, hy, by decide, rfl⟩
  have hs := canonical_unique _ _ I.canonical hcan (by
    have := I.text
    simp only [textOf, segments, List.map_map]
    rw [show ((fun x : Cls × Str => x.2) ∘ fun l : Lexeme => (clsOf l.category, l.text)) = (·.text) from rfl, this]
    simp [telling])
  simp only [segments, List.map_eq_cons_iff, List.map_eq_nil_iff, Prod.mk.injEq] at hs
  obtain ⟨⟨t1, k1⟩, _, rfl, ⟨c1, rfl⟩, ⟨t2, k2⟩, _, rfl, ⟨c2, rfl⟩, ⟨t3, k3⟩, _, rfl, ⟨c3, rfl⟩,
    ⟨t4, k4⟩, _, rfl, ⟨c4, rfl⟩, ⟨t5, k5⟩, _, rfl, ⟨c5, rfl⟩,
    ⟨t7, k7⟩, _, rfl, ⟨c7, rfl⟩, ⟨t8, k8⟩, _, rfl, ⟨c8, rfl⟩, ⟨t9, k9⟩, _, rfl, ⟨c9, rfl⟩,
    ⟨t11, k11⟩, _, rfl, ⟨c11, rfl⟩, rfl⟩ := hs
  have hw := fun l hl => (I.wf l hl).2
  clear I hcan h
  obtain ⟨k1, rfl⟩ : ∃ k, k1 = .concept k := by cases k1 <;> simp_all [clsOf]
  obtain ⟨k4, rfl⟩ : ∃ k, k4 = .concept k := by cases k4 <;> simp_all [clsOf]
  obtain ⟨k7, rfl⟩ : ∃ k, k7 = .concept k := by cases k7 <;> simp_all [clsOf]
  obtain ⟨k9, rfl⟩ : ∃ k, k9 = .concept k := by cases k9 <;> simp_all [clsOf]
  obtain rfl : k2 = .whitespace := by cases k2 <;> simp_all [clsOf]
  obtain rfl : k5 = .whitespace := by cases k5 <;> simp_all [clsOf]
  obtain rfl : k8 = .whitespace := by cases k8 <;> simp_all [clsOf]
  obtain ⟨a, rfl⟩ : ∃ k, k3 = .opening k := by cases k3 <;> simp_all [clsOf]
  obtain ⟨d, rfl⟩ : ∃ k, k11 = .closing k := by cases k11 <;> simp_all [clsOf]
  exact ⟨k1, k4, k7, k9, a, d, rfl, hw ⟨str% "let", .concept k1⟩ (by simp) _ rfl,
    hw ⟨t4, .concept k4⟩ (by simp) _ rfl, hw ⟨str% "->", .concept k7⟩ (by simp) _ rfl,
    hw ⟨t9, .concept k9⟩ (by simp) _ rfl⟩

/-- The leaves of the two words. -/
def wordLeaves (n : Nat) (x y : Str) (kx ky : Kind) : CM (Syn × Syn) := do
  let X ← leafOf n x kx
  let Y ← leafOf n y ky
  return (X, Y)

/-- How `let (x -> y)` is read when the words `let` and `->` are known. -/
theorem telling_list {n : Nat} {x y : Str} {kl kx ka ky : Kind} {L V : Syn}
    (eL : leafOf n (str% "let") kl = pure L) (eV : leafOf n (str% "->") ka = pure V) :
    Parser.syntaxList n ((NST.fromConceptKind kl (str% "let")).appendNode
      ((((NST.fromConceptKind kx x).appendNode (NST.fromConceptKind ka (str% "->"))).appendNode
        (NST.fromConceptKind ky y)).nest)) = (do
      let p ← wordLeaves n x y kx ky
      let R ← Parser.astFromList n 3 [p.1, V, p.2]
      return [L, R]) := by
  have e : ((NST.fromConceptKind kx x).appendNode (NST.fromConceptKind ka (str% "->"))).appendNode
        (NST.fromConceptKind ky y) = .parent [NST.fromConceptKind kx x, NST.fromConceptKind ka (str% "->"),
          NST.fromConceptKind ky y] ((x ++ ' ' :: str% "->") ++ ' ' :: y) none := rfl
  have e3 : ∀ a b c u v, Parser.astFromNested n (.parent [a, b, c] u v) = (do
      let p ← Parser.astFromNested n a
      let q ← Parser.astFromNested n b
      let r ← Parser.astFromNested n c
      Parser.astFromList n 3 [p, q, r]) := by
    intro a b c u v
    simp only [Parser.astFromNested, Parser.astsFromNested, bind_assoc, pure_bind, List.length_cons, List.length_nil]
  rw [appended]
  simp only [Parser.syntaxList, Parser.astsFromNested, nested_nest_eq, e, e3, nested_leaf, eL,
      eV, bind_assoc, pure_bind, wordLeaves]

/-- A text that is read as the command `let (x (-> y))`, given how the leaves of the words end. -/
def TellsAs (n : Nat) (u x y : Str) : Prop :=
  ∀ {s : Snap} {W : Stand s} {D : Nat → Prop} (_ : Asked s D) (_ : Ties s D) {c : Ctx} {i j : Nat} (_ : D i) (_ : D j)
    (_ : Ranked ⟨W.snap, W.pend⟩ (W.ι (builtin .precedes)) (W.ι (builtin .reduction)))
    (_ : (View.mk c.snap c.delta).conceptFromLabel n (str% "let") = .ok (some (W.ι (builtin .letCmd))))
    (_ : (View.mk c.snap c.delta).conceptFromLabel n (str% "->") = .ok (some (W.ι (builtin .reduction))))
    (_ : ∀ kx ky, Parser.conceptKind ⟨c.snap, c.delta⟩ n x = .ok kx →
      Parser.conceptKind ⟨c.snap, c.delta⟩ n y = .ok ky →
      Ends (wordLeaves n x y kx ky) c (fun r c' => Asking W D c' ∧ c'.pinned = false ∧
          ∃ X Y, Plain (W.ι i) X ∧ Plain (W.ι j) Y ∧ r = .ok (X, Y))),
    Ends (Parser.astFromExpression n u) c (fun r c' => Asking W D c' ∧ c'.pinned = false ∧
      ∃ L X V Y u1 u2 f1 g1 f2 g2, Plain (W.ι (builtin .letCmd)) L ∧ Plain (W.ι i) X ∧
        Plain (W.ι (builtin .reduction)) V ∧ Plain (W.ι j) Y ∧
        r = .ok (.newPair L (.branch u1 none X (.branch u2 none V Y f2 g2) f1 g1))) ∧ Learns n u x y c

theorem tellsAs_teaching {n : Nat} {x y : Str} (hx : IsSymbol x) (hy : IsSymbol y) :
    TellsAs n (teaching x y) x y := by
  intro s W D A T c i j _ dj _ hl ha h
  exact ⟨parse_told_with A T hx hy dj hl ha h, learns_teaching hx hy⟩

theorem tellsAs_telling {n : Nat} {x y : Str} (hx : IsSymbol x) (hy : IsSymbol y) :
    TellsAs n (telling x y) x y := by
  intro s W D A T c i j di dj hR hl ha h
  constructor
  · unfold Parser.astFromExpression
    refine Ends.bind (Ends.reading fun ls hls => ?_)
    obtain ⟨kl, kx, ka, ky, a, d, rfl, h1, h2, h3, h4⟩ := lex_telling hx hy hls
    obtain ⟨L, pL, eL⟩ := leafOf_known ⟨by decide, by simp [SymbolChar]; decide⟩ (by decide) hl h1
    obtain ⟨V, pV, eV⟩ := leafOf_known ⟨by decide, by simp [SymbolChar]; decide⟩ (by decide) ha h3
    show Ends _ _ _
    rw [nest_telling]
    refine Ends.bind (Ends.ofR ?_)
    show Ends _ _ _
    rw [telling_list eL eV]
    refine Ends.bind (Ends.bind ((h kx ky h2 h4).mono ?_))
    rintro _ c' ⟨hc, hpin, X, Y, pX, pY, rfl⟩
    show Ends _ _ _
    refine Ends.bind ((list_arrow A T hc di dj pX pV pY (by rw [hc.snap, hc.delta]; exact hR)).mono ?_)
    rintro _ c2 ⟨hc2, hp2, _, u, f1, g1, f2, g2, rfl⟩
    refine Ends.pure ?_
    exact Ends.pure ⟨hc2, hp2.trans hpin, L, X, V, Y, _, _, _, _, _, _, pL, pX, pV, pY, rfl⟩
  · intro t c' hp
    unfold Parser.astFromExpression at hp
    obtain ⟨ls, c1, h0, hp⟩ := bind_done hp
    obtain ⟨hls, rfl⟩ := reading_done h0
    obtain ⟨kl, kx, ka, ky, a, d, rfl, h1, h2, h3, h4⟩ := lex_telling hx hy hls
    obtain ⟨L, pL, eL⟩ := leafOf_known ⟨by decide, by simp [SymbolChar]; decide⟩ (by decide) hl h1
    obtain ⟨V, pV, eV⟩ := leafOf_known ⟨by decide, by simp [SymbolChar]; decide⟩ (by decide) ha h3
    rw [nest_telling] at hp
    obtain ⟨t0, c2, h0, hp⟩ := bind_done hp
    cases h0
    rw [telling_list eL eV] at hp
    obtain ⟨ts, c2, h0, hp⟩ := bind_done hp
    obtain ⟨⟨X, Y⟩, c3, hw, h0⟩ := bind_done h0
    obtain ⟨R, c4, hr, h0⟩ := bind_done h0
    cases h0
    obtain ⟨hc, _, X', Y', pX, pY, e⟩ := h kx ky h2 h4 _ _ hw
    cases e
    unfold wordLeaves at hw
    obtain ⟨X', c5, w1, hw⟩ := bind_done hw
    obtain ⟨Y', c6, w2, hw⟩ := bind_done hw
    cases hw
    obtain ⟨_, _, ⟨es, ed, hP⟩, u, f1, g1, f2, g2, e⟩ :=
      list_arrow A T hc di dj pX pV pY (by rw [hc.snap, hc.delta]; exact hR) _ _ hr
    cases e
    cases hp
    refine ⟨kl, kx, ka, ky, h1, h2, h3, h4, L, X, V, Y, _, _, _, _, by rw [eL]; rfl, w1, by rw [eV]; rfl, w2, ?_⟩
    intro il ix ia iy hr _ _ _ _
    refine ⟨⟨_, _, _, _, _, _, rfl⟩, ?_, es, ed⟩
    have hh := hP _ (fun e he hm => hr.shown.closed he hm) hr.honest
    refine ⟨?_, hh, ?_, ?_, hr.differ, ?_⟩
    · rw [es, ed]; exact hr.shown
    · rw [es, ed]; exact hr.letCmd
    · rw [es, ed]; exact hr.reduction
    · rw [es, ed]; exact hr.unstored

end Zia

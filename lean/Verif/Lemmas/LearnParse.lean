import Verif.Lemmas.Learn
import Verif.Lemmas.Lex
import Verif.Spec.Teach
import Verif.Spec.Print
namespace Zia
open CM Spec
set_option linter.unusedSectionVars false
variable [HashOrder]

/-- The tree of a leaf of the command. -/
def leafOf (n : Nat) (s : Str) (k : Kind) : CM Syn :=
  match NST.fromConceptKind k s with
  | .leaf l s c => Parser.astFromLeaf n l s c
  | .parent .. => fault .diverge

theorem nest_let (kl kx ka ky : Kind) (x y : Str) (a b c d : Option Nat) :
    nest [⟨str% "let", .concept kl⟩, ⟨[' '], .whitespace⟩, ⟨['('], .opening a⟩,
      ⟨x, .concept kx⟩, ⟨[' '], .whitespace⟩, ⟨['('], .opening b⟩, ⟨str% "->", .concept ka⟩,
      ⟨[' '], .whitespace⟩, ⟨y, .concept ky⟩, ⟨[')'], .closing c⟩, ⟨[')'], .closing d⟩] =
    .ok (((NST.fromConceptKind kl (str% "let")).appendNode
      (((NST.fromConceptKind kx x).appendNode ((NST.fromConceptKind ka (str% "->")).appendNode
        (NST.fromConceptKind ky y)).nest).nest))) := rfl

/-- The text that teaches that `x` reduces to `y`. -/
def teaching (x y : Str) : Str := str% "let (" ++ x ++ str% " (-> " ++ y ++ str% "))"

theorem lex_teaching {x y : Str} (hx : IsSymbol x) (hy : IsSymbol y) {kind : Str → Except Fault Kind}
    {ls : List Lexeme} (h : lex kind (teaching x y) = .ok ls) :
    ∃ kl kx ka ky a b c d, ls = [⟨str% "let", .concept kl⟩, ⟨[' '], .whitespace⟩, ⟨['('], .opening a⟩,
      ⟨x, .concept kx⟩, ⟨[' '], .whitespace⟩, ⟨['('], .opening b⟩, ⟨str% "->", .concept ka⟩,
      ⟨[' '], .whitespace⟩, ⟨y, .concept ky⟩, ⟨[')'], .closing c⟩, ⟨[')'], .closing d⟩] ∧
      kind (str% "let") = .ok kl ∧ kind x = .ok kx ∧ kind (str% "->") = .ok ka ∧ kind y = .ok ky := by
  obtain ⟨stack, I⟩ := lex_inv h
  have hsp : HasClass .space [' '] := ⟨by simp, by decide⟩
  have hlet : HasClass .symbol (str% "let") := ⟨by decide, by simp [SymbolChar]; decide⟩
  have hred : HasClass .symbol (str% "->") := ⟨by decide, by simp [SymbolChar]; decide⟩
  have hcan : Canonical [(.symbol, str% "let"), (.space, [' ']), (.opening, ['(']), (.symbol, x), (.space, [' ']),
      (.opening, ['(']), (.symbol, str% "->"), (.space, [' ']), (.symbol, y), (.closing, [')']),
      (.closing, [')'])] :=
    ⟨hlet, by decide, hsp, by decide, rfl, by decide, hx, by decide, hsp, by decide, rfl, by decide, hred,
      by decide, hsp, by decide, hy, by decide, rfl, by decide, rfl⟩
  have hs := canonical_unique _ _ I.canonical hcan (by
    have := I.text
    simp only [textOf, segments, List.map_map]
    rw [show ((fun x : Cls × Str => x.2) ∘ fun l : Lexeme => (clsOf l.category, l.text)) = (·.text) from rfl, this]
    simp [teaching])
  simp only [segments, List.map_eq_cons_iff, List.map_eq_nil_iff, Prod.mk.injEq] at hs
  obtain ⟨⟨t1, k1⟩, _, rfl, ⟨c1, rfl⟩, ⟨t2, k2⟩, _, rfl, ⟨c2, rfl⟩, ⟨t3, k3⟩, _, rfl, ⟨c3, rfl⟩,
    ⟨t4, k4⟩, _, rfl, ⟨c4, rfl⟩, ⟨t5, k5⟩, _, rfl, ⟨c5, rfl⟩, ⟨t6, k6⟩, _, rfl, ⟨c6, rfl⟩,
    ⟨t7, k7⟩, _, rfl, ⟨c7, rfl⟩, ⟨t8, k8⟩, _, rfl, ⟨c8, rfl⟩, ⟨t9, k9⟩, _, rfl, ⟨c9, rfl⟩,
    ⟨t10, k10⟩, _, rfl, ⟨c10, rfl⟩, ⟨t11, k11⟩, _, rfl, ⟨c11, rfl⟩, rfl⟩ := hs
  have hw := fun l hl => (I.wf l hl).2
  clear I hcan h
  obtain ⟨k1, rfl⟩ : ∃ k, k1 = .concept k := by cases k1 <;> simp_all [clsOf]
  obtain ⟨k4, rfl⟩ : ∃ k, k4 = .concept k := by cases k4 <;> simp_all [clsOf]
  obtain ⟨k7, rfl⟩ : ∃ k, k7 = .concept k := by cases k7 <;> simp_all [clsOf]
  obtain ⟨k9, rfl⟩ : ∃ k, k9 = .concept k := by cases k9 <;> simp_all [clsOf]
  obtain rfl : k2 = .whitespace := by cases k2 <;> simp_all [clsOf]
  obtain rfl : k5 = .whitespace := by cases k5 <;> simp_all [clsOf]
  obtain rfl : k8 = .whitespace := by cases k8 <;> simp_all [clsOf]
  obtain ⟨a, rfl⟩ : ∃ k, k3 = .opening k := by cases k3 <;> simp_all [clsOf]
  obtain ⟨b, rfl⟩ : ∃ k, k6 = .opening k := by cases k6 <;> simp_all [clsOf]
  obtain ⟨c, rfl⟩ : ∃ k, k10 = .closing k := by cases k10 <;> simp_all [clsOf]
  obtain ⟨d, rfl⟩ : ∃ k, k11 = .closing k := by cases k11 <;> simp_all [clsOf]
  exact ⟨k1, k4, k7, k9, a, b, c, d, rfl, hw ⟨str% "let", .concept k1⟩ (by simp) _ rfl,
    hw ⟨t4, .concept k4⟩ (by simp) _ rfl, hw ⟨str% "->", .concept k7⟩ (by simp) _ rfl,
    hw ⟨t9, .concept k9⟩ (by simp) _ rfl⟩

theorem reading_done {α : Type} {f : View → Except Fault α} {c c' : Ctx} {a : α}
    (h : reading f c = .ok (.ok a, c')) : f ⟨c.snap, c.delta⟩ = .ok a ∧ c' = c := by
  have h : (f ⟨c.snap, c.delta⟩ >>= fun a => .ok (.ok a, c)) = Except.ok (Except.ok a, c') := h
  rw [Except.bind_eq_ok] at h
  obtain ⟨b, h1, h2⟩ := h
  cases h2
  exact ⟨h1, rfl⟩

theorem nested_leaf {n : Nat} {k : Kind} {s : Str} :
    Parser.astFromNested n (NST.fromConceptKind k s) = leafOf n s k := by
  simp only [NST.fromConceptKind, leafOf, Parser.astFromNested]

/-- The tree of a pair of two nodes. -/
theorem nested_pair {n : Nat} {a b : NST} {u : Str} {v : Option CId} {c c' : Ctx} {t : Syn}
    (h : Parser.astFromNested n (.parent [a, b] u v) c = .ok (.ok t, c')) :
    ∃ l r c1 c2, Parser.astFromNested n a c = .ok (.ok l, c1) ∧ Parser.astFromNested n b c1 = .ok (.ok r, c2) ∧
      Parser.astFromPair n l r c2 = .ok (.ok t, c') := by
  simp only [Parser.astFromNested, Parser.astsFromNested] at h
  obtain ⟨ts, c1, h1, h⟩ := CM.bind_done h
  obtain ⟨l, c2, h2, h1⟩ := CM.bind_done h1
  obtain ⟨rs, c3, h3, h1⟩ := CM.bind_done h1
  obtain ⟨r, c4, h4, h3⟩ := CM.bind_done h3
  cases h3
  cases h1
  exact ⟨l, r, c2, _, h2, h4, h⟩

/-- The tree of a group in brackets. -/
theorem nested_nest {n : Nat} {a : NST} {c c' : Ctx} {t : Syn}
    (h : Parser.astFromNested n a.nest c = .ok (.ok t, c')) : Parser.astFromNested n a c = .ok (.ok t, c') := by
  simp only [NST.nest, Parser.astFromNested, Parser.astsFromNested] at h
  obtain ⟨ts, c1, h1, h⟩ := CM.bind_done h
  obtain ⟨l, c2, h2, h1⟩ := CM.bind_done h1
  cases h1
  cases h
  exact h2

/-- The trees of the parsed command. -/
theorem parse_teaching {n : Nat} {x y : Str} (hx : IsSymbol x) (hy : IsSymbol y) {c c' : Ctx} {t : Syn}
    (h : Parser.astFromExpression n (teaching x y) c = .ok (.ok t, c')) :
    ∃ kl kx ka ky,
      let kind := Parser.conceptKind ⟨c.snap, c.delta⟩ n
      kind (str% "let") = .ok kl ∧ kind x = .ok kx ∧ kind (str% "->") = .ok ka ∧ kind y = .ok ky ∧
      ∃ L X A Y R2 R c1 c2 c3 c4 c5, leafOf n (str% "let") kl c = .ok (.ok L, c1) ∧
        leafOf n x kx c1 = .ok (.ok X, c2) ∧ leafOf n (str% "->") ka c2 = .ok (.ok A, c3) ∧
        leafOf n y ky c3 = .ok (.ok Y, c4) ∧ Parser.astFromPair n A Y c4 = .ok (.ok R2, c5) ∧
        Parser.astFromPair n X R2 c5 = .ok (.ok R, c') ∧ t = .newPair L R := by
  unfold Parser.astFromExpression at h
  obtain ⟨ls, c0, h1, h⟩ := CM.bind_done h
  obtain ⟨hl, rfl⟩ : lex (Parser.conceptKind ⟨c.snap, c.delta⟩ n) (teaching x y) = .ok ls ∧ c0 = c := by
    exact reading_done h1
  obtain ⟨kl, kx, ka, ky, a, b, cc, d, rfl, h1, h2, h3, h4⟩ := lex_teaching hx hy hl
  rw [nest_let] at h
  refine ⟨kl, kx, ka, ky, h1, h2, h3, h4, ?_⟩
  obtain ⟨t1, c1, e1, h⟩ := CM.bind_done h
  cases e1
  obtain ⟨ts, c', e2, h⟩ := CM.bind_done h
  obtain ⟨L, c1, eL, e2⟩ := CM.bind_done e2
  obtain ⟨RS, c2, eR, e2⟩ := CM.bind_done e2
  cases e2
  obtain ⟨R, c3, eR, e3⟩ := CM.bind_done eR
  cases e3
  obtain ⟨X, V, c4, c5, eX, eV, eR⟩ := nested_pair (nested_nest eR)
  obtain ⟨A, Y, c6, c7, eA, eY, eV⟩ := nested_pair (nested_nest eV)
  cases h
  exact ⟨L, X, A, Y, V, R, c1, c4, c6, c7, c5, nested_leaf ▸ eL, nested_leaf ▸ eX, nested_leaf ▸ eA,
    nested_leaf ▸ eY, eV, eR, rfl⟩

/-- The text `u` is read as the command that teaches that `x` reduces to `y`. -/
def Learns (n : Nat) (u x y : Str) (c : Ctx) : Prop :=
  ∀ t c', Parser.astFromExpression n u c = .ok (.ok t, c') → ∃ kl kx ka ky,
    let kind := Parser.conceptKind ⟨c.snap, c.delta⟩ n
    kind (str% "let") = .ok kl ∧ kind x = .ok kx ∧ kind (str% "->") = .ok ka ∧ kind y = .ok ky ∧
    ∃ L X A Y c1 c2 c3 c4, leafOf n (str% "let") kl c = .ok (.ok L, c1) ∧
      leafOf n x kx c1 = .ok (.ok X, c2) ∧ leafOf n (str% "->") ka c2 = .ok (.ok A, c3) ∧
      leafOf n y ky c3 = .ok (.ok Y, c4) ∧ ∀ il ix ia iy, Ready c4 il ix ia iy → Plain il L → Plain ix X → Plain ia A →
        Plain iy Y → (∃ s1 s2 f1 g1 f2 g2, t = .newPair L (.branch s1 none X (.branch s2 none A Y f2 g2) f1 g1)) ∧
          Ready c' il ix ia iy ∧ c'.snap = c4.snap ∧ c'.delta = c4.delta

theorem learns_teaching {n : Nat} {x y : Str} (hx : IsSymbol x) (hy : IsSymbol y) {c : Ctx} :
    Learns n (teaching x y) x y c := by
  intro t c' h
  obtain ⟨kl, kx, ka, ky, e1, e2, e3, e4, L, X, A, Y, R2, R, d1, d2, d3, d4, d5, f1, f2, f3, f4, f5, f6, rfl⟩ :=
    parse_teaching hx hy h
  refine ⟨kl, kx, ka, ky, e1, e2, e3, e4, L, X, A, Y, d1, d2, d3, d4, f1, f2, f3, f4, ?_⟩
  intro il ix ia iy hr _ pX pA pY
  obtain ⟨⟨s1, s2, _, _, _, _, rfl⟩, h2⟩ := pairs_done hr pX pA (by obtain ⟨_, _, rfl, _⟩ := pY; rfl) f5 f6
  exact ⟨⟨_, _, _, _, _, _, rfl⟩, h2⟩

end Zia

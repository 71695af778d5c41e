import Verif.Lemmas.Print
import Verif.Props.Lex
import Verif.Props.Nest
import Verif.Witness.Print
import Verif.Lemmas.SM

/-!
# Property C36: what is printed reads back

`PTree.text` is the text of an expression whose parts associate to the right; `Shape.tree` is the expression
that a grouped command stands for when everything associates to the right.
-/

namespace Zia.Props

open Zia Zia.Spec

/-- C36. The text of an expression is always accepted by the lexer's and the grouping's rules, and it is read
back as the same expression exactly if that is printable: every compound part of a compound part begins
with a symbol. -/
theorem text_read_back_partial (kind : Str → Except Fault Kind) (t : PTree) (hs : t.Symbols) (ls : List Lexeme)
    (h : lex kind t.text = .ok ls) :
    ∃ n, nest ls = .ok n ∧ ((shapeOf n).tree = some t ↔ t.Printable) := by
  obtain ⟨hc, ht, hk⟩ := lex_canonical kind _ _ h
  let kf : Str → Kind := fun s => match kind s with
    | .ok k => k
    | .error _ => .new
  have hseg : segments ls = Items.segs (PTree.items kf t) := by
    refine canonical_unique _ _ hc (canonical_segs (good_items hs)) ?_
    rw [ht, textOf_segs, items_text]
  have htok : toks ls = (PTree.items kf t).write := by
    rw [toks_segments (kf := kf) fun s k hm => ?_, hseg, segToks_segs (good_items hs)]
    simp only [kf, hk s k hm]
  obtain ⟨n, hn, hshape⟩ := nest_complete _ ls (items_ne_nil t) (items_full t) htok
  refine ⟨n, hn, ?_⟩
  rw [hshape, shape_mk_tree, shapes_tree]
  exact items_tree t

/-- The search with every part associating to the right: asking for the associativity of anything else is a
failure. -/
def rightOnly (S : Search) : Search :=
  { S with getAssoc := fun e t => do
      match ← S.getAssoc e t with
      | .right => pure .right
      | .left => SM.fault .diverge }

/-- A syntax tree that is shown as the expression: what it displays is the text of the expression, and its
expansion is shown as the parts. -/
inductive Shown : Syn → PTree → Prop
  /-- A tree that displays as a symbol, whatever it expands to. -/
  | symbol {t : Syn} {s : Str} : t.display = .ok s → IsSymbol s → Shown t (.leaf s)
  /-- A tree that displays as its parts. -/
  | pair {t l r : Syn} {x y : PTree} : t.display = .ok (PTree.pair x y).text → t.expansion = some (l, r) →
      Shown l x → Shown r y → Shown t (.pair x y)

theorem Shown.display {t : Syn} {x : PTree} (h : Shown t x) : t.display = .ok x.text := by
  cases h with
  | symbol h _ => exact h
  | pair h _ _ _ => exact h

theorem Shown.symbols {t : Syn} {x : PTree} (h : Shown t x) : x.Symbols := by
  induction h with
  | symbol _ h => exact h
  | pair _ _ _ _ h₁ h₂ => exact ⟨h₁, h₂⟩

theorem space_isWs : isWs ' ' = true := by decide

theorem symbol_no_space {s : Str} (h : IsSymbol s) : s.any isWs = false := by
  rw [List.any_eq_false]
  intro c hc
  have := (h.2 c hc).2.2
  simp [this]

theorem pair_space (x y : PTree) : (PTree.pair x y).text.any isWs = true := by
  cases x <;> cases y <;> simp [PTree.text, space_isWs]

theorem rightOnly_ok {S : Search} {e : Env} {t : Syn} {a : Assoc} {ca ca' : Cache}
    (h : (rightOnly S).getAssoc e t ca = .ok (a, ca')) :
    a = .right ∧ S.getAssoc e t ca = .ok (.right, ca') := by
  simp only [rightOnly, SM.bind_ok] at h
  obtain ⟨b, ca1, hb, h⟩ := h
  cases b with
  | left => exact (SM.fault_ok.1 h).elim
  | right =>
    obtain ⟨rfl, rfl⟩ := SM.pure_ok.1 h
    exact ⟨rfl, hb⟩

/-- What is printed for the left part. -/
def leftPart (S : Search) (e : Env) (left : Syn) : SM Str := do
  let ls ← left.display
  if ls.any isWs then
    match left.expansion with
    | none => pure ls
    | some (l, r) => do
      let a ← S.getAssoc e r
      let x ← l.display
      let y ← r.display
      pure (a.displayJointLeft x y)
  else pure ls

/-- What is printed for the right part. -/
def rightPart (S : Search) (e : Env) (right : Syn) : SM Str := do
  let rs ← right.display
  if rs.any isWs then
    match right.expansion with
    | none => pure rs
    | some (l, r) => do
      let a ← S.getAssoc e l
      let x ← l.display
      let y ← r.display
      pure (a.displayJointRight x y)
  else pure rs

theorem displayJoint_parts (S : Search) (e : Env) (left right : Syn) :
    S.displayJoint e left right =
      (leftPart S e left >>= fun ls => rightPart S e right >>= fun rs => pure (ls ++ ' ' :: rs)) := by
  have rest : ∀ ls : Str, (do
      let rs ← right.display
      if rs.any isWs then
        match right.expansion with
        | none => do
          let rs ← pure rs
          pure (ls ++ ' ' :: rs)
        | some (l, r) => do
          let a ← S.getAssoc e l
          let x ← l.display
          let y ← r.display
          let rs ← pure (a.displayJointRight x y)
          pure (ls ++ ' ' :: rs)
      else do
        let rs ← pure rs
        pure (ls ++ ' ' :: rs) : SM Str) = (rightPart S e right >>= fun rs => pure (ls ++ ' ' :: rs)) := by
    intro ls
    unfold rightPart
    simp only [bind_assoc]
    congr 1
    funext rs
    cases List.any rs isWs
    · simp
    · cases right.expansion <;> simp
  unfold Search.displayJoint leftPart
  simp only [bind_assoc]
  congr 1
  funext ls
  cases List.any ls isWs
  · simp only [Bool.false_eq_true, if_false, pure_bind]
    exact rest ls
  · simp only [if_true]
    cases left.expansion with
    | none =>
      simp only [pure_bind]
      exact rest ls
    | some p =>
      simp only [bind_assoc, pure_bind]
      congr 1; funext a
      congr 1; funext x
      congr 1; funext y
      exact rest _

theorem leftPart_text {S : Search} {e : Env} {left : Syn} {x : PTree} (hl : Shown left x) {ca ca' : Cache}
    {txt : Str} (h : leftPart (rightOnly S) e left ca = .ok (txt, ca')) :
    leftPart S e left ca = .ok (txt, ca') ∧
      txt = match x with
        | .leaf s => s
        | .pair a b => '(' :: a.text ++ ' ' :: b.text ++ [')'] := by
  unfold leftPart at h ⊢
  rw [hl.display] at h ⊢
  simp only [SM.bind_ok, SM.lift_ok, Except.ok.injEq] at h ⊢
  obtain ⟨_, _, ⟨rfl, rfl⟩, h⟩ := h
  cases hl with
  | @symbol _ s hd hs =>
    have hn : ¬ ((PTree.leaf s).text.any isWs = true) := by
      rw [PTree.text, symbol_no_space hs]; simp
    rw [if_neg hn, SM.pure_ok] at h
    obtain ⟨rfl, rfl⟩ := h
    refine ⟨⟨_, _, ⟨rfl, rfl⟩, ?_⟩, rfl⟩
    rw [if_neg hn]; rfl
  | pair hd he h₁ h₂ =>
    rw [if_pos (pair_space _ _), he] at h
    simp only [SM.bind_ok, SM.lift_ok, SM.pure_ok, h₁.display, h₂.display, Except.ok.injEq] at h
    obtain ⟨_, _, ha, _, _, ⟨rfl, rfl⟩, _, _, ⟨rfl, rfl⟩, rfl, rfl⟩ := h
    obtain ⟨rfl, ha'⟩ := rightOnly_ok ha
    refine ⟨⟨_, _, ⟨rfl, rfl⟩, ?_⟩, rfl⟩
    rw [if_pos (pair_space _ _), he]
    simp only [SM.bind_ok, SM.lift_ok, SM.pure_ok, h₁.display, h₂.display, Except.ok.injEq]
    exact ⟨_, _, ha', _, _, ⟨rfl, rfl⟩, _, _, ⟨rfl, rfl⟩, rfl, rfl⟩

theorem rightPart_text {S : Search} {e : Env} {right : Syn} {x : PTree} (hl : Shown right x)
    {ca ca' : Cache} {txt : Str} (h : rightPart (rightOnly S) e right ca = .ok (txt, ca')) :
    rightPart S e right ca = .ok (txt, ca') ∧
      txt = match x with
        | .leaf s => s
        | .pair a b => a.text ++ ' ' :: b.text := by
  unfold rightPart at h ⊢
  rw [hl.display] at h ⊢
  simp only [SM.bind_ok, SM.lift_ok, Except.ok.injEq] at h ⊢
  obtain ⟨_, _, ⟨rfl, rfl⟩, h⟩ := h
  cases hl with
  | @symbol _ s hd hs =>
    have hn : ¬ ((PTree.leaf s).text.any isWs = true) := by
      rw [PTree.text, symbol_no_space hs]; simp
    rw [if_neg hn, SM.pure_ok] at h
    obtain ⟨rfl, rfl⟩ := h
    refine ⟨⟨_, _, ⟨rfl, rfl⟩, ?_⟩, rfl⟩
    rw [if_neg hn]; rfl
  | pair hd he h₁ h₂ =>
    rw [if_pos (pair_space _ _), he] at h
    simp only [SM.bind_ok, SM.lift_ok, SM.pure_ok, h₁.display, h₂.display, Except.ok.injEq] at h
    obtain ⟨_, _, ha, _, _, ⟨rfl, rfl⟩, _, _, ⟨rfl, rfl⟩, rfl, rfl⟩ := h
    obtain ⟨rfl, ha'⟩ := rightOnly_ok ha
    refine ⟨⟨_, _, ⟨rfl, rfl⟩, ?_⟩, rfl⟩
    rw [if_pos (pair_space _ _), he]
    simp only [SM.bind_ok, SM.lift_ok, SM.pure_ok, h₁.display, h₂.display, Except.ok.injEq]
    exact ⟨_, _, ha', _, _, ⟨rfl, rfl⟩, _, _, ⟨rfl, rfl⟩, rfl, rfl⟩

/-- C36. The text that is made for a pair of shown trees is the text of the pair of the expressions they are
shown as, if the parts associate to the right. -/
theorem joint_text (S : Search) (e : Env) (left right : Syn) (x y : PTree) (hl : Shown left x)
    (hr : Shown right y) (ca ca' : Cache) (txt : Str)
    (h : (rightOnly S).displayJoint e left right ca = .ok (txt, ca')) :
    txt = (PTree.pair x y).text ∧ S.displayJoint e left right ca = .ok (txt, ca') := by
  rw [displayJoint_parts] at h ⊢
  simp only [SM.bind_ok, SM.pure_ok] at h ⊢
  obtain ⟨a, _, ha, b, _, hb, rfl, rfl⟩ := h
  obtain ⟨ha, hat⟩ := leftPart_text hl ha
  obtain ⟨hb, hbt⟩ := rightPart_text hr hb
  refine ⟨?_, _, _, ha, _, _, hb, rfl, rfl⟩
  rw [hat, hbt]
  cases x <;> cases y <;> simp [PTree.text]

/-- C36. The tree made of two shown trees is shown as the pair of their expressions, if the parts associate
to the right; so its text is read back as that pair exactly if the pair is printable. -/
theorem joined_read_back_partial (S : Search) (e : Env) (left right t : Syn) (x y : PTree) (hl : Shown left x)
    (hr : Shown right y) (ca ca' : Cache) (h : (rightOnly S).join e left right ca = .ok (t, ca')) :
    S.join e left right ca = .ok (t, ca') ∧ Shown t (.pair x y) ∧
      ∀ kind txt ls, t.display = .ok txt → lex kind txt = .ok ls →
        ∃ n, nest ls = .ok n ∧ ((shapeOf n).tree = some (.pair x y) ↔ (PTree.pair x y).Printable) := by
  have hs : Shown t (.pair x y) ∧ S.join e left right ca = .ok (t, ca') := by
    unfold Search.join at h ⊢
    simp only [SM.bind_ok, SM.pure_ok] at h ⊢
    obtain ⟨txt, _, hd, rfl, rfl⟩ := h
    obtain ⟨rfl, hd'⟩ := joint_text S e left right x y hl hr _ _ _ hd
    exact ⟨.pair rfl rfl hl hr, _, _, hd', rfl, rfl⟩
  refine ⟨hs.2, hs.1, fun kind txt ls ht hls => ?_⟩
  rw [hs.1.display] at ht
  cases ht
  exact text_read_back_partial kind (.pair x y) ⟨hl.symbols, hr.symbols⟩ ls hls

/-- C36 is false as stated: there is a reachable state where the answer to `x ((a b) c)` is `x a b c`,
which is answered with something else. -/
theorem answer_not_read_back : ∃ c : Ctx, Reachable c ∧ ∃ cmd ans other : Str,
    (@Context.execute HashOrder.insertion 60 c cmd).toOption.map Prod.fst = some ans ∧
    (@Context.execute HashOrder.insertion 60 c ans).toOption.map Prod.fst = some other ∧ ans ≠ other :=
  ⟨Witness.printed1, Witness.printed1_reachable, str% "x ((a b) c)", str% "x a b c", str% "x one",
    Witness.printed_answer, Witness.printed_typed, by decide⟩

/-! The hypotheses are met: a printable expression and one that is not. -/

/-- Every symbol is new. -/
def allNew : Str → Except Fault Kind := fun _ => .ok .new

/-- `(a b) c d`. -/
def fine : PTree := .pair (.pair (.leaf ['a']) (.leaf ['b'])) (.pair (.leaf ['c']) (.leaf ['d']))

/-- `a ((b c) d)`, printed as `a b c d`. -/
def flattened : PTree := .pair (.leaf ['a']) (.pair (.pair (.leaf ['b']) (.leaf ['c'])) (.leaf ['d']))

theorem letter_symbol {c : Char} (h₁ : c ≠ '(') (h₂ : c ≠ ')') (h₃ : isWs c = false) : IsSymbol [c] :=
  ⟨by simp, fun d hd => by rw [List.mem_singleton.1 hd]; exact ⟨h₁, h₂, h₃⟩⟩

example : fine.Symbols ∧ fine.Printable ∧ fine.text = str% "(a b) c d" ∧
    ∃ ls, lex allNew fine.text = .ok ls := by
  refine ⟨⟨⟨?_, ?_⟩, ?_, ?_⟩, ?_, rfl, lex_total _ _ fun _ => ⟨_, rfl⟩⟩
  · exact letter_symbol (by decide) (by decide) (by decide)
  · exact letter_symbol (by decide) (by decide) (by decide)
  · exact letter_symbol (by decide) (by decide) (by decide)
  · exact letter_symbol (by decide) (by decide) (by decide)
  · rw [fine, printable_pair, inner_pair, inner_pair]
    exact ⟨⟨⟨_, rfl⟩, trivial⟩, ⟨_, rfl⟩, trivial⟩

example : flattened.Symbols ∧ ¬ flattened.Printable ∧ flattened.text = str% "a b c d" := by
  refine ⟨⟨?_, ⟨?_, ?_⟩, ?_⟩, ?_, rfl⟩
  · exact letter_symbol (by decide) (by decide) (by decide)
  · exact letter_symbol (by decide) (by decide) (by decide)
  · exact letter_symbol (by decide) (by decide) (by decide)
  · exact letter_symbol (by decide) (by decide) (by decide)
  · rw [flattened, printable_pair, inner_pair]
    rintro ⟨_, ⟨s, hs⟩, _⟩
    cases hs

/-- `b c`. -/
def shownRight : Syn := (Syn.ofStr (str% "b c")).bindPair (.ofStr ['b']) (.ofStr ['c'])

example : Shown (.ofStr ['a']) (.leaf ['a']) ∧ Shown shownRight (.pair (.leaf ['b']) (.leaf ['c'])) :=
  ⟨.symbol rfl (letter_symbol (by decide) (by decide) (by decide)),
    .pair rfl rfl (.symbol rfl (letter_symbol (by decide) (by decide) (by decide)))
      (.symbol rfl (letter_symbol (by decide) (by decide) (by decide)))⟩

set_option maxRecDepth 100000 in
open Insertion in
/-- They are joined in a new context with everything associating to the right. -/
example : ((rightOnly (search 40)).join (CM.env boot) (.ofStr ['a']) shownRight .empty).toOption.map
    (fun p => p.1.syntx) = some (some (str% "a b c")) := by
  decide +kernel

end Zia.Props

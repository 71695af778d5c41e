import Verif.Context
import Verif.Spec.Nest
import Verif.Spec.Pieces

/-!
# Commands are read by their symbols and brackets
-/

namespace Zia
open Spec

/-- The symbol read last, as a token. -/
def flush : Option (Str × Kind) → List Tok
  | none => []
  | some (t, k) => [.sym t k]

/-- The text of the symbol read last. -/
def flushText : Option (Str × Kind) → Str
  | none => []
  | some (t, _) => t

/-- Lexing without spaces and positions. -/
def scan (kind : Str → Except Fault Kind) : Option (Str × Kind) → Str → Except Fault (List Tok)
  | o, [] => .ok (flush o)
  | o, c :: cs =>
    if c = '(' then do return flush o ++ .opening :: (← scan kind none cs)
    else if c = ')' then do return flush o ++ .closing :: (← scan kind none cs)
    else if isWs c then do return flush o ++ (← scan kind none cs)
    else do
      let k ← kind (flushText o ++ [c])
      scan kind (some (flushText o ++ [c], k)) cs

/-- The lexemes read so far: those before a symbol at the end, and this symbol. -/
def Halves (rev : List Lexeme) (ts : List Tok) : Option (Str × Kind) → Prop
  | none => toks rev.reverse = ts ∧ ∀ t k r, rev ≠ ⟨t, .concept k⟩ :: r
  | some (t, k) => ∃ r, rev = ⟨t, .concept k⟩ :: r ∧ toks r.reverse = ts

theorem toks_append (a b : List Lexeme) : toks (a ++ b) = toks a ++ toks b := by
  induction a with
  | nil => rfl
  | cons l a ih =>
    obtain ⟨t, c⟩ := l
    cases c <;> simp [toks, ih]

theorem Halves.all {rev : List Lexeme} {ts : List Tok} {o : Option (Str × Kind)} (h : Halves rev ts o) :
    toks rev.reverse = ts ++ flush o := by
  match o, h with
  | none, h => simp [flush, h.1]
  | some (t, k), h =>
    obtain ⟨r, rfl, hr⟩ := h
    simp [toks_append, hr, flush, toks]

theorem toks_modify (l : List Lexeme) (i cp : Nat) : toks (l.modify i (Lexeme.setClosing cp)).reverse = toks l.reverse := by
  induction l generalizing i with
  | nil => cases i <;> simp
  | cons x l ih =>
    obtain ⟨t, c⟩ := x
    cases i with
    | zero => cases c <;> simp [toks_append, Lexeme.setClosing, toks]
    | succ i => simp [toks_append, ih]

theorem lexLoop_scan (kind : Str → Except Fault Kind) (cs : Str) {st : LexState} {ts : List Tok}
    {o : Option (Str × Kind)} (h : Halves st.rev ts o) :
    (lexLoop kind st cs).map (fun st => toks st.rev.reverse) = (scan kind o cs).map (ts ++ ·) := by
  induction cs generalizing st ts o with
  | nil => simp [lexLoop, scan, Except.map, h.all]
  | cons c cs ih =>
    simp only [lexLoop, scan, lexStep]
    have close : ∀ {st' : LexState} {x : Lexeme} {r : List Lexeme} {tl : List Tok}, st'.rev = x :: r →
        (∀ t k, x ≠ ⟨t, .concept k⟩) → toks st'.rev.reverse = ts ++ flush o ++ tl →
        (lexLoop kind st' cs).map (fun st => toks st.rev.reverse) =
          (do return flush o ++ (tl ++ (← scan kind none cs))).map (ts ++ ·) := by
      intro st' x r tl e hx ht
      rw [ih (ts := ts ++ flush o ++ tl) (o := none) ⟨ht, fun t k r' e' => by
        rw [e] at e'
        exact hx t k (List.cons.inj e').1⟩]
      cases scan kind none cs <;> simp [Except.map, bind, Except.bind, pure, Except.pure]
    by_cases h1 : c = '('
    · simp only [h1, if_true]
      exact close (tl := [.opening]) rfl (fun _ _ e => by cases e) (by
        simp [toks_append, h.all, toks])
    · by_cases h2 : c = ')'
      · subst h2
        rw [if_neg (by decide), if_pos rfl, if_neg (by decide), if_pos rfl]
        cases hs : st.stack with
        | nil => exact close (tl := [.closing]) rfl (fun _ _ e => by cases e) (by simp [toks_append, h.all, toks])
        | cons op rest =>
          exact close (tl := [.closing]) rfl (fun _ _ e => by cases e) (by
            show toks (List.reverse (_ :: _)) = _
            rw [List.reverse_cons, toks_append, toks_modify, h.all]
            simp [toks])
      · by_cases h3 : isWs c = true
        · rw [if_neg h1, if_neg h2, if_pos h3, if_neg h1, if_neg h2, if_pos h3]
          split
          · next text rest e =>
            refine close (tl := []) rfl (fun _ _ e => by cases e) ?_
            have := h.all
            rw [e] at this
            simpa [toks_append, toks] using this
          · exact close (tl := []) rfl (fun _ _ e => by cases e) (by simp [toks_append, h.all, toks])
        · rw [if_neg h1, if_neg h2, if_neg h3, if_neg h1, if_neg h2, if_neg h3]
          match o, h with
          | none, h =>
            split
            · next text k rest e => exact absurd e (h.2 _ _ _)
            · simp only [flushText, List.nil_append]
              cases kind [c] with
              | error e => rfl
              | ok k => exact ih ⟨_, rfl, h.1⟩
          | some (t, k), h =>
            obtain ⟨r, e, hr⟩ := h
            rw [e]
            simp only [flushText]
            cases kind (t ++ [c]) with
            | error e => rfl
            | ok k => exact ih ⟨_, rfl, hr⟩

/-- The kind of a symbol, of which a part was read. -/
def finish (kind : Str → Except Fault Kind) : Str → Kind → Str → Except Fault Kind
  | _, k, [] => .ok k
  | t, _, c :: r => do
    let k ← kind (t ++ [c])
    finish kind (t ++ [c]) k r

/-- The tokens of symbols and brackets. -/
def toksOf (kind : Str → Except Fault Kind) : List Str → Except Fault (List Tok)
  | [] => .ok []
  | p :: ps =>
    if p = ['('] then do return .opening :: (← toksOf kind ps)
    else if p = [')'] then do return .closing :: (← toksOf kind ps)
    else match p with
      | [] => toksOf kind ps
      | c :: r => do
        let k ← kind [c]
        let k ← finish kind [c] k r
        return .sym (c :: r) k :: (← toksOf kind ps)

theorem scan_pieces (kind : Str → Except Fault Kind) (cs : Str) :
    scan kind none cs = toksOf kind (piecesAfter [] cs) ∧
    ∀ t k, t ≠ [] → ∃ r ps, piecesAfter t cs = (t ++ r) :: ps ∧
      scan kind (some (t, k)) cs = (do
        let k ← finish kind t k r
        return .sym (t ++ r) k :: (← toksOf kind ps)) := by
  induction cs with
  | nil => exact ⟨rfl, fun t k ht => ⟨[], [], by simp [piecesAfter, ht], by simp [scan, flush, finish, toksOf]; rfl⟩⟩
  | cons c cs ih =>
    obtain ⟨ih1, ih2⟩ := ih
    by_cases h1 : c = '('
    · subst h1
      refine ⟨?_, fun t k ht => ⟨[], ['('] :: piecesAfter [] cs, by simp [piecesAfter, ht], ?_⟩⟩
      · simp [scan, piecesAfter, toksOf, flush, ih1]
      · simp only [scan, toksOf, flush, if_true, ih1, finish, List.append_nil]
        cases toksOf kind (piecesAfter [] cs) <;> rfl
    · by_cases h2 : c = ')'
      · subst h2
        have ne : ¬([')'] : Str) = ['('] := by decide
        refine ⟨?_, fun t k ht => ⟨[], [')'] :: piecesAfter [] cs, by simp [piecesAfter, ht], ?_⟩⟩
        · simp [scan, piecesAfter, toksOf, flush, ih1]
        · simp only [scan, toksOf, flush, if_true, if_neg h1, if_neg ne, ih1, finish, List.append_nil]
          cases toksOf kind (piecesAfter [] cs) <;> rfl
      · by_cases h3 : isWs c = true
        · refine ⟨?_, fun t k ht => ⟨[], piecesAfter [] cs, by simp [piecesAfter, ht, h1, h2, h3], ?_⟩⟩
          · simp only [scan, piecesAfter, if_neg h1, if_neg h2, if_pos h3, h1, h2, or_self, if_false, if_true, flush, ih1,
              List.nil_append]
            cases toksOf kind (piecesAfter [] cs) <;> rfl
          · simp only [scan, if_neg h1, if_neg h2, if_pos h3, flush, ih1, finish, List.append_nil]
            cases toksOf kind (piecesAfter [] cs) <;> rfl
        · have hp : ∀ t, piecesAfter t (c :: cs) = piecesAfter (t ++ [c]) cs := fun t => by
            simp [piecesAfter, h1, h2, h3]
          refine ⟨?_, fun t k ht => ?_⟩
          · rw [hp, List.nil_append]
            simp only [scan, if_neg h1, if_neg h2, if_neg h3, flushText, List.nil_append]
            have n1 : ∀ r, ¬c :: r = ['('] := fun r e => h1 (List.cons.inj e).1
            have n2 : ∀ r, ¬c :: r = [')'] := fun r e => h2 (List.cons.inj e).1
            cases hk : kind [c] with
            | error e =>
              obtain ⟨r, ps, e1, _⟩ := ih2 [c] .new (by simp)
              rw [e1]
              simp only [List.cons_append, List.nil_append, toksOf, if_neg (n1 _), if_neg (n2 _), hk]
              rfl
            | ok k =>
              obtain ⟨r, ps, e1, e2⟩ := ih2 [c] k (by simp)
              rw [e1]
              simp only [List.cons_append, List.nil_append, toksOf, if_neg (n1 _), if_neg (n2 _), hk]
              exact e2
          · rw [hp]
            simp only [scan, if_neg h1, if_neg h2, if_neg h3, flushText]
            cases hk : kind (t ++ [c]) with
            | error e =>
              obtain ⟨r, ps, e1, _⟩ := ih2 (t ++ [c]) .new (by simp)
              refine ⟨c :: r, ps, by rw [e1]; simp, ?_⟩
              simp only [finish, hk]
              rfl
            | ok k' =>
              obtain ⟨r, ps, e1, e2⟩ := ih2 (t ++ [c]) k' (by simp)
              refine ⟨c :: r, ps, by rw [e1]; simp, ?_⟩
              simp only [finish, hk]
              rw [show t ++ c :: r = t ++ [c] ++ r by simp]
              exact e2

/-- The tokens of a command are those of its symbols and brackets. -/
theorem lex_pieces (kind : Str → Except Fault Kind) (s : Str) : (lex kind s).map toks = toksOf kind (pieces s) := by
  have h := lexLoop_scan kind s (st := ⟨[], []⟩) (ts := []) (o := none) ⟨rfl, fun _ _ _ e => by cases e⟩
  rw [(scan_pieces kind s).1] at h
  unfold lex pieces
  cases hl : lexLoop kind ⟨[], []⟩ s with
  | error e =>
    rw [hl] at h
    cases ht : toksOf kind (piecesAfter [] s) with
    | error e' => rw [ht] at h; cases h; rfl
    | ok ts => rw [ht] at h; cases h
  | ok st =>
    rw [hl] at h
    cases ht : toksOf kind (piecesAfter [] s) with
    | error e' => rw [ht] at h; cases h
    | ok ts => rw [ht] at h; exact h

/-- A lexeme for a token. -/
def unlex : Tok → Lexeme
  | .sym t k => ⟨t, .concept k⟩
  | .opening => ⟨['('], .opening none⟩
  | .closing => ⟨[')'], .closing none⟩

theorem nestLoop_toks (ls : List Lexeme) (st : NestState) : nestLoop st ls = nestLoop st ((toks ls).map unlex) := by
  induction ls generalizing st with
  | nil => rfl
  | cons l ls ih =>
    obtain ⟨t, c⟩ := l
    cases c with
    | whitespace =>
      rw [nestLoop, toks]
      exact ih st
    | concept k => simp only [nestLoop, toks, List.map_cons, unlex, ih]; try rfl
    | opening p => simp only [nestLoop, toks, List.map_cons, unlex, ih]; try rfl
    | closing p => simp only [nestLoop, toks, List.map_cons, unlex, ih]; try rfl

theorem nest_toks (ls : List Lexeme) : nest ls = nest ((toks ls).map unlex) := by
  unfold nest
  rw [nestLoop_toks]

open CM

variable [HashOrder]

theorem reading_map {α β γ : Type} (f : View → Except Fault α) (g : α → β) (F : β → CM γ) :
    (reading f >>= fun a => F (g a)) = (reading (fun v => (f v).map g) >>= F) := by
  funext c
  show (_ : Except Fault _) = _
  cases hl : f ⟨c.snap, c.delta⟩ <;>
    simp only [reading, view, ofE, bind, ExceptT.bind, ExceptT.mk, StateT.bind, ExceptT.bindCont, get, getThe,
      MonadStateOf.get, liftM, monadLift, MonadLift.monadLift, ExceptT.lift, StateT.get, pure, StateT.pure, ExceptT.pure,
      Except.bind, Except.pure, Functor.map, StateT.map, Except.map, hl]

theorem astFromExpression_pieces (n : Nat) (s : Str) : Parser.astFromExpression n s = (do
    let ts ← reading (fun v => toksOf (Parser.conceptKind v n) (pieces s))
    let t ← ofR (nest (ts.map unlex))
    let ts ← Parser.syntaxList n t
    Parser.astFromList n ts.length ts) := by
  simp only [← lex_pieces]
  rw [← reading_map (fun v => lex (Parser.conceptKind v n) s) toks]
  unfold Parser.astFromExpression
  congr 1
  funext ls
  rw [nest_toks ls]

end Zia

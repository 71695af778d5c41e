import Verif.Basic

/-!
# Lexing

Models /repo/zia/src/lexer.rs and `Context::lex` (/repo/zia/src/context.rs 135-205).
-/

namespace Zia

/-- `lexer.rs` 21-32 `enum ConceptKind`. -/
inductive Kind
  | concrete (id : CId) (ct : CCT)
  | abst (id : CId)
  | new
  | variable
  deriving DecidableEq, Repr

/-- `lexer.rs` 9-19 `enum Category`. -/
inductive Category
  | concept (k : Kind)
  | whitespace
  | opening (closing : Option Nat)
  | closing (opening : Option Nat)
  deriving DecidableEq, Repr

/-- `lexer.rs` 3-7 `struct Lexeme`. -/
structure Lexeme where
  text : Str
  category : Category
  deriving DecidableEq, Repr

/-- Local variables of `Context::lex`, `context.rs` 136-137.
`rev` is the vector `lexemes` in reverse, so that `lexemes.last_mut()` is the head; `stack` is the
vector `opening_parentheses_positions` with the top of the stack first. -/
structure LexState where
  rev : List Lexeme
  stack : List Nat
  deriving DecidableEq, Repr

/-- `context.rs` 153-158: record the closing position on an opening parenthesis. -/
def Lexeme.setClosing (cp : Nat) (l : Lexeme) : Lexeme :=
  match l.category with
  | .opening _ => { l with category := .opening (some cp) }
  | _ => l

/-- `context.rs` 138-203: one iteration of the loop over the characters.
`kind` is `concept_kind_from_symbol` (265-286); it reads the context and can itself fault. -/
def lexStep (kind : Str → Except Fault Kind) (st : LexState) (c : Char) :
    Except Fault LexState :=
  if c = '(' then
    .ok { rev := ⟨['('], .opening none⟩ :: st.rev, stack := st.rev.length :: st.stack }
  else if c = ')' then
    match st.stack with
    | [] => .ok { rev := ⟨[')'], .closing none⟩ :: st.rev, stack := [] }
    | op :: rest =>
      let cp := st.rev.length
      .ok { rev := ⟨[')'], .closing (some op)⟩ ::
              st.rev.modify (st.rev.length - 1 - op) (Lexeme.setClosing cp)
            stack := rest }
  else if isWs c then
    match st.rev with
    | ⟨text, .whitespace⟩ :: rest =>
      .ok { st with rev := ⟨text ++ [c], .whitespace⟩ :: rest }
    | _ => .ok { st with rev := ⟨[c], .whitespace⟩ :: st.rev }
  else
    match st.rev with
    | ⟨text, .concept _⟩ :: rest => do
      let k ← kind (text ++ [c])
      .ok { st with rev := ⟨text ++ [c], .concept k⟩ :: rest }
    | _ => do
      let k ← kind [c]
      .ok { st with rev := ⟨[c], .concept k⟩ :: st.rev }

/-- The loop of `Context::lex`, `context.rs` 138. -/
def lexLoop (kind : Str → Except Fault Kind) : LexState → Str → Except Fault LexState
  | st, [] => .ok st
  | st, c :: cs => do lexLoop kind (← lexStep kind st c) cs

/-- `Context::lex`, `context.rs` 135-205. -/
def lex (kind : Str → Except Fault Kind) (command : Str) : Except Fault (List Lexeme) := do
  let st ← lexLoop kind ⟨[], []⟩ command
  .ok st.rev.reverse

end Zia

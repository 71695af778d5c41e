import Verif.Context

/-!
# The same session in other words

What it means to rename the words a user has chosen, in texts and in everything the program keeps.
A word is a run of characters between separators: whitespace, parentheses, quotes and underscores. So
renaming keeps the shape of a text: where its symbols begin and end, its parentheses, and which of its
symbols are variables.
-/

namespace Zia.Spec

open Zia

/-- The characters between words. -/
def isSep (c : Char) : Bool :=
  isWs c || c == '(' || c == ')' || c == '_' || c == '"' || c == '\''

/-- A word: at least one character, and no separator. -/
def IsWord (s : Str) : Prop := s ≠ [] ∧ s.all (fun c => !isSep c) = true

instance (s : Str) : Decidable (IsWord s) := inferInstanceAs (Decidable (_ ∧ _))

/-- The words of a text; `acc` is the word being read. -/
def wordsFrom (acc : Str) : Str → List Str
  | [] => if acc = [] then [] else [acc]
  | c :: cs =>
    if isSep c then (if acc = [] then [] else [acc]) ++ wordsFrom [] cs
    else wordsFrom (acc ++ [c]) cs

/-- The words of a text. -/
def wordsOf (s : Str) : List Str := wordsFrom [] s

/-- The words the program itself writes into the names of unnamed concepts: `constant`,
`CommittedConceptId: 5v1`, and so on. -/
def Reserved (s : Str) : Prop :=
  s ∈ [str% "constant", str% "quantifier", str% "variable", str% "label", str% "of"] ∨
    ∃ c : CId, s ∈ wordsOf c.display

/-- A renaming of words: one to one, keeping the reserved words. -/
structure Words where
  to : Str → Str
  back : Str → Str
  word : ∀ s, IsWord s → IsWord (to s)
  word' : ∀ s, IsWord s → IsWord (back s)
  back_to : ∀ s, IsWord s → back (to s) = s
  to_back : ∀ s, IsWord s → to (back s) = s
  keeps : ∀ s, Reserved s → to s = s

/-- Rename the words of a text; `acc` is the word being read. -/
def renFrom (f : Str → Str) (acc : Str) : Str → Str
  | [] => if acc = [] then [] else f acc
  | c :: cs =>
    if isSep c then (if acc = [] then [] else f acc) ++ c :: renFrom f [] cs
    else renFrom f (acc ++ [c]) cs

/-- What can be renamed. -/
class Ren (α : Type) where
  ren : Words → α → α

export Ren (ren)

/-- Texts, word by word. -/
instance : Ren Str := ⟨fun w => renFrom w.to []⟩

instance : Ren CId := ⟨fun _ x => x⟩
instance : Ren Nat := ⟨fun _ x => x⟩
instance : Ren Bool := ⟨fun _ x => x⟩
instance : Ren Unit := ⟨fun _ x => x⟩
instance : Ren CCT := ⟨fun _ x => x⟩
instance : Ren Assoc := ⟨fun _ x => x⟩
instance : Ren Cmp := ⟨fun _ x => x⟩
instance : Ren Kind := ⟨fun _ x => x⟩
instance : Ren Parser.Rank := ⟨fun _ x => x⟩

instance {α : Type} [Ren α] : Ren (Option α) := ⟨fun w => Option.map (ren w)⟩
instance {α β : Type} [Ren α] [Ren β] : Ren (α × β) := ⟨fun w p => (ren w p.1, ren w p.2)⟩
instance (priority := low) {α : Type} [Ren α] : Ren (List α) := ⟨fun w => List.map (ren w)⟩

instance : Ren Key := ⟨fun w k => ⟨ren w k.syn, k.concept⟩⟩

/-- Syntax trees. -/
def renSyn (w : Words) : Syn → Syn
  | .leaf s c l => .leaf (ren w s) c l
  | .branch s c l r f b => .branch (ren w s) c (renSyn w l) (renSyn w r) (ren w f) (ren w b)

instance : Ren Syn := ⟨renSyn⟩
instance : Ren ExSubst := ⟨fun w x => ⟨ren w x.gen, ren w x.exam⟩⟩

/-- Lists of masks. -/
def renMasks (w : Words) : MaskList → MaskList
  | .one h => .one (ren w h)
  | .cons h t => .cons (ren w h) (renMasks w t)

instance : Ren MaskList := ⟨renMasks⟩

/-- The parts of a concept that hold text. -/
instance {Id : Type} : Ren (Specific Id) := ⟨fun w x => match x with
  | .str s => .str (ren w s)
  | x => x⟩

instance {Id : Type} : Ren (Concept Id) := ⟨fun w c => { c with spec := ren w c.spec }⟩

/-- New concepts. -/
instance {Id : Type} : Ren (NewDelta Id) := ⟨fun w x => match x with
  | .str s => .str (ren w s)
  | x => x⟩

instance {Id : Type} : Ren (Direct Id) := ⟨fun w x => match x with
  | .new d => .new (ren w d)
  | x => x⟩

instance : Ren (VChange CId) := ⟨fun _ x => x⟩

instance : Ren CDelta := ⟨fun w x => match x with
  | .direct d => .direct (ren w d)
  | .indirect d => .indirect d⟩

instance : Ren Delta := ⟨fun w d =>
  { string := ren w d.string, num := d.num, order := ren w d.order, concept := ren w d.concept }⟩

/-- Nested change sets. -/
def renNested (w : Words) : Nested → Nested
  | .base o => .base (ren w o)
  | .over i o => .over (renNested w i) (ren w o)

instance : Ren Nested := ⟨renNested⟩

instance : Ren Snap := ⟨fun w s =>
  { s with stringMap := ren w s.stringMap, concepts := ren w s.concepts }⟩

instance : Ren Mixed := ⟨fun w x => match x with
  | .prev c l r f u red => .prev (ren w c) l r f u red
  | .unc c => .unc (ren w c)⟩

instance : Ren View := ⟨fun w v => ⟨ren w v.snap, ren w v.delta⟩⟩

mutual

/-- Reasons. -/
def renReason (w : Words) : Reason → Reason
  | .comparison c => .comparison (renCmp w c)
  | .explicit => .explicit
  | .rule g m r => .rule (ren w g) (ren w m) (renReason w r)
  | .inference i r => .inference (ren w i) (renReason w r)
  | .partly p => .partly (renParts w p)
  | .existence s g => .existence (ren w s) (ren w g)
  | .recursive s r f => .recursive (ren w s) (renReason w r) (renReason w f)
  | .cannotReduceToItself => .cannotReduceToItself
  | .leftToRight r a b => .leftToRight (renReason w r) (ren w a) (ren w b)
  | .rightToLeft r a b => .rightToLeft (renReason w r) (ren w a) (ren w b)

/-- Reasons of comparisons. -/
def renCmp (w : Words) : CmpReason → CmpReason
  | .sameSyntax => .sameSyntax
  | .reduction a b => .reduction (renO w a) (renO w b)
  | .noGreaterThan => .noGreaterThan

/-- Reasons that may be missing. -/
def renO (w : Words) : OReason → OReason
  | .none => .none
  | .some r => .some (renReason w r)

/-- The reasons of the parts. -/
def renParts (w : Words) : Parts → Parts
  | .nil => .nil
  | .cons k s r rest => .cons (ren w k) (ren w s) (renReason w r) (renParts w rest)

end

instance : Ren Reason := ⟨renReason⟩
instance : Ren CmpReason := ⟨renCmp⟩
instance : Ren OReason := ⟨renO⟩
instance : Ren Parts := ⟨renParts⟩
instance : Ren Frame := ⟨fun w f => ⟨ren w f.red, ren w f.syn⟩⟩
instance : Ren Cache := ⟨fun w c => ⟨ren w c.frames, ren w c.infs⟩⟩
instance : Ren Env := ⟨fun w e => ⟨ren w e.view, ren w e.mask, ren w e.evaluating, e.inferring, ren w e.bound⟩⟩

/-- Everything a session keeps. -/
instance : Ren Ctx := ⟨fun w c =>
  ⟨ren w c.snap, ren w c.delta, ren w c.cache, ren w c.vars, ren w c.bound, c.pinned⟩⟩

/-- Errors, with the texts they quote. -/
instance : Ren ZiaError := ⟨fun w x => match x with
  | .redundantReduction s => .redundantReduction (ren w s)
  | .missingSymbol s => .missingSymbol (ren w s)
  | .lowestPrecedenceNotFound ts => .lowestPrecedenceNotFound (ren w ts)
  | .differentAssociativity t a b => .differentAssociativity (ren w t) a b
  | .existingReduction a b => .existingReduction (ren w a) (ren w b)
  | e => e⟩

instance {α : Type} [Ren α] : Ren (Except ZiaError α) := ⟨fun w x => match x with
  | .ok a => .ok (ren w a)
  | .error e => .error (ren w e)⟩

instance : Ren Lexeme := ⟨fun w l => ⟨ren w l.text, l.category⟩⟩

mutual

/-- Grouped commands. -/
def renNST (w : Words) : NST → NST
  | .leaf l s c => .leaf l (ren w s) c
  | .parent cs s c => .parent (renNSTs w cs) (ren w s) c

/-- Lists of grouped commands. -/
def renNSTs (w : Words) : List NST → List NST
  | [] => []
  | t :: ts => renNST w t :: renNSTs w ts

end

instance : Ren NST := ⟨renNST⟩

/-- The order in which a hash table is visited depends on its keys only. -/
def ByKeys [HashOrder] : Prop :=
  ∀ {α β : Type} (f : β → β) (l : List (α × β)),
    HashOrder.order (l.map (fun p => (p.1, f p.2))) = (HashOrder.order l).map (fun p => (p.1, f p.2))

/-- Looking a symbol up never faults. -/
def Clear [HashOrder] (n : Nat) (c : Ctx) : Prop :=
  ∀ s, ∃ k, Parser.conceptKind ⟨c.snap, c.delta⟩ n s = .ok k

/-- What a command is answered with before the message of an error is written out, and the context it
leaves. -/
def respond [HashOrder] (n : Nat) (c : Ctx) (s : Str) : Except Fault (Except ZiaError Str × Ctx) := do
  let (r, c) ← Context.command n s c
  let c ← Context.commit c
  return (r, { c with vars := [], bound := [] })

/-- The text shown for an outcome. -/
def shown : Except ZiaError Str → Str
  | .ok s => s
  | .error e => e.message

/-- The outcomes of a list of commands, one after the other, and the context they leave. -/
def outcomes [HashOrder] (n : Nat) (c : Ctx) : List Str → Except Fault (List (Except ZiaError Str) × Ctx)
  | [] => .ok ([], c)
  | s :: ss => do
    let (r, c) ← respond n c s
    let (rs, c) ← outcomes n c ss
    return (r :: rs, c)

/-- Looking a symbol up never faults, before each of some commands. -/
def ClearAll [HashOrder] (n : Nat) (c : Ctx) : List Str → Prop
  | [] => True
  | s :: ss => Clear n c ∧ ∀ r c', respond n c s = .ok (r, c') → ClearAll n c' ss

/-- The words of the program itself: of the built-in symbols, of the commands that set up a new
context, and of the names of unnamed concepts, but for those that begin with a digit. -/
def programWords : List Str :=
  [str% ":=", str% "->", str% "let", str% "true", str% "false", str% "assoc", str% "right", str% "left",
   str% ">", str% "=>", str% "exists", str% "such", str% "that", str% "precedes", str% "forget",
   str% "label", str% "of", str% "and", str% "x", str% "y", str% "z",
   str% "constant", str% "quantifier", str% "variable",
   str% "CommittedConceptId:", str% "UncommittedConceptId:"]

/-- A word a user can choose as a name. -/
def Name (s : Str) : Prop := IsWord s ∧ s ∉ programWords ∧ ∀ c, s.head? = some c → c.isDigit = false

end Zia.Spec

import Verif.Basic

/-!
# The symbols and brackets of a text
-/

namespace Zia.Spec

/-- The symbols and brackets of a text, where `word` was written just before. Spaces only separate. -/
def piecesAfter (word : Str) : Str → List Str
  | [] => if word = [] then [] else [word]
  | c :: rest =>
    if c = '(' ∨ c = ')' then (if word = [] then [] else [word]) ++ [c] :: piecesAfter [] rest
    else if isWs c then (if word = [] then [] else [word]) ++ piecesAfter [] rest
    else piecesAfter (word ++ [c]) rest

/-- The symbols and brackets of a text, in order. -/
def pieces (text : Str) : List Str := piecesAfter [] text

end Zia.Spec

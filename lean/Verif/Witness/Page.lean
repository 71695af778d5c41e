import Verif.Boot
import Verif.Literal
import Verif.Tutorials

/-!
# States in which a command is answered with nothing, again and again
-/

namespace Zia.Witness

open Insertion

set_option maxRecDepth 100000

states silent 60 "let a -> b", "forget a"

theorem silent1_eq : Context.execute 60 boot (str% "let a -> b") = .ok ([], silent1) := by
  decide +kernel

theorem silent2_eq : Context.execute 60 silent1 (str% "forget a") = .ok ([], silent2) := by
  decide +kernel

theorem silent3_eq : Context.execute 60 silent2 (str% "let a -> b") = .ok ([], silent1) := by
  decide +kernel

states echo 60 "let a -> b", "a", "a"

theorem echo1_eq : Context.execute 60 boot (str% "let a -> b") = .ok ([], echo1) := by
  decide +kernel

theorem echo2_eq : Context.execute 60 echo1 (str% "a") = .ok (str% "b", echo2) := by
  decide +kernel

theorem echo3_eq : Context.execute 60 echo2 (str% "a") = .ok (str% "b", echo3) := by
  decide +kernel

/-- A tutorial of three steps, the last two of which are answered with something. -/
def steps : List TutorialStep :=
  [⟨str% "let a -> b", str% "Define a", []⟩, ⟨str% "a", str% "Ask for it", str% "b"⟩,
   ⟨str% "a", str% "Ask again", str% "b"⟩]

end Zia.Witness

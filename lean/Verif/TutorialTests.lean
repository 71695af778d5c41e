import Verif.Conformance
import Verif.Tutorials

/-!
# The model against the tests of the tutorials

Not proofs: the tests of /repo/zia-lang.org/crate/src/page/home/tutorials.rs 296-324 are run on the model
when this file is built, to check that the model is faithful to the code: each command of a tutorial
gets the answer its author expects.
-/

namespace Zia.Conformance

open Insertion

/-- Whether a tutorial gives the expected answers in a context. -/
def follows (n : Nat) (c : Ctx) : List TutorialStep → Bool
  | [] => true
  | s :: rest =>
    match Context.execute n c s.command with
    | .error _ => false
    | .ok (r, c) => r = s.expected && follows n c rest

#guard match Context.new 60 with
  | .ok c => follows 60 c Tutorials.factorial.steps && follows 60 c Tutorials.arrays.steps
  | .error _ => false

/-! The last three steps pass too, but take minutes. -/

#guard match Context.new 200 with
  | .ok c => follows 200 c (Tutorials.relationships.steps.take 7)
  | .error _ => false

end Zia.Conformance

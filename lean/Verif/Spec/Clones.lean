import Verif.Spec.Session
import Verif.World

/-!
# Specifications about clones that are used together
-/

namespace Zia.Spec

/-- The context number `i` executes the command `u` and answers with `r` (see `World.Step`). -/
inductive Says [HashOrder] (n i : Nat) (u r : Str) : World → World → Prop
  | query {w : World} {k : Nat} {c c0 c1 c' : Ctx} {x : Except ZiaError Str}
      (hi : w.sessions[i]? = some (c0, k)) (hc : w.context? i = some c) (h : Context.execute n c u = .ok (r, c'))
      (hd : Context.command n u c = .ok (x, c1)) (he : c1.delta = c.delta) :
      Says n i u r w ⟨w.sessions.set i (c', k), w.cells.set k c'.cache⟩
  | change {w : World} {k : Nat} {c c0 c1 c' : Ctx} {x : Except ZiaError Str} (old : Cache)
      (hi : w.sessions[i]? = some (c0, k)) (hc : w.context? i = some c) (h : Context.execute n c u = .ok (r, c'))
      (hd : Context.command n u c = .ok (x, c1)) (he : c1.delta ≠ c.delta) :
      Says n i u r w ⟨w.sessions.set i (c', w.cells.length), w.cells.set k old ++ [c'.cache]⟩

/-- Contexts are cloned and answer commands about words, in any order: every command with its answer. -/
inductive Chat [HashOrder] (n : Nat) : World → List (Say × Str) → World → Prop
  | nil (w : World) : Chat n w [] w
  | clone {w w' : World} {l : List (Say × Str)} (i : Nat) (rest : Chat n (w.clone i) l w') : Chat n w l w'
  | say {w w' w'' : World} {i : Nat} {s : Say} {u r : Str} {l : List (Say × Str)} (hu : s.Written u)
      (h : Says n i u r w w') (rest : Chat n w' l w'') : Chat n w ((s, r) :: l) w''

end Zia.Spec

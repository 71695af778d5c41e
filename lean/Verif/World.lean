import Verif.Context

/-!
# Several contexts

Models the sharing between a context and its clones (`context.rs` 86-115 `impl Clone for Context`): a clone
has a copy of the store and an empty change set of its own, but its cache is the same as that of the
original (`context_cache/macro.rs` 14-20: the parts of a cache are behind shared pointers). A change to a
context gives that context a new cache (33-36 `invalidate`), so that it stops sharing.
-/

namespace Zia

/-- The contexts of a program, each with the number of its cache, and the contents of the caches. The
field `cache` of the contexts is not used. -/
structure World where
  sessions : List (Ctx × Nat)
  cells : List Cache

namespace World

/-- The context number `i` with its cache. -/
def context? (w : World) (i : Nat) : Option Ctx :=
  match w.sessions[i]? with
  | none => none
  | some (c, k) => (w.cells[k]?).map (fun ca => { c with cache := ca })

/-- One context. -/
def single (c : Ctx) : World := ⟨[(c, 0)], [c.cache]⟩

/-- `context.rs` 86-115 `clone` of context number `i`. -/
def clone (w : World) (i : Nat) : World :=
  match w.sessions[i]? with
  | none => w
  | some (c, k) => { w with sessions := w.sessions ++ [({ c with delta := Nested.default }, k)] }

/-- One step of a program: the context number `i` is cloned, or executes a command. A command that
changes nothing writes to the cache it shares (`query`). A command that makes a change continues with a new
cache (`change`); what it wrote to the old one before that is left open. -/
inductive Step : Nat → World → World → Prop
  | clone (w : World) (i : Nat) : Step i w (w.clone i)
  | query [HashOrder] {w : World} {i k n : Nat} {s r : Str} {c c0 c1 c' : Ctx} {x : Except ZiaError Str}
      (hi : w.sessions[i]? = some (c0, k)) (hc : w.context? i = some c)
      (h : Context.execute n c s = .ok (r, c'))
      (hd : Context.command n s c = .ok (x, c1)) (he : c1.delta = c.delta) :
      Step i w ⟨w.sessions.set i (c', k), w.cells.set k c'.cache⟩
  | change [HashOrder] {w : World} {i k n : Nat} {s r : Str} {c c0 c1 c' : Ctx} {x : Except ZiaError Str}
      (old : Cache)
      (hi : w.sessions[i]? = some (c0, k)) (hc : w.context? i = some c)
      (h : Context.execute n c s = .ok (r, c'))
      (hd : Context.command n s c = .ok (x, c1)) (he : c1.delta ≠ c.delta) :
      Step i w ⟨w.sessions.set i (c', w.cells.length), w.cells.set k old ++ [c'.cache]⟩

/-- Steps of contexts other than number `j`, except that it may be cloned. -/
inductive Others (j : Nat) : World → World → Prop
  | refl (w : World) : Others j w w
  | clone {w w' : World} (h : Others j w w') : Others j w (w'.clone j)
  | step {w w' w'' : World} {i : Nat} (h : Others j w w') (hij : i ≠ j) (hs : Step i w' w'') :
      Others j w w''

/-- The worlds of a program that starts with one context. -/
inductive From (c : Ctx) : World → Prop
  | start : From c (single c)
  | step {w w' : World} {i : Nat} (h : From c w) (hs : Step i w w') : From c w'

end World

end Zia

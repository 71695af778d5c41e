import Verif.Context

/-!
# Histories of commands

The contexts a user can come to hold, by the functions of the public interface.
-/

namespace Zia.Spec

/-- The contexts reached from the labelled store by commands each of whose changes satisfies `Q`, which
may depend on the store with the earlier changes of the same command applied. A command runs with any fuel that lets it end. Clones of a context share one cache (`context.rs` 44-63:
the cache is behind a shared pointer), so that between two commands the cache may become anything
(`shared`); histories with a cache that other clones never touch are the special case without it. -/
inductive History (Q : Snap → CId × Direct CId → Prop) : Ctx → Prop
  | start {c : Ctx} (h : Context.labelled = .ok c) : History Q c
  | step [HashOrder] {c c' : Ctx} {n : Nat} {s r : Str} (hc : History Q c)
      (h : Context.execute n c s = .ok (r, c'))
      (hQ : ∀ x c1, Context.command n s c = .ok (x, c1) → ∀ g p rest before,
        c1.delta.order = before ++ p :: rest → c.snap.applyAll before = .ok g → Q g p) : History Q c'
  | shared {c : Ctx} (ca : Cache) (hc : History Q c) : History Q { c with cache := ca }

/-- The contexts reached by any commands. A new context has run its six set-up commands. -/
abbrev Reachable : Ctx → Prop := History (fun _ _ => True)

/-- The contexts reached by any commands when the cache is only ever used by commands: it is that of the
context itself or of another context reached (`shared`: clones of a context share one cache). -/
inductive Lived : Ctx → Prop
  | start {c : Ctx} (h : Context.labelled = .ok c) : Lived c
  | step [HashOrder] {c c' : Ctx} {n : Nat} {s r : Str} (hc : Lived c)
      (h : Context.execute n c s = .ok (r, c')) : Lived c'
  | shared {c d : Ctx} (hc : Lived c) (hd : Lived d) : Lived { c with cache := d.cache }

end Zia.Spec

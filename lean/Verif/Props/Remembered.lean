import Verif.Lemmas.Asserted
import Verif.Lemmas.Remembered
import Verif.Lemmas.Speech
import Verif.Spec.Accepted
import Verif.Witness.Learn

/-!
# C61: what is remembered for the built-in concepts
-/

namespace Zia.Props

open Zia Zia.Spec CM

/-- C61: whatever commands a context and its clones have run, the tree that the shared cache holds for a built-in
concept, if there is one, is of that concept. -/
theorem builtin_remembered {c : Ctx} (h : Lived c) (k : CCT) : Remembers c.cache k :=
  fun _ ht => h.cacheOk.remembers ht

/-- C61: hence the tree that a command starts from when it needs a built-in concept, such as `true` for an
assertion, is of that concept, however the cache came to be. -/
theorem builtin_tree [HashOrder] {n : Nat} {c : Ctx} {k : CCT} {o : Option Syn} {ca : Cache} (h : Lived c)
    (hk : (search n).concreteAst (env c) k c.cache = .ok (o, ca)) :
    ∃ t, o = some t ∧ t.concept = some (.com (builtin k)) := by
  have hd := (History.settled h.reachable).delta
  have hid : (View.mk c.snap c.delta).concreteId k = .ok (some (.com (builtin k))) := by
    rw [hd]
    unfold View.concreteId
    rw [show Nested.default.iterConcepts = [] from rfl, HashOrder.order_nil]
    show Except.ok ((byRight c.snap.concrete k).map CId.com) = _
    rw [(History.concrete h.reachable).1]
    cases k <;> rfl
  have hv : ViewOk ⟨c.snap, c.delta⟩ := (Reachable.snapOk h.reachable).view (hd ▸ .default)
  exact concreteAst_tree hid (fun m hm => ⟨hv.leaf _ _ hm, hv.ids _ _ hm⟩) (builtin_remembered h k) hk

section

open Insertion

/-- A new context whose clone has been taught `let (a (-> b))` and `let (b (-> c))` and has left its cache behind. -/
noncomputable def besideClone : Ctx := { boot with cache := Witness.taught2.cache }

theorem besideClone_lived : Lived besideClone :=
  .shared boot_lived ((boot_lived.step Witness.taught1_eq).step Witness.taught2_eq)

/-- The hypotheses of `builtin_tree` are met in a context with a clone. -/
example : ∃ o ca, Lived besideClone ∧ (search 30).concreteAst (env besideClone) .tru besideClone.cache = .ok (o, ca) := by
  have h : (match (search 30).concreteAst (env besideClone) .tru besideClone.cache with
    | .ok _ => true
    | .error _ => false) = true := by decide +kernel
  split at h
  · rename_i p hp; exact ⟨p.1, p.2, besideClone_lived, hp⟩
  · cases h

end

end Zia.Props

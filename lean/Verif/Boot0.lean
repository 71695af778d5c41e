import Verif.Literal

/-!
# The labelled store, computed

The state before the set-up commands of a new context, as a literal checked by the kernel. It is the
start of the histories.
-/

namespace Zia

set_option maxRecDepth 100000

/-- The context after `label_concrete_concepts`, before the commit. -/
def pending : Ctx := labelling%

/-- The context after `label_concrete_concepts` and the commit. -/
def boot0 : Ctx := labelled% 60

theorem pending_eq : Context.labelConcrete.run Context.blank = .ok (.ok (), pending) := by
  decide +kernel

theorem commit_pending : Context.commit pending = .ok boot0 := by decide +kernel

theorem labelled_of {c c' : Ctx} {r : Except ZiaError Unit}
    (h : Context.labelConcrete.run Context.blank = .ok (r, c)) (h' : Context.commit c = .ok c') :
    Context.labelled = .ok c' := by
  unfold Context.labelled
  rw [h]
  exact h'

theorem boot0_eq : Context.labelled = .ok boot0 := labelled_of pending_eq commit_pending

end Zia

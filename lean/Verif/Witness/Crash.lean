import Verif.Boot

/-!
# Commands that crash a new context
-/

namespace Zia.Witness

open Insertion

set_option maxRecDepth 100000

/-- Two equal symbols side by side. -/
theorem crash_pair : Context.execute 60 boot (str% "let b b -> c") = .error (.panic .notDisjoint) := by
  decide +kernel

/-- A built-in symbol gets a reduction. -/
theorem crash_let : Context.execute 60 boot (str% "let let") = .error (.panic .reduceConcrete) := by
  decide +kernel

/-- The change of that command. -/
theorem let_command : ((Context.command 60 (str% "let let") boot).toOption.map
    (fun p => p.2.delta.order)) = some [(.com 11, .reduce (.com 11) (.create (.com 14)))] := by
  decide +kernel

/-- An unknown symbol. -/
theorem foo_command : ((Context.command 60 (str% "foo") boot).toOption.map
    (fun p => (p.1.toOption, p.2.delta.order))) = some (some (str% "foo"),
      [(.unc 0, .new (.str (str% "foo"))), (.unc 1, .new (.reducesTo (.unc 0))),
       (.unc 2, .new (.right (.unc 1) (.com 2) none))]) := by
  decide +kernel

/-- A command that is rejected. -/
theorem refused_command : (Context.command 60 (str% "let a := b") boot).toOption.map
    (fun p => decide (p.1 = .error .redundantRefactor)) = some true := by
  decide +kernel

theorem refused_execute : (Context.execute 60 boot (str% "let a := b")).toOption.map
    (fun p => (p.1, decide (p.2.snap = boot.snap))) = some (ZiaError.redundantRefactor.message, false) := by
  decide +kernel

end Zia.Witness

import Verif.Boot

/-!
# Concrete histories about reductions
-/

namespace Zia.Witness

open Insertion

set_option maxRecDepth 100000

/-! A cycle of reductions. -/

states cyc 60 "let foo -> _x_", "let r -> foo", "let foo -> r"

theorem cyc1_eq : Context.execute 60 boot (str% "let foo -> _x_") = .ok ([], cyc1) := by
  decide +kernel

theorem cyc2_eq : Context.execute 60 cyc1 (str% "let r -> foo") = .ok ([], cyc2) := by
  decide +kernel

theorem cyc3_eq : Context.execute 60 cyc2 (str% "let foo -> r") = .ok ([], cyc3) := by
  decide +kernel

/-! A reduction that is replaced. -/

states stale 60 "let foo -> _x_", "let foo -> r"

theorem stale2_eq : Context.execute 60 cyc1 (str% "let foo -> r") = .ok ([], stale2) := by
  decide +kernel

end Zia.Witness

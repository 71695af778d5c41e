import Verif.Witness.Learn

/-!
# A reduction that is forgotten
-/

namespace Zia.Witness

open Insertion Spec

set_option maxRecDepth 100000

states forgot 60 "let (a (-> b))", "forget a", "forget a"

theorem forgot2_eq : Context.execute 60 taught1 (str% "forget a") = .ok ([], forgot2) := by
  decide +kernel

theorem forgot3_eq : Context.execute 60 forgot2 (str% "forget a") =
    .ok (str% "That reduction rule for a already exists.", forgot3) := by
  decide +kernel

end Zia.Witness

import Verif.Boot
import Verif.Lemmas.Check

/-!
# An answer that means something else when it is typed
-/

namespace Zia.Witness

open Spec Insertion

set_option maxRecDepth 100000

states printed 60 "let (a b c) -> one"

theorem printed1_eq : Context.execute 60 boot (str% "let (a b c) -> one") = .ok ([], printed1) := by
  decide +kernel

theorem printed1_reachable : Reachable printed1 :=
  Reachable.next (History.reachable boot_calm) printed1_eq

theorem printed_answer : (Context.execute 60 printed1 (str% "x ((a b) c)")).toOption.map Prod.fst =
    some (str% "x a b c") := by
  decide +kernel

theorem printed_typed : (Context.execute 60 printed1 (str% "x a b c")).toOption.map Prod.fst =
    some (str% "x one") := by
  decide +kernel

end Zia.Witness

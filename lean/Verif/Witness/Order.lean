import Verif.Boot
import Verif.Lemmas.Check

/-!
# Two orders of visiting hash tables
-/

namespace Zia.Witness

open Spec Insertion

set_option maxRecDepth 100000

/-- The opposite of the order of insertion. -/
@[reducible] def reversed : HashOrder := ⟨fun l => l.reverse, fun l => l.reverse_perm⟩

states rules 60 "let (p _x_) -> a", "let (_x_ q) -> b"

theorem rules1_eq : Context.execute 60 boot (str% "let (p _x_) -> a") = .ok ([], rules1) := by
  decide +kernel

theorem rules2_eq : Context.execute 60 rules1 (str% "let (_x_ q) -> b") = .ok ([], rules2) := by
  decide +kernel

theorem rules2_reachable : Reachable rules2 :=
  Reachable.next (Reachable.next (History.reachable boot_calm) rules1_eq) rules2_eq

theorem first_rule : (Context.execute 60 rules2 (str% "p q")).toOption.map Prod.fst =
    some (str% "a") := by
  decide +kernel

theorem second_rule : (@Context.execute reversed 60 rules2 (str% "p q")).toOption.map Prod.fst =
    some (str% "b") := by
  decide +kernel

end Zia.Witness

import Verif.Boot
import Verif.Lemmas.Check

/-!
# Concepts with names
-/

namespace Zia.Witness

open Spec Insertion

set_option maxRecDepth 100000

states named 60 "let f -> (p q)", "let a b", "let (label_of (p q)) -> (label_of a)"

theorem named1_eq : Context.execute 60 boot (str% "let f -> (p q)") = .ok ([], named1) := by
  decide +kernel

theorem named2_eq : Context.execute 60 named1 (str% "let a b") = .ok ([], named2) := by
  decide +kernel

theorem named3_eq : Context.execute 60 named2 (str% "let (label_of (p q)) -> (label_of a)") =
    .ok ([], named3) := by
  decide +kernel

theorem named1_calm : History Calm named1 :=
  History.check (fun _ _ => of_calm) boot_calm named1_eq (by decide +kernel)

theorem named2_calm : History Calm named2 :=
  History.check (fun _ _ => of_calm) named1_calm named2_eq (by decide +kernel)

theorem named3_calm : History Calm named3 :=
  History.check (fun _ _ => of_calm) named2_calm named3_eq (by decide +kernel)

/-- The symbol `a`. -/
theorem named2_lookup : (View.mk named2.snap named2.delta).conceptFromLabel 60 (str% "a") =
    .ok (some (.com 92)) := by
  decide +kernel

theorem named3_lookup : (View.mk named3.snap named3.delta).conceptFromLabel 60 (str% "a") =
    .ok (some (.com 92)) := by
  decide +kernel

/-- `p q` is stored as concept 89. -/
theorem named3_label : (View.mk named3.snap named3.delta).label 60 (.com 89) = .ok (some (str% "a")) := by
  decide +kernel

theorem named3_answer : (Context.execute 60 named3 (str% "p q")).toOption.map Prod.fst =
    some (str% "a") := by
  decide +kernel

theorem named2_relabel : (Updater.relabel 60 (.com 92) (str% "a") (str% "x") named2).toOption.map Prod.fst =
    some (.ok ()) := by
  decide +kernel

end Zia.Witness

import Verif.Boot
import Verif.Lemmas.Check

/-!
# Answers that depend on what was asked before
-/

namespace Zia.Witness

open Spec Insertion

set_option maxRecDepth 100000

/-! ## A query that changes the answer to another query -/

states mortal 60 "let (human a)", "let (dog b)", "let ((human _x_) => ((mortal _x_) -> true))", "mortal a"

theorem mortal1_eq : Context.execute 60 boot (str% "let (human a)") = .ok ([], mortal1) := by
  decide +kernel

theorem mortal2_eq : Context.execute 60 mortal1 (str% "let (dog b)") = .ok ([], mortal2) := by
  decide +kernel

theorem mortal3_eq : Context.execute 60 mortal2
    (str% "let ((human _x_) => ((mortal _x_) -> true))") = .ok ([], mortal3) := by
  decide +kernel

theorem mortal4_eq : Context.execute 60 mortal3 (str% "mortal a") = .ok (str% "true", mortal4) := by
  decide +kernel

theorem mortal3_reachable : Reachable mortal3 :=
  Reachable.next (Reachable.next (Reachable.next (History.reachable boot_calm) mortal1_eq) mortal2_eq)
    mortal3_eq

/-- The query stores nothing. -/
theorem mortal_snap : mortal4.snap = mortal3.snap := by decide +kernel

/-- It changes nothing but the cache. -/
theorem mortal_cache : mortal4 = { mortal3 with cache := mortal4.cache } := by decide +kernel

theorem mortal_query : (Context.command 60 (str% "mortal a") mortal3).toOption.map
    (fun p => decide (p.2.delta = mortal3.delta)) = some true := by
  decide +kernel

theorem asked_first : (Context.execute 60 mortal3 (str% "mortal b")).toOption.map Prod.fst =
    some (str% "mortal b") := by
  decide +kernel

theorem asked_second : (Context.execute 60 mortal4 (str% "mortal b")).toOption.map Prod.fst =
    some (str% "true") := by
  decide +kernel

/-! ## A query that crashes the second time -/

states kept 60 "let a -> b", "a foo"

theorem kept1_eq : Context.execute 60 boot (str% "let a -> b") = .ok ([], kept1) := by
  decide +kernel

theorem kept2_eq : Context.execute 60 kept1 (str% "a foo") = .ok (str% "b foo", kept2) := by
  decide +kernel

theorem kept2_reachable : Reachable kept2 :=
  Reachable.next (Reachable.next (History.reachable boot_calm) kept1_eq) kept2_eq

theorem kept_crash : Context.execute 60 kept2 (str% "a foo") = .error (.panic .noConcept) := by
  decide +kernel

theorem kept_fine : (Context.execute 60 { kept2 with cache := .empty } (str% "a foo")).toOption.map Prod.fst
    = some (str% "b foo") := by
  decide +kernel

end Zia.Witness

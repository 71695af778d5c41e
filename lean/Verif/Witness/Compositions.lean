import Verif.Boot

/-!
# Concrete histories about compositions
-/

namespace Zia.Witness

open Insertion

set_option maxRecDepth 100000

states comp 60 "let (set (-> let))", "let z -> k", "let y2 -> g", "let k := g y",
  "let d := g k", "set (z := e f)", "let g := x k", "set (y2 := p q)", "let u := g k"

theorem comp1_eq : Context.execute 60 boot (str% "let (set (-> let))") = .ok ([], comp1) := by
  decide +kernel

theorem comp2_eq : Context.execute 60 comp1 (str% "let z -> k") = .ok ([], comp2) := by
  decide +kernel

theorem comp3_eq : Context.execute 60 comp2 (str% "let y2 -> g") = .ok ([], comp3) := by
  decide +kernel

theorem comp4_eq : Context.execute 60 comp3 (str% "let k := g y") = .ok ([], comp4) := by
  decide +kernel

theorem comp5_eq : Context.execute 60 comp4 (str% "let d := g k") = .ok ([], comp5) := by
  decide +kernel

theorem comp6_eq : Context.execute 60 comp5 (str% "set (z := e f)") = .ok ([], comp6) := by
  decide +kernel

theorem comp7_eq : Context.execute 60 comp6 (str% "let g := x k") = .ok ([], comp7) := by
  decide +kernel

theorem comp8_eq : Context.execute 60 comp7 (str% "set (y2 := p q)") = .ok ([], comp8) := by
  decide +kernel

theorem comp9_eq : Context.execute 60 comp8 (str% "let u := g k") = .ok ([], comp9) := by
  decide +kernel

end Zia.Witness

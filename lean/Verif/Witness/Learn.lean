import Verif.Lemmas.Check
import Verif.Literal

/-!
# A session that teaches reductions
-/

namespace Zia.Witness

open Insertion Spec

set_option maxRecDepth 100000

states taught 60 "let (a (-> b))", "let (b (-> c))"

theorem taught1_eq : Context.execute 60 boot (str% "let (a (-> b))") = .ok ([], taught1) := by
  decide +kernel

theorem taught2_eq : Context.execute 60 taught1 (str% "let (b (-> c))") = .ok ([], taught2) := by
  decide +kernel

end Zia.Witness

import Verif.Boot

/-!
# A question about a reduction
-/

namespace Zia.Witness

open Insertion

set_option maxRecDepth 100000

states meet 60 "let (a (-> p))", "let (p (-> q))", "let (b (-> q))", "a -> b"

theorem meet1_eq : Context.execute 60 boot (str% "let (a (-> p))") = .ok ([], meet1) := by
  decide +kernel

theorem meet2_eq : Context.execute 60 meet1 (str% "let (p (-> q))") = .ok ([], meet2) := by
  decide +kernel

theorem meet3_eq : Context.execute 60 meet2 (str% "let (b (-> q))") = .ok ([], meet3) := by
  decide +kernel

theorem meet4_eq : Context.execute 60 meet3 (str% "a -> b") = .ok (str% "true", meet4) := by
  decide +kernel

end Zia.Witness

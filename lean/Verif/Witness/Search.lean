import Verif.Boot
import Verif.Witness.Parse

/-!
# Concrete reductions and comparisons
-/

namespace Zia.Witness

open Insertion

set_option maxRecDepth 100000

states chain 60 "let a -> b", "let b -> c"

theorem chain1_eq : Context.execute 60 boot (str% "let a -> b") = .ok ([], chain1) := by
  decide +kernel

theorem chain2_eq : Context.execute 60 chain1 (str% "let b -> c") = .ok ([], chain2) := by
  decide +kernel

/-- The symbols of `chain2`. -/
def tokA : Syn := tok (str% "a") (some (.com 82))
def tokB : Syn := tok (str% "b") (some (.com 85))
def tokC : Syn := tok (str% "c") (some (.com 88))

theorem chain_ends : ((search 60).recReduce (CM.env chain2) tokA none Cache.empty).toOption.map
    (fun p => p.1.1.key) = some tokC.key := by
  decide +kernel

theorem chain_true : ((search 60).reductionTruth (CM.env chain2) tokA tokC Cache.empty).toOption.map
    (fun p => p.1.map Prod.fst) = some (some true) := by
  decide +kernel

theorem chain_false : ((search 60).reductionTruth (CM.env chain2) tokC tokA Cache.empty).toOption.map
    (fun p => p.1.map Prod.fst) = some (some false) := by
  decide +kernel

states great 60 "let (b > a)"

theorem great1_eq : Context.execute 60 boot (str% "let (b > a)") = .ok ([], great1) := by
  decide +kernel

def bigB : Syn := tok (str% "b") (some (.com 82))
def smallA : Syn := tok (str% "a") (some (.com 85))

theorem small_less : ((search 60).compare (CM.env great1) smallA bigB Cache.empty).toOption.map
    (fun p => p.1.1) = some .lessThan := by
  decide +kernel

theorem big_greater : ((search 60).compare (CM.env great1) bigB smallA Cache.empty).toOption.map
    (fun p => p.1.1) = some .greaterThan := by
  decide +kernel

end Zia.Witness

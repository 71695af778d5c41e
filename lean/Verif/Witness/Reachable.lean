import Verif.Lemmas.Check
import Verif.Witness.Compositions
import Verif.Witness.Parse
import Verif.Witness.Reductions

/-!
# The concrete states are reachable
-/

namespace Zia.Witness

open Spec

open Insertion

theorem cyc3_reachable : Reachable cyc3 :=
  Reachable.next (Reachable.next (Reachable.next (History.reachable boot_calm) cyc1_eq) cyc2_eq) cyc3_eq

theorem stale2_reachable : Reachable stale2 :=
  Reachable.next (Reachable.next (History.reachable boot_calm) cyc1_eq) stale2_eq

theorem comp6_reachable : Reachable comp6 := by
  have h := History.reachable boot_calm
  have h := Reachable.next h comp1_eq
  have h := Reachable.next h comp2_eq
  have h := Reachable.next h comp3_eq
  have h := Reachable.next h comp4_eq
  have h := Reachable.next h comp5_eq
  exact Reachable.next h comp6_eq

theorem comp9_reachable : Reachable comp9 := by
  have h := Reachable.next comp6_reachable comp7_eq
  have h := Reachable.next h comp8_eq
  exact Reachable.next h comp9_eq

theorem plus2_reachable : Reachable plus2 :=
  Reachable.next (Reachable.next (History.reachable boot_calm) plus1_eq) plus2_eq

end Zia.Witness

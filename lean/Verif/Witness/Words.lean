import Verif.Boot
import Verif.Lemmas.WordsNew

/-!
# Sessions in particular words
-/

namespace Zia

open Spec

/-- Check that looking a symbol up never faults: only the texts in the table of strings matter. -/
theorem clear_of_check [HashOrder] {n : Nat} {c : Ctx} (hd : c.delta = Nested.default)
    (h : c.snap.stringMap.all (fun p => (Parser.conceptKind ⟨c.snap, c.delta⟩ n p.1).isOk) = true) : Clear n c := by
  intro s
  cases hs : c.snap.stringMap.get? s with
  | some i =>
    have hm : (s, i) ∈ c.snap.stringMap := AMap.mem_of_get? _ _ _ hs
    have := List.all_eq_true.1 h (s, i) hm
    cases hk : Parser.conceptKind ⟨c.snap, c.delta⟩ n s with
    | ok k => exact ⟨k, rfl⟩
    | error e => rw [hk] at this; cases this
  | none =>
    unfold Parser.conceptKind
    split
    · exact ⟨_, rfl⟩
    · have : (View.mk c.snap c.delta).conceptFromLabel n s = .ok none := by
        unfold View.conceptFromLabel View.stringConcept
        rw [hs, hd]; rfl
      rw [this]
      exact ⟨.new, rfl⟩

end Zia

namespace Zia.Witness

open Spec Insertion

set_option maxRecDepth 100000

states follow 60 "let p -> q", "let q -> r", "p"

theorem follow1_eq : respond 60 boot (str% "let p -> q") = .ok (.ok [], follow1) := by decide +kernel
theorem follow2_eq : respond 60 follow1 (str% "let q -> r") = .ok (.ok [], follow2) := by decide +kernel
theorem follow3_eq : respond 60 follow2 (str% "p") = .ok (.ok (str% "r"), follow3) := by decide +kernel

theorem boot_clear : Clear 60 boot := clear_of_check (by decide +kernel) (by decide +kernel)
theorem follow1_clear : Clear 60 follow1 := clear_of_check (by decide +kernel) (by decide +kernel)
theorem follow2_clear : Clear 60 follow2 := clear_of_check (by decide +kernel) (by decide +kernel)

states syllogism 60 "let (_v_ man) => _v_ mortal", "let k man", "k mortal"

theorem syllogism1_eq : respond 60 boot (str% "let (_v_ man) => _v_ mortal") = .ok (.ok [], syllogism1) := by
  decide +kernel
theorem syllogism2_eq : respond 60 syllogism1 (str% "let k man") = .ok (.ok [], syllogism2) := by decide +kernel
theorem syllogism3_eq : respond 60 syllogism2 (str% "k mortal") = .ok (.ok (str% "true"), syllogism3) := by
  decide +kernel

theorem syllogism1_clear : Clear 60 syllogism1 := clear_of_check (by decide +kernel) (by decide +kernel)
theorem syllogism2_clear : Clear 60 syllogism2 := clear_of_check (by decide +kernel) (by decide +kernel)

end Zia.Witness

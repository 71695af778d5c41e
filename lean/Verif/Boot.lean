import Verif.Boot0

/-!
# A new context, computed

The states a new context goes through, as literals, each checked by the kernel. They serve as the
concrete cases beside the theorems.
-/

namespace Zia

open Insertion

set_option maxRecDepth 100000

def boot1 : Ctx := labelled% 60 "let (true and true) -> true"

def boot2 : Ctx := labelled% 60 "let (true and true) -> true", "let (false and _y_) -> false"

def boot3 : Ctx := labelled% 60 "let (true and true) -> true", "let (false and _y_) -> false",
  "let (_x_ and false) -> false"

def boot4 : Ctx := labelled% 60 "let (true and true) -> true", "let (false and _y_) -> false",
  "let (_x_ and false) -> false",
  "let ((_y_ exists_such_that) (_x_ precedes _y_) and _y_ precedes _z_) => _x_ precedes _z_"

def boot5 : Ctx := labelled% 60 "let (true and true) -> true", "let (false and _y_) -> false",
  "let (_x_ and false) -> false",
  "let ((_y_ exists_such_that) (_x_ precedes _y_) and _y_ precedes _z_) => _x_ precedes _z_",
  "let -> precedes :="

/-- A new context. -/
def boot : Ctx := new% 60

theorem boot1_eq :
    Context.execute 60 boot0 (str% "let (true and true) -> true") = .ok ([], boot1) := by
  decide +kernel

theorem boot2_eq :
    Context.execute 60 boot1 (str% "let (false and _y_) -> false") = .ok ([], boot2) := by
  decide +kernel

theorem boot3_eq :
    Context.execute 60 boot2 (str% "let (_x_ and false) -> false") = .ok ([], boot3) := by
  decide +kernel

theorem boot4_eq :
    Context.execute 60 boot3
        (str% "let ((_y_ exists_such_that) (_x_ precedes _y_) and _y_ precedes _z_) => _x_ precedes _z_")
      = .ok ([], boot4) := by
  decide +kernel

theorem boot5_eq : Context.execute 60 boot4 (str% "let -> precedes :=") = .ok ([], boot5) := by
  decide +kernel

theorem boot6_eq : Context.execute 60 boot5 (str% "let := precedes let") = .ok ([], boot) := by
  decide +kernel

theorem setupStep_of {n : Nat} {c c' : Ctx} {s : Str} (h : Context.execute n c s = .ok ([], c')) :
    Context.setupStep n c s = .ok c' := by
  unfold Context.setupStep
  rw [h]
  rfl

theorem foldlM_nil' {c : Ctx} {f : Ctx → Str → Except Fault Ctx} :
    List.foldlM f c [] = .ok c := rfl

theorem foldlM_cons' {c c' : Ctx} {f : Ctx → Str → Except Fault Ctx} {s : Str} {ss : List Str}
    {x : Except Fault Ctx} (h : f c s = .ok c') (h' : List.foldlM f c' ss = x) :
    List.foldlM f c (s :: ss) = x := by
  rw [List.foldlM_cons, h]
  exact h'

theorem new_of {n : Nat} {c : Ctx} {x : Except Fault Ctx} (h : Context.labelled = .ok c)
    (h' : Context.setupCommands.foldlM (Context.setupStep n) c = x) : Context.new n = x := by
  unfold Context.new
  rw [h]
  exact h'

/-- A new context can be made. -/
theorem new_eq : Context.new 60 = .ok boot :=
  new_of boot0_eq
    (foldlM_cons' (setupStep_of boot1_eq)
    (foldlM_cons' (setupStep_of boot2_eq)
    (foldlM_cons' (setupStep_of boot3_eq)
    (foldlM_cons' (setupStep_of boot4_eq)
    (foldlM_cons' (setupStep_of boot5_eq)
    (foldlM_cons' (setupStep_of boot6_eq) foldlM_nil'))))))

end Zia

import Verif.Lemmas.Variables
import Verif.Lemmas.Related
import Verif.Lemmas.Reach
import Verif.Lemmas.Check
import Verif.Boot

/-!
# Properties of variable names in commands
-/

namespace Zia.Props

open Spec CM

set_option maxRecDepth 100000

/-! ## C37: names do not leak -/

/-- C37: after every command, whether it is answered with a result or with an error, the tables of
variable names and of bound variables are empty. -/
theorem names_forgotten [HashOrder] {n : Nat} {c c' : Ctx} {s r : Str}
    (h : Context.execute n c s = .ok (r, c')) : c'.vars = [] ∧ c'.bound = [] := by
  unfold Context.execute at h
  simp only [Except.bind_eq_ok, Except.pure_eq_ok] at h
  obtain ⟨_, _, _, _, h⟩ := h
  cases h
  exact ⟨rfl, rfl⟩

/-- C37: whatever commands were executed before, a command starts with empty tables. -/
theorem no_names_before {c : Ctx} (h : Reachable c) : c.vars = [] ∧ c.bound = [] :=
  ⟨(History.settled h).vars, (History.settled h).bound⟩

/-- A new context has executed six commands. -/
example : Reachable boot := History.reachable boot_calm

/-! ## C38: names within one command -/

/-- A leaf of the tree that is a variable, with its name and the concept it is bound to. -/
inductive VariableLeaf : Syn → Str → Option CId → Prop
  | leaf {s i} : VariableLeaf (.leaf (some s) i .variable) s i
  | left {x c l r f b s i} : VariableLeaf l s i → VariableLeaf (.branch x c l r f b) s i
  | right {x c l r f b s i} : VariableLeaf r s i → VariableLeaf (.branch x c l r f b) s i

theorem VariableLeaf.bound {f : Str → Option CId} {t t' : Syn} (h : BoundBy f t t') {s : Str}
    {i : Option CId} (hl : VariableLeaf t' s i) : i.isSome ∧ f s = i ∧ s ∈ variableNames t := by
  induction h with
  | «variable» hi => cases hl; exact ⟨rfl, hi, List.mem_singleton_self _⟩
  | other hk => cases hl; exact absurd rfl hk
  | branch _ _ ihl ihr =>
    cases hl with
    | left h => exact ⟨(ihl h).1, (ihl h).2.1, List.mem_append_left _ (ihl h).2.2⟩
    | right h => exact ⟨(ihr h).1, (ihr h).2.1, List.mem_append_right _ (ihr h).2.2⟩

theorem vars_kept : Loose (fun c c' => c'.vars = c.vars) where
  refl _ := rfl
  trans h h' := h'.trans h
  cache _ _ _ _ _ _ := rfl
  update _ _ _ _ _ := rfl
  bound _ _ := rfl
  pin h := h

/-- C38: when a command has been read (`h1`), expanded (`h2`) and its variables have been bound (`h3`), the
tree has changed only in the concepts of its variables. They are given by a table of the names in the
command, which has different concepts for different names; and these concepts were made for this purpose. -/
theorem variables_bound [HashOrder] {n : Nat} {c c1 c2 c3 : Ctx} {s : Str} {a t t' : Syn} (h : Reachable c)
    (h1 : Parser.astFromExpression n s c = .ok (.ok a, c1))
    (h2 : searching (fun e => (search n).expand e a) c1 = .ok (.ok t, c2))
    (h3 : Parser.createVariables t c2 = .ok (.ok t', c3)) :
    ∃ f : Str → Option CId, BoundBy f t t' ∧ (∀ s, (f s).isSome ↔ s ∈ variableNames t) ∧
      (∀ s s' i, f s = some i → f s' = some i → s = s') ∧
      ∀ s i, f s = some i → ∃ k, i = .unc k ∧ c2.delta.overlay.num ≤ k := by
  have e1 : c1.vars = c.vars := Parser.astFromExpression_related vars_kept n s c _ _ h1
  have e2 : c2.vars = c1.vars := Related.searching vars_kept (by sound_search) c1 _ _ h2
  have e : c2.vars = [] := by rw [e2, e1, (no_names_before h).1]
  have hn : Named c2.delta.overlay.num c2 := by
    refine ⟨?_, ?_, Nat.le_refl _⟩
    · intro s i hi; rw [e] at hi; cases hi
    · intro s s' i hi; rw [e] at hi; cases hi
  obtain ⟨hn', hb, -, hd⟩ := createVariables_spec _ t hn h3
  refine ⟨_, hb, fun s => ?_, hn'.inj, fun s i hi => ?_⟩
  · rw [hd, e]
    simp [AMap.get?]
  · obtain ⟨k, rfl, hk, -⟩ := hn'.fresh s i hi
    exact ⟨k, rfl, hk⟩

/-- C38 for the leaves: in the tree that is executed, two variables are the same concept if and only if
they have the same name. -/
theorem same_name_same_variable [HashOrder] {n : Nat} {c c1 c2 c3 : Ctx} {s : Str} {a t t' : Syn}
    (h : Reachable c) (h1 : Parser.astFromExpression n s c = .ok (.ok a, c1))
    (h2 : searching (fun e => (search n).expand e a) c1 = .ok (.ok t, c2))
    (h3 : Parser.createVariables t c2 = .ok (.ok t', c3)) {x y : Str} {i j : Option CId}
    (hx : VariableLeaf t' x i) (hy : VariableLeaf t' y j) : i.isSome ∧ j.isSome ∧ (x = y ↔ i = j) := by
  obtain ⟨f, hb, -, hi, -⟩ := variables_bound h h1 h2 h3
  obtain ⟨sx, rfl, -⟩ := hx.bound hb
  obtain ⟨sy, rfl, -⟩ := hy.bound hb
  refine ⟨sx, sy, fun e => by rw [e], fun e => ?_⟩
  obtain ⟨i, hx⟩ := Option.isSome_iff_exists.1 sx
  exact hi x y i hx (e ▸ hx)

/-- The concepts of the variables of a tree, from left to right. -/
def variableIds : Syn → List (Option CId)
  | .leaf (some _) i .variable => [i]
  | .leaf .. => []
  | .branch _ _ l r _ _ => variableIds l ++ variableIds r

open Insertion in
theorem variables_example : ((do
      let a ← Parser.astFromExpression 60 (str% "_x_ _y_ _x_")
      let t ← searching (fun e => (search 60).expand e a)
      Parser.createVariables t : CM Syn) boot).toOption.map
        (fun p => p.1.toOption.map variableIds) =
    some (some [some (.unc 0), some (.unc 1), some (.unc 0)]) := by
  decide +kernel

open Insertion in
/-- The stages end for `_x_ _y_ _x_` in a new context; the first and last variables are the same concept. -/
example : ∃ a c1 t c2 t' c3, Parser.astFromExpression 60 (str% "_x_ _y_ _x_") boot = .ok (.ok a, c1) ∧
    searching (fun e => (search 60).expand e a) c1 = .ok (.ok t, c2) ∧
    Parser.createVariables t c2 = .ok (.ok t', c3) ∧
    variableIds t' = [some (.unc 0), some (.unc 1), some (.unc 0)] := by
  have h := variables_example
  generalize hx : (do
      let a ← Parser.astFromExpression 60 (str% "_x_ _y_ _x_")
      let t ← searching (fun e => (search 60).expand e a)
      Parser.createVariables t : CM Syn) boot = x at h
  match x, h with
  | .ok (.ok t', c3), h =>
    simp only [Except.toOption, Option.map_some, Option.some.injEq] at h
    obtain ⟨a, c1, h1, hx⟩ := cm_bind_ok hx
    obtain ⟨t, c2, h2, h3⟩ := cm_bind_ok hx
    exact ⟨a, c1, t, c2, t', c3, h1, h2, h3, h⟩

end Zia.Props

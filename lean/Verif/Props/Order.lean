import Verif.Lemmas.HashOrder
import Verif.Lemmas.Syntax
import Verif.Lemmas.Check
import Verif.Witness.Order

/-!
# What depends on the order of hash tables
-/

namespace Zia.Props

open Spec Search

set_option maxRecDepth 100000

/-! ## C44: the order of hash tables -/

/-- C44 is false: there is a reachable context and a command that has two answers, depending on the order
in which a hash set is visited. -/
theorem answers_depend_on_order : ∃ c, Reachable c ∧ ∃ (o o' : HashOrder) (n : Nat) (s a b : Str) (c₁ c₂ : Ctx),
    @Context.execute o n c s = .ok (a, c₁) ∧ @Context.execute o' n c s = .ok (b, c₂) ∧ a ≠ b := by
  have e := Witness.first_rule
  have e' := Witness.second_rule
  cases h : @Context.execute .insertion 60 Witness.rules2 (str% "p q") with
  | error f => rw [h] at e; cases e
  | ok p =>
    cases h' : @Context.execute Witness.reversed 60 Witness.rules2 (str% "p q") with
    | error f => rw [h'] at e'; cases e'
    | ok p' =>
      rw [h] at e
      rw [h'] at e'
      simp only [Except.toOption, Option.map_some, Option.some.injEq] at e e'
      exact ⟨_, Witness.rules2_reachable, _, _, 60, _, p.1, p'.1, p.2, p'.2, h, h', by
        rw [e, e']; decide⟩

theorem except_bind_ok {α β : Type} {x : Except Fault α} {f : α → Except Fault β} {b : β}
    (h : x >>= f = .ok b) : ∃ a, x = .ok a ∧ f a = .ok b := by
  cases x with
  | error => cases h
  | ok a => exact ⟨a, rfl, h⟩

theorem compositionsOf_members [HashOrder] {v : View} {h : Hand} {cs acc r : List CId}
    (e : compositionsOf v h acc cs = .ok r) :
    (∀ c ∈ cs, ∃ m, v.read c = .ok m) ∧
    ∀ k, k ∈ r ↔ k ∈ acc ∨ ∃ c ∈ cs, ∃ m, v.read c = .ok m ∧ ∃ p ∈ m.iterHandOf h, p.2 = k := by
  induction cs generalizing acc with
  | nil =>
    cases e
    simp
  | cons c cs ih =>
    rw [compositionsOf] at e
    cases hm : v.read c with
    | error f => rw [hm] at e; cases e
    | ok m =>
      rw [hm] at e
      obtain ⟨i, j⟩ := ih e
      constructor
      · intro d hd
        rcases List.mem_cons.1 hd with rfl | hd
        · exact ⟨m, hm⟩
        · exact i d hd
      · intro k
        rw [j k, mem_setExtend]
        simp only [List.mem_map, List.mem_cons, or_and_right, exists_or, exists_eq_left, hm,
          Except.ok.injEq, exists_eq_left', or_assoc]

theorem compositionsOf_ends [HashOrder] {v : View} {h : Hand} {cs : List CId} (acc : List CId)
    (e : ∀ c ∈ cs, ∃ m, v.read c = .ok m) : ∃ r, compositionsOf v h acc cs = .ok r := by
  induction cs generalizing acc with
  | nil => exact ⟨_, rfl⟩
  | cons c cs ih =>
    obtain ⟨m, hm⟩ := e c (List.mem_cons_self ..)
    rw [compositionsOf, hm]
    exact ih _ fun d hd => e d (List.mem_cons_of_mem _ hd)

theorem iterHandOf_any {o o' : HashOrder} {m : Mixed} {h : Hand} {p : CId × CId} :
    p ∈ @Mixed.iterHandOf o m h ↔ p ∈ @Mixed.iterHandOf o' m h := by
  cases m <;> simp only [Mixed.iterHandOf, List.mem_filterMap, HashOrder.mem_order]

theorem compositionsOf_any {o o' : HashOrder} {v : View} {h : Hand} {cs cs' acc acc' r : List CId}
    (e : @compositionsOf o v h acc cs = .ok r) (hc : ∀ k, k ∈ cs ↔ k ∈ cs') (ha : ∀ k, k ∈ acc ↔ k ∈ acc') :
    ∃ r', @compositionsOf o' v h acc' cs' = .ok r' ∧ ∀ k, k ∈ r ↔ k ∈ r' := by
  obtain ⟨i, j⟩ := @compositionsOf_members o _ _ _ _ _ e
  obtain ⟨r', e'⟩ := @compositionsOf_ends o' v h cs' acc' fun c hc' => i c ((hc c).2 hc')
  obtain ⟨-, j'⟩ := @compositionsOf_members o' _ _ _ _ _ e'
  refine ⟨r', e', fun k => ?_⟩
  rw [j, j', ha]
  simp only [hc, @iterHandOf_any o o']

/-- The part of C44 that holds: the rules that may apply to an expression are the same for every order.
Missing: which of them is tried first, and hence applied, is left to the order. -/
theorem candidates_any_order_partial {o o' : HashOrder} {v : View} {t : Syn} {r : List CId}
    (e : @findGeneralisations o v t = .ok r) :
    ∃ r', @findGeneralisations o' v t = .ok r' ∧ ∀ k, k ∈ r ↔ k ∈ r' := by
  induction t generalizing r with
  | leaf => cases e; exact ⟨_, rfl, fun _ => .rfl⟩
  | branch s c l t f b ihl ihr =>
    simp only [findGeneralisations] at e ⊢
    obtain ⟨a₁, e₁, e⟩ := except_bind_ok e
    obtain ⟨a₂, e₂, e⟩ := except_bind_ok e
    obtain ⟨x₁, f₁, e⟩ := except_bind_ok e
    obtain ⟨a₃, e₃, e⟩ := except_bind_ok e
    obtain ⟨x₂, f₂, e⟩ := except_bind_ok e
    obtain ⟨a₁', e₁', h₁⟩ := compositionsOf_any (o' := o') e₁ (fun _ => .rfl) (fun _ => .rfl)
    obtain ⟨a₂', e₂', h₂⟩ := compositionsOf_any (o' := o') e₂ (fun _ => .rfl) h₁
    obtain ⟨x₁', f₁', g₁⟩ := ihl f₁
    obtain ⟨x₂', f₂', g₂⟩ := ihr f₂
    obtain ⟨a₃', e₃', h₃⟩ := compositionsOf_any (o' := o') (cs' := @HashOrder.order o' _ x₁') e₃
      (fun k => (@HashOrder.mem_order o _ _ _).trans ((g₁ k).trans (@HashOrder.mem_order o' _ _ _).symm)) h₂
    obtain ⟨a₄', e₄', h₄⟩ := compositionsOf_any (o' := o') (cs' := @HashOrder.order o' _ x₂') e
      (fun k => (@HashOrder.mem_order o _ _ _).trans ((g₂ k).trans (@HashOrder.mem_order o' _ _ _).symm)) h₃
    refine ⟨a₄', ?_, h₄⟩
    simp only [e₁', e₂', f₁', f₂', e₃', e₄', bind, Except.bind]

/-- Two rules are candidates for `p q` after the two commands of the witness. -/
example : ∃ r, @findGeneralisations .insertion (CM.env Witness.rules2).view
      (.branch none none (.leaf (some (str% "p")) (some (.com 82)) .constant)
        (.leaf (some (str% "q")) (some (.com 90)) .constant) [] []) = .ok r ∧ 2 ≤ r.length :=
  ⟨[.com 87, .com 89, .com 95], by decide +kernel, by decide⟩

end Zia.Props

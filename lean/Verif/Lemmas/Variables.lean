import Verif.Spec.Variables
import Verif.Lemmas.Layers
import Verif.Lemmas.Parse

/-!
# Binding the variables of a command
-/

namespace Zia

open Spec CM

set_option linter.unusedSectionVars false

variable [HashOrder]

theorem Spec.BoundBy.mono {f g : Str → Option CId} (h : ∀ s i, f s = some i → g s = some i)
    {t t' : Syn} (hb : BoundBy f t t') : BoundBy g t t' := by
  induction hb with
  | «variable» hi => exact .variable (h _ _ hi)
  | other hk => exact .other hk
  | branch _ _ ihl ihr => exact .branch ihl ihr

/-- The table of names: every concept in it was made at or after `k` and before now, and no two names
share one. -/
structure Named (k : Nat) (c : Ctx) : Prop where
  fresh : ∀ s id, c.vars.get? s = some id → ∃ i, id = .unc i ∧ k ≤ i ∧ i < c.delta.overlay.num
  inj : ∀ s s' id, c.vars.get? s = some id → c.vars.get? s' = some id → s = s'
  le : k ≤ c.delta.overlay.num

theorem createVariables_spec (k : Nat) : ∀ (t : Syn) {t' : Syn} {c c' : Ctx}, Named k c →
    Parser.createVariables t c = .ok (.ok t', c') →
    Named k c' ∧ BoundBy c'.vars.get? t t' ∧ (∀ s i, c.vars.get? s = some i → c'.vars.get? s = some i) ∧
      ∀ s, (c'.vars.get? s).isSome = true ↔ (c.vars.get? s).isSome = true ∨ s ∈ variableNames t := by
  intro t
  induction t with
  | branch s cc l r f b ihl ihr =>
    intro t' c c' hn h
    unfold Parser.createVariables at h
    obtain ⟨l', c1, h1, h⟩ := cm_bind_ok h
    obtain ⟨r', c2, h2, h⟩ := cm_bind_ok h
    cases h
    obtain ⟨n1, b1, k1, d1⟩ := ihl hn h1
    obtain ⟨n2, b2, k2, d2⟩ := ihr n1 h2
    refine ⟨n2, .branch (b1.mono k2) b2, fun s i hs => k2 _ _ (k1 _ _ hs), fun s => ?_⟩
    rw [d2, d1, variableNames, List.mem_append, or_assoc]
  | leaf s cc lk =>
    intro t' c c' hn h
    cases lk with
    | «variable» =>
      unfold Parser.createVariables at h
      obtain ⟨name, c1, h1, h⟩ := cm_bind_ok h
      cases s with
      | none => cases h1
      | some s =>
        have e1 : name = s ∧ c1 = c := by cases h1; exact ⟨rfl, rfl⟩
        rw [e1.1, e1.2] at h
        clear h1 e1
        obtain ⟨_, _, h1, h⟩ := cm_bind_ok h
        cases h1
        cases hv : c.vars.get? s with
        | some id =>
          simp only [hv] at h
          cases h
          refine ⟨hn, .variable hv, fun _ _ h => h, fun s' => ?_⟩
          simp only [variableNames, List.mem_singleton]
          constructor
          · exact .inl
          · rintro (h | rfl)
            · exact h
            · rw [hv]; rfl
        | none =>
          simp only [hv] at h
          obtain ⟨_, c1, h1, g1⟩ := cm_bind_ok h
          have he : c1 = c := by
            have := Ends.exclusive (c := c) (Q := fun r c' => ∀ x, r = .ok x → c' = c)
              (fun _ _ _ => rfl) (fun _ x hx => by cases hx) _ _ h1
            exact this _ rfl
          clear h h1
          subst he
          obtain ⟨_, _, h2, g2⟩ := cm_bind_ok g1
          clear g1
          cases h2
          obtain ⟨id, c2, h2, g3⟩ := cm_bind_ok g2
          clear g2
          obtain ⟨_, c3, h3, g4⟩ := cm_bind_ok g3
          clear g3
          cases h3
          cases g4
          simp only [CM.update, Except.bind_eq_ok, Except.pure_eq_ok] at h2
          obtain ⟨⟨d, id'⟩, hd, h2⟩ := h2
          cases h2
          obtain ⟨hid, hnum, _⟩ := nested_update hd
          have hid : id' = .unc c1.delta.overlay.num := by rw [hid]; rfl
          have hnum : d.overlay.num = c1.delta.overlay.num + 1 := by rw [hnum]; rfl
          have hget : ∀ u, (c1.vars.insert s id').get? u = if u = s then some id' else c1.vars.get? u :=
            fun u => by rw [AMap.get?_insert]; simp only [eq_comm]
          refine ⟨⟨?_, ?_, ?_⟩, .variable ?_, ?_, ?_⟩
          · intro u i hu
            simp only [hget] at hu
            split at hu
            · cases hu
              exact ⟨_, hid, hn.le, by simp only [hnum]; omega⟩
            · obtain ⟨j, rfl, hj, hj'⟩ := hn.fresh _ _ hu
              exact ⟨j, rfl, hj, by simp only [hnum]; omega⟩
          · intro u u' i hu hu'
            simp only [hget] at hu hu'
            split at hu <;> split at hu'
            · rename_i h1 h2; rw [h1, h2]
            · cases hu
              obtain ⟨j, hj, _, hlt⟩ := hn.fresh _ _ hu'
              rw [hid] at hj
              cases hj
              exact absurd hlt (Nat.lt_irrefl _)
            · cases hu'
              obtain ⟨j, hj, _, hlt⟩ := hn.fresh _ _ hu
              rw [hid] at hj
              cases hj
              exact absurd hlt (Nat.lt_irrefl _)
            · exact hn.inj _ _ _ hu hu'
          · simp only [hnum]
            have := hn.le
            omega
          · simp only [hget, if_true]
          · intro u i hu
            simp only [hget]
            split
            · rename_i he
              rw [he, hv] at hu
              cases hu
            · exact hu
          · intro u
            simp only [hget, variableNames, List.mem_singleton]
            split
            · rename_i he; simp [he]
            · rename_i he; simp [he]
    | constant =>
      unfold Parser.createVariables at h
      cases h
      exact ⟨hn, .other (by simp), fun _ _ h => h, fun s => by simp [variableNames]⟩
    | quantifier =>
      unfold Parser.createVariables at h
      cases h
      exact ⟨hn, .other (by simp), fun _ _ h => h, fun s => by simp [variableNames]⟩

end Zia

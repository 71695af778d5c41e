import Verif.Lemmas.Invariant
import Mathlib.Data.Fintype.Card
import Mathlib.Data.Fintype.EquivFin

/-!
# Reading the store between commands
-/

namespace Zia

open Spec Relation

/-- Reading between two commands. -/
theorem rest_read {s : Snap} {k : Nat} {c : Con} (h : s.concepts[k]? = some c) :
    (View.mk s Nested.default).read (.com k) = .ok (.ofCon c) := by
  have h1 : (View.mk s Nested.default).maybeRead (.com k) = .ok none := rfl
  have h2 : (View.mk s Nested.default).getConcept (.com k) = some (.ofCon c) := by
    simp [View.getConcept, h]
  unfold View.read
  rw [h1, h2]
  rfl

/-- A relation without cycles on finitely many things has no infinite descent. -/
theorem wf_of_acyclic {R : Nat → Nat → Prop} (n : Nat) (hb : ∀ x y, R x y → x < n ∧ y < n)
    (h : ∀ c, ¬ TransGen R c c) : WellFounded R := by
  let R' : Fin n → Fin n → Prop := fun x y => TransGen R x.1 y.1
  have : IsTrans (Fin n) R' := ⟨fun _ _ _ h h' => h.trans h'⟩
  have : Std.Irrefl R' := ⟨fun x hx => h x.1 hx⟩
  have wf : WellFounded R' := Finite.wellFounded_of_trans_of_irrefl R'
  have key : ∀ x : Fin n, Acc R x.1 := by
    intro x
    induction x using wf.induction with
    | _ x ih =>
      refine Acc.intro _ (fun y hy => ?_)
      exact ih ⟨y, (hb _ _ hy).1⟩ (.single hy)
  refine ⟨fun x => Acc.intro _ (fun y hy => ?_)⟩
  exact key ⟨y, (hb _ _ hy).1⟩


theorem part_lt {s : Snap} (hr : RefsInv s) {x y : Nat} (h : Part (look s.concepts) x y) :
    x < s.concepts.length ∧ y < s.concepts.length := by
  obtain ⟨k, l, r, hk, hp, hx⟩ := h
  refine ⟨hr.valid.concepts y k hk x ?_, lt_of_get hk⟩
  rw [mem_refs]
  left
  cases hs : k.spec with
  | abst mc red =>
    rw [hs] at hp
    cases mc with
    | leaf l => cases hp
    | comp l' r' f b =>
      cases hp
      rw [mem_specRefs_abst]
      simp only [compRefs, List.mem_cons]
      tauto
  | concrete t => rw [hs] at hp; cases hp
  | str t => rw [hs] at hp; cases hp

theorem reduct_lt {s : Snap} (hr : RefsInv s) {i j : Nat} (h : Red (look s.concepts) i j) :
    i < s.concepts.length ∧ j < s.concepts.length := by
  obtain ⟨k, hk, h⟩ := h
  refine ⟨lt_of_get hk, hr.valid.concepts i k hk j ?_⟩
  rw [mem_refs]
  left
  cases hs : k.spec with
  | abst mc red => rw [hs] at h; simp only [redOf] at h; subst h; rw [mem_specRefs_abst]; simp
  | concrete t => rw [hs] at h; cases h
  | str t => rw [hs] at h; cases h

/-- Containment queries end, and answer whether there is a chain of parts. -/
theorem contains_ends {s : Snap} (hr : RefsInv s)
    (h : ∀ c, ¬ TransGen (Part (look s.concepts)) c c) (i k : Nat) (hk : k < s.concepts.length) :
    ∃ n b, (∀ m, n ≤ m → (View.mk s Nested.default).contains m (.com k) (.com i) = .ok b) ∧
      (b = true ↔ TransGen (Part (look s.concepts)) i k) := by
  have wf := wf_of_acyclic s.concepts.length (fun x y => part_lt hr) h
  induction k using wf.induction with
  | _ k ih =>
    obtain ⟨c, hc⟩ : ∃ c, s.concepts[k]? = some c := ⟨_, List.getElem?_eq_getElem hk⟩
    have hread := rest_read hc
    have hcomp : (Mixed.ofCon c).composition = (pairOf c.spec).map (fun p => (.com p.1, .com p.2)) := by
      rw [← composition_eq]; rfl
    have step : ∀ m, (View.mk s Nested.default).contains (m + 1) (.com k) (.com i) =
        match pairOf c.spec with
        | none => .ok false
        | some (l, r) => if l = i ∨ r = i then .ok true else
          (View.mk s Nested.default).contains m (.com l) (.com i) >>= fun b =>
            if b then .ok true else (View.mk s Nested.default).contains m (.com r) (.com i) := by
      intro m
      rw [View.contains, hread]
      show (match (Mixed.ofCon c).composition with
        | none => _
        | some (l, r) => _) = _
      rw [hcomp]
      cases pairOf c.spec with
      | none => rfl
      | some p =>
        simp only [Option.map_some, CId.com.injEq]
        rfl
    have hpart : ∀ x, Part (look s.concepts) x k ↔
        ∃ l r, pairOf c.spec = some (l, r) ∧ (x = l ∨ x = r) := by
      intro x
      constructor
      · rintro ⟨k', l, r, h1, h2, h3⟩
        rw [look_eq, hc] at h1; cases h1
        exact ⟨l, r, h2, h3⟩
      · rintro ⟨l, r, h2, h3⟩
        exact ⟨c, l, r, hc, h2, h3⟩
    cases hp : pairOf c.spec with
    | none =>
      refine ⟨1, false, ?_, ?_⟩
      · intro m hm
        obtain ⟨m, rfl⟩ : ∃ m', m = m' + 1 := ⟨m - 1, by omega⟩
        rw [step, hp]
      · simp only [Bool.false_eq_true, false_iff, TransGen.tail'_iff, not_exists, not_and]
        intro x _ hx
        obtain ⟨l, r, h1, _⟩ := (hpart x).1 hx
        rw [hp] at h1; cases h1
    | some p =>
      obtain ⟨l, r⟩ := p
      have pl : Part (look s.concepts) l k := (hpart l).2 ⟨l, r, hp, .inl rfl⟩
      have pr : Part (look s.concepts) r k := (hpart r).2 ⟨l, r, hp, .inr rfl⟩
      obtain ⟨n1, b1, h1, e1⟩ := ih l pl (part_lt hr pl).1
      obtain ⟨n2, b2, h2, e2⟩ := ih r pr (part_lt hr pr).1
      by_cases hi : l = i ∨ r = i
      · refine ⟨1, true, ?_, ?_⟩
        · intro m hm
          obtain ⟨m, rfl⟩ : ∃ m', m = m' + 1 := ⟨m - 1, by omega⟩
          rw [step, hp]
          simp only [if_pos hi]
        · simp only [true_iff]
          rcases hi with rfl | rfl
          · exact .single pl
          · exact .single pr
      · refine ⟨n1 + n2 + 1, b1 || b2, ?_, ?_⟩
        · intro m hm
          obtain ⟨m, rfl⟩ : ∃ m', m = m' + 1 := ⟨m - 1, by omega⟩
          rw [step, hp]
          simp only [if_neg hi, h1 m (by omega), h2 m (by omega)]
          cases b1 <;> rfl
        · rw [Bool.or_eq_true, e1, e2, TransGen.tail'_iff (c := k)]
          rw [not_or] at hi
          constructor
          · rintro (h | h)
            · exact ⟨l, h.to_reflTransGen, pl⟩
            · exact ⟨r, h.to_reflTransGen, pr⟩
          · rintro ⟨x, hx, hxk⟩
            obtain ⟨l', r', e, hlr⟩ := (hpart x).1 hxk
            rw [hp] at e; cases e
            rcases reflTransGen_iff_eq_or_transGen.1 hx with e | ht
            · rcases hlr with rfl | rfl
              · exact (hi.1 e).elim
              · exact (hi.2 e).elim
            · rcases hlr with rfl | rfl
              · exact .inl ht
              · exact .inr ht

/-- Asking for a normal form ends, at the end of the chain of reductions. -/
theorem normalForm_ends {s : Snap} (hr : RefsInv s)
    (h : ∀ c, ¬ TransGen (Red (look s.concepts)) c c) (k : Nat) (hk : k < s.concepts.length) :
    ∃ n x, (∀ m, n ≤ m → (View.mk s Nested.default).normalForm m (.com k) = .ok (x.map CId.com)) ∧
      (x = none ↔ ∀ j, ¬ Red (look s.concepts) k j) ∧
      ∀ j, x = some j ↔ TransGen (Red (look s.concepts)) k j ∧ ∀ i, ¬ Red (look s.concepts) j i := by
  have wf : WellFounded (fun j i => Red (look s.concepts) i j) := by
    refine wf_of_acyclic s.concepts.length (fun x y hxy => (reduct_lt hr hxy).symm) ?_
    intro c hc
    exact h c ((transGen_swap).1 hc)
  have uniq : ∀ {i j j'}, Red (look s.concepts) i j → Red (look s.concepts) i j' → j = j' := by
    rintro i j j' ⟨k, h1, h2⟩ ⟨k', h1', h2'⟩
    rw [h1] at h1'; cases h1'
    rw [h2] at h2'; cases h2'
    rfl
  induction k using wf.induction with
  | _ k ih =>
    obtain ⟨c, hc⟩ : ∃ c, s.concepts[k]? = some c := ⟨_, List.getElem?_eq_getElem hk⟩
    have hread := rest_read hc
    have hred : (Mixed.ofCon c).reduction = (redOf c.spec).map .com := by
      rw [← reduction_eq]; rfl
    have step : ∀ m, (View.mk s Nested.default).normalForm (m + 1) (.com k) =
        match redOf c.spec with
        | none => .ok none
        | some r => do
          return some ((← (View.mk s Nested.default).normalForm m (.com r)).getD (.com r)) := by
      intro m
      rw [View.normalForm, hread]
      show (match (Mixed.ofCon c).reduction with
        | none => _
        | some r => _) = _
      rw [hred]
      cases redOf c.spec with
      | none => rfl
      | some p => rfl
    cases hp : redOf c.spec with
    | none =>
      have hno : ∀ j, ¬ Red (look s.concepts) k j := by
        rintro j ⟨c', h1, h2⟩
        rw [look_eq, hc] at h1; cases h1
        rw [hp] at h2; cases h2
      refine ⟨1, none, ?_, ⟨fun _ => hno, fun _ => rfl⟩, ?_⟩
      · intro m hm
        obtain ⟨m, rfl⟩ : ∃ m', m = m' + 1 := ⟨m - 1, by omega⟩
        rw [step, hp]
        rfl
      · intro j
        refine ⟨fun e => (Option.some_ne_none _ e.symm).elim, fun ⟨h1, _⟩ => ?_⟩
        obtain ⟨x, hx, _⟩ := TransGen.head'_iff.1 h1
        exact (hno x hx).elim
    | some r =>
      have hkr : Red (look s.concepts) k r := ⟨c, hc, hp⟩
      obtain ⟨n, x, h1, h2, h3⟩ := ih r hkr (reduct_lt hr hkr).2
      refine ⟨n + 1, some (x.getD r), ?_, ?_, ?_⟩
      · intro m hm
        obtain ⟨m, rfl⟩ : ∃ m', m = m' + 1 := ⟨m - 1, by omega⟩
        rw [step, hp]
        simp only [h1 m (by omega)]
        cases x <;> rfl
      · refine ⟨fun e => (Option.some_ne_none _ e).elim, fun hno => (hno r hkr).elim⟩
      · intro j
        cases x with
        | none =>
          have hno := h2.1 rfl
          simp only [Option.getD_none, Option.some.injEq]
          constructor
          · rintro rfl
            exact ⟨.single hkr, hno⟩
          · rintro ⟨ht, hj⟩
            obtain ⟨y, hy, ht⟩ := TransGen.head'_iff.1 ht
            cases uniq hkr hy
            exact only_refl hno ht
        | some y =>
          simp only [Option.getD_some, Option.some.injEq]
          constructor
          · rintro rfl
            obtain ⟨ht, hy⟩ := (h3 y).1 rfl
            exact ⟨.head hkr ht, hy⟩
          · rintro ⟨ht, hj⟩
            obtain ⟨z, hz, ht⟩ := TransGen.head'_iff.1 ht
            cases uniq hkr hz
            rcases reflTransGen_iff_eq_or_transGen.1 ht with rfl | ht
            · have := h2.2 hj
              cases this
            · have := (h3 j).2 ⟨ht, hj⟩
              exact Option.some.inj this

end Zia

import Verif.Lemmas.Told
import Verif.Lemmas.LearnNew
import Verif.Lemmas.Invariant
import Verif.Props.Labels
import Verif.Witness.Learn

/-!
# Teaching a reduction
-/

namespace Zia.Props

open Spec

/-- The text of the command that teaches that `x` reduces to `y`. -/
theorem teaching_text (x y : Str) : teaching x y = str% "let (" ++ x ++ str% " (-> " ++ y ++ str% "))" := rfl

/-! ## C54: a word that is taught to reduce to another one does -/

/-- What a word is taken for: the concept it already stands for, or else a new one that it names. -/
def TakenFor [HashOrder] (n : Nat) (c c' : Ctx) (t : Str) (i : Nat) : Prop :=
  (View.mk c.snap c.delta).conceptFromLabel n t = .ok (some (.com i)) ∨
  NewWord c.snap t ∧ c.snap.concepts.length ≤ i ∧ HasName c'.snap i t

/-- What the command comes to: the new words are introduced and then the reduction is taught. -/
theorem teaching_command [HashOrder] {c c' : Ctx}
    (h : History (fun s p => ReducesFresh s p ∧ KeepsDefinitions s p) c)
    {n : Nat} {u x y : Str} (hu : Learns n u x y c) (hx : IsSymbol x) (hy : IsSymbol y) (hne : x ≠ y)
    (vx : Syn.isVariableName x = false) (vy : Syn.isVariableName y = false)
    (hl : (View.mk c.snap c.delta).conceptFromLabel n (str% "let") = .ok (some (.com (builtin .letCmd))))
    (hr : (View.mk c.snap c.delta).conceptFromLabel n (str% "->") = .ok (some (.com (builtin .reduction))))
    (kx : NewWord c.snap x ∨ ∃ i, (View.mk c.snap c.delta).conceptFromLabel n x = .ok (some (.com i)) ∧
      i ≠ builtin .label ∧ PlainWord c.snap i x)
    (ky : NewWord c.snap y ∨ ∃ j, (View.mk c.snap c.delta).conceptFromLabel n y = .ok (some (.com j)) ∧
      j ≠ builtin .label ∧ PlainWord c.snap j y ∧ ∀ k, ¬ComposedOf c.snap k (builtin .reduction) j)
    (hca : (∀ i j, (View.mk c.snap c.delta).conceptFromLabel n x = .ok (some (.com i)) →
        (View.mk c.snap c.delta).conceptFromLabel n y = .ok (some (.com j)) →
        PlainCache (· ∈ [.com (builtin .letCmd), .com i, .com (builtin .reduction), .com j]) c.cache) ∨
      NewWord c.snap x ∨ NewWord c.snap y)
    (he : Context.execute n c u = .ok ([], c')) :
    ∃ d ix iy c4 c1, Context.command n u c = .ok (.ok [], c1) ∧ c.snap.apply c1.delta = .ok c'.snap ∧
      c4.snap = c.snap ∧ c4.delta = .base d ∧ Word c.snap d ix x ∧ Word c.snap d iy y ∧
      Trace c.snap Nested.default (.base d) ∧ (∀ p ∈ d.order, Introduces p) ∧
      (∀ i, ix = .com i → (View.mk c.snap c.delta).conceptFromLabel n x = .ok (some (.com i))) ∧
      (∀ j, iy = .com j → (View.mk c.snap c.delta).conceptFromLabel n y = .ok (some (.com j))) ∧
      (∀ u, ix = .unc u → NewWord c.snap x) ∧ (∀ u, iy = .unc u → NewWord c.snap y) ∧ Shape d x y ix iy ∧
      ix ≠ iy ∧ Taught (α := Str) c4 ix iy (.ok []) c1 := by
  have hs := History.nameable h
  have hse := History.settled h
  have hd := hse.delta
  have hcomp := History.comps (History.mono (fun _ _ h => h.2) h)
  have hconc := (History.concrete h).2
  have bc : ∀ t, Conc c.snap (builtin t) t := fun t => (hconc _ _).2 (by cases t <;> exact ⟨_, rfl, rfl⟩)
  have bi : ∀ t, IsBuiltIn c.snap (builtin t) t := fun t => by
    obtain ⟨k, hk, e⟩ := bc t
    exact ⟨k, hk, by simp [Concept.cct, e]⟩
  have word : ∀ t u, (View.mk c.snap c.delta).conceptFromLabel n u = .ok (some (.com (builtin t))) →
      Syn.isVariableName u = false → PlainWord c.snap (builtin t) u := by
    intro t u hu hv
    obtain ⟨_, e, hn, _⟩ := lookup_named_partial h hu
    cases e
    obtain ⟨k, hk, e⟩ := bc t
    refine ⟨hn, ?_, ?_, hv⟩
    · rintro l r ⟨k', hk', hp⟩
      rw [hk] at hk'; cases hk'
      simp [composition_eq, e, pairOf] at hp
    · intro w hw
      rw [isString_specs] at hw
      simp [specs, look, hk, e] at hw
  have wl := word _ _ hl (by decide)
  have wr := word _ _ hr (by decide)
  obtain ⟨r, c1, hc, _, ha, _, _, _, hout⟩ := execute_command he
  have hcmd := hc
  have hr' : r = .ok [] := by
    cases r with
    | ok a =>
      have hout : [] = a := hout
      rw [← hout]
    | error e => exact absurd hout.symm (message_ne e)
  subst hr'
  unfold Context.command at hc
  obtain ⟨t, c2, h1, h2⟩ := CM.bind_done hc
  obtain ⟨kl, kx', ka, ky', e1, e2, e3, e4, L, X, A, Y, d1, d2, d3, d4, f1, f2, f3, f4, f5⟩ := hu t c2 h1
  have sym : ∀ t : Str, t ∈ [str% "let", str% "->"] → IsSymbol t := by
    intro t ht
    simp only [List.mem_cons, List.not_mem_nil, or_false] at ht
    rcases ht with rfl | rfl <;> exact ⟨by decide, by simp [SymbolChar]; decide⟩
  obtain ⟨pL, rfl⟩ := leaf_known (sym _ (by simp)) (by decide) hl e1 f1
  obtain ⟨pA, rfl⟩ := leaf_known (sym _ (by simp)) (by decide) hr e3 f3
  have hv : (⟨d1.snap, d1.delta⟩ : View) = ⟨d1.snap, .base (Delta.empty 0)⟩ := by rw [hd]; rfl
  -- the leaves of the two words
  obtain ⟨d, ix, iy, g1, g2, g3, g4, g5, g6, g7, g8, g9, g10, g11, g12, g13, g14, g15, g16⟩ : ∃ d ix iy, d4.snap = d1.snap ∧
      d4.delta = .base d ∧
      PlainCache (· ∈ [.com (builtin .letCmd), ix, .com (builtin .reduction), iy]) d4.cache ∧ Pending d1.snap d ∧ Word d1.snap d ix x ∧ Word d1.snap d iy y ∧
      Plain ix X ∧ Plain iy Y ∧ ix ≠ iy ∧ Trace d1.snap Nested.default (.base d) ∧
      (∀ p ∈ d.order, Introduces p) ∧
      (∀ i, ix = .com i → (View.mk d1.snap d1.delta).conceptFromLabel n x = .ok (some (.com i))) ∧ 
      (∀ j, iy = .com j → (View.mk d1.snap d1.delta).conceptFromLabel n y = .ok (some (.com j)) ∧
        ∀ k, ¬ComposedOf d1.snap k (builtin .reduction) j) ∧
      (∀ u, ix = .unc u → NewWord d1.snap x) ∧ (∀ u, iy = .unc u → NewWord d1.snap y) ∧ Shape d x y ix iy := by
    obtain ⟨s, dd, ca, vs, b, p⟩ := d1
    have hd : dd = Nested.base (Delta.empty 0) := hd
    subst hd
    rcases kx with nx | ⟨i, li, hi, wi⟩
    · obtain ⟨ix, n1, pX, ⟨_, fo1⟩⟩ := leaf_new hx vx hs.strings hv nx rfl rfl (pending_none hs) e2 f2
      rw [introduce_one] at n1
      cases n1
      rcases ky with ny | ⟨j, lj, hj, wj, hu⟩
      · obtain ⟨iy, n2, pY, ⟨_, fo2⟩⟩ := leaf_new (c := ⟨s, .base (oneName x), .empty, vs, b, p⟩) hy vy
          hs.strings hv ny rfl (by simp [oneName, AMap.get?, hne]) (pending_one hs x) e4 f4
        rw [introduce_two _ _ _ _ _ hne] at n2
        cases n2
        refine ⟨_, _, _, rfl, rfl, .empty, pending_two hs x y, ⟨vx, .inr ⟨_, rfl, fresh_first s x y⟩⟩,
          ⟨vy, .inr ⟨_, rfl, fresh_second s x y⟩⟩, pX, pY, by simp, fo1.trans fo2, ?_,
          by rintro i ⟨⟩, by rintro i ⟨⟩, fun _ _ => nx, fun _ _ => ny, .two⟩
        simp [twoNames, oneName, Introduces]
      · obtain ⟨pY, rfl⟩ := leaf_known hy vy lj e4 f4
        refine ⟨_, _, _, rfl, rfl, .empty, pending_one hs x, ⟨vx, .inr ⟨_, rfl, fresh_one s x⟩⟩,
          ⟨vy, .inl ⟨_, rfl, hj, wj⟩⟩, pX, pY, by simp, fo1, ?_, by rintro i ⟨⟩,
          by rintro i ⟨⟩; exact ⟨lj, hu⟩, fun _ _ => nx, by rintro i ⟨⟩, .first j⟩
        simp [oneName, Introduces]
    · obtain ⟨pX, rfl⟩ := leaf_known hx vx li e2 f2
      rcases ky with ny | ⟨j, lj, hj, wj, hu⟩
      · obtain ⟨iy, n2, pY, ⟨_, fo2⟩⟩ := leaf_new hy vy hs.strings hv ny rfl rfl (pending_none hs) e4 f4
        rw [introduce_one] at n2
        cases n2
        refine ⟨_, _, _, rfl, rfl, .empty, pending_one hs y, ⟨vx, .inl ⟨_, rfl, hi, wi⟩⟩,
          ⟨vy, .inr ⟨_, rfl, fresh_one s y⟩⟩, pX, pY, by simp, fo2, ?_, by rintro i ⟨⟩; exact li,
          by rintro i ⟨⟩, by rintro i ⟨⟩, fun _ _ => ny, .second i⟩
        simp [oneName, Introduces]
      · obtain ⟨pY, rfl⟩ := leaf_known hy vy lj e4 f4
        have hca : PlainCache (· ∈ [.com (builtin .letCmd), .com i, .com (builtin .reduction), .com j]) ca := by
          have known : ∀ {i t}, PlainWord s i t → ¬NewWord s t := by
            rintro i t w hn
            obtain ⟨_, k, _, _, hk⟩ := w.name
            exact hn k hk
          rcases hca with h | h | h
          · exact h i j li lj
          · exact absurd h (known wi)
          · exact absurd h (known wj)
        refine ⟨_, _, _, rfl, rfl, hca, pending_none hs, ⟨vx, .inl ⟨_, rfl, hi, wi⟩⟩,
          ⟨vy, .inl ⟨_, rfl, hj, wj⟩⟩, pX, pY, ?_, .refl, by simp [Delta.empty], by rintro i ⟨⟩; exact li,
          by rintro i ⟨⟩; exact ⟨lj, hu⟩, by rintro i ⟨⟩, by rintro i ⟨⟩, .none i j⟩
        intro e
        cases e
        exact hne (symbols_distinct_partial h li lj)
  have ready : Ready d4 (.com (builtin .letCmd)) ix (.com (builtin .reduction)) iy := by
    rw [← g1] at hs hcomp wl wr g4 g5 g6 bi
    exact ready_pending hs hcomp.1 hcomp.2 g2 g4 g3 wl wr g5 g6 (bi _) (bi _) g9
      (fun k j e => g1 ▸ (g13 j e).2 k)
  obtain ⟨⟨s1, s2, v1, w1, v2, w2, rfl⟩, ready2, es, ed⟩ := f5 _ _ _ _ ready pL g7 pA g8
  have tau := learn ready2 (by obtain ⟨_, _, rfl, _⟩ := pL; rfl) g7 pA (by obtain ⟨_, _, rfl, _⟩ := g8; rfl) h2
  have tau : Taught (α := Str) d4 ix iy (.ok []) c1 := by
    unfold Taught at tau ⊢
    rw [es, ed] at tau
    exact tau
  exact ⟨d, ix, iy, d4, c1, hcmd, ha, g1, g2, g5, g6, g10, g11, g12, fun j e => (g13 j e).1, g14, g15, g16, g9, tau⟩

/-- C54: if `let (x (-> y))` is answered with the empty text, then the concept of `x` now reduces to that of
`y` and to nothing else, and every other stored concept has the reduction, the definition, the string and
the meaning to the program it had. What is new in the store serves to name the words. A word that is known is taken for the concept it stands for, and a new
word names a new concept. Missing: words that are defined as a composition, a history in which a reduction
was replaced or a definition changed, two known words while the cache is not empty, a stored concept
`-> y`, the word `label_of`, and the command without the brackets. -/
theorem taught_reduces_partial [HashOrder] {c c' : Ctx}
    (h : History (fun s p => ReducesFresh s p ∧ KeepsDefinitions s p) c)
    {n : Nat} {x y : Str} (hx : IsSymbol x) (hy : IsSymbol y) (hne : x ≠ y)
    (vx : Syn.isVariableName x = false) (vy : Syn.isVariableName y = false)
    (hl : (View.mk c.snap c.delta).conceptFromLabel n (str% "let") = .ok (some (.com (builtin .letCmd))))
    (hr : (View.mk c.snap c.delta).conceptFromLabel n (str% "->") = .ok (some (.com (builtin .reduction))))
    (kx : NewWord c.snap x ∨ ∃ i, (View.mk c.snap c.delta).conceptFromLabel n x = .ok (some (.com i)) ∧
      i ≠ builtin .label ∧ PlainWord c.snap i x)
    (ky : NewWord c.snap y ∨ ∃ j, (View.mk c.snap c.delta).conceptFromLabel n y = .ok (some (.com j)) ∧
      j ≠ builtin .label ∧ PlainWord c.snap j y ∧ ∀ k, ¬ComposedOf c.snap k (builtin .reduction) j)
    (hca : c.cache = .empty ∨ NewWord c.snap x ∨ NewWord c.snap y)
    (he : Context.execute n c (teaching x y) = .ok ([], c')) :
    ∃ i j, TakenFor n c c' x i ∧ TakenFor n c c' y j ∧ Learnt c.snap c'.snap i j ∧
      OnlyNamed c.snap c'.snap x y := by
  have hs := History.nameable h
  have hse := History.settled h
  have hcomp := History.comps (History.mono (fun _ _ h => h.2) h)
  obtain ⟨d, ix, iy, c4, c1, _, ha, _, g2, g5, g6, g10, g11, g12, g13, g14, g15, shp, _, tau⟩ :=
    teaching_command h (learns_teaching hx hy) hx hy hne vx vy hl hr kx ky (hca.imp_left fun e _ _ _ _ => by rw [e]; exact .empty) he
  obtain ⟨i, j, hi, hj, hlearn⟩ := taught_pending hs hcomp.1 hse.prev g2 g10 g11 g5 g6 tau ha
  refine ⟨i, j, ?_, ?_, hlearn, onlyNamed_of hs.refs g2 shp hne (fun i e => ?_) tau ha⟩
  · rcases hi with e | ⟨⟨u, e⟩, h1, h2⟩
    · exact .inl (g12 i e)
    · exact .inr ⟨g14 u e, h1, h2⟩
  · rcases hj with e | ⟨⟨u, e⟩, h1, h2⟩
    · exact .inl (g13 j e)
    · exact .inr ⟨g15 u e, h1, h2⟩
  · obtain ⟨_, e1, ⟨k, _, hk, _⟩, _⟩ := lookup_named_partial h (g12 i e)
    cases e1
    exact (composedOf_lt hs.refs hk).2

section

open Insertion

set_option maxRecDepth 100000

theorem newWord_of_check {s : Snap} {t : Str} (h : s.concepts.all (fun c => decide (c.string ≠ some t)) = true) :
    NewWord s t := by
  rintro k ⟨c, hc, e⟩
  have := List.all_eq_true.1 h c (List.mem_of_getElem? hc)
  simp [e] at this

theorem plain_of_check {s : Snap} {i : Nat} {t : Str} (hn : HasName s i t)
    (h : (s.concepts[i]?).map (fun c => (c.composition, c.string)) = some (none, none))
    (hv : Syn.isVariableName t = false) : PlainWord s i t := by
  rw [Option.map_eq_some_iff] at h
  obtain ⟨c, hc, e⟩ := h
  refine ⟨hn, ?_, ?_, hv⟩
  · rintro l r ⟨c', hc', e'⟩
    rw [hc] at hc'; cases hc'
    rw [(Prod.mk.inj e).1] at e'; cases e'
  · rintro u ⟨c', hc', e'⟩
    rw [hc] at hc'; cases hc'
    rw [(Prod.mk.inj e).2] at e'; cases e'

/-- Two new words in a new context. -/
theorem taught_new : ∃ i j, TakenFor 60 boot Witness.taught1 (str% "a") i ∧
    TakenFor 60 boot Witness.taught1 (str% "b") j ∧ Learnt boot.snap Witness.taught1.snap i j ∧
    OnlyNamed boot.snap Witness.taught1.snap (str% "a") (str% "b") :=
  taught_reduces_partial boot_calm ⟨by decide, by simp [SymbolChar]; decide⟩
    ⟨by decide, by simp [SymbolChar]; decide⟩ (by decide) (by decide) (by decide) (by decide +kernel)
    (by decide +kernel) (.inl (newWord_of_check (by decide +kernel)))
    (.inl (newWord_of_check (by decide +kernel))) (.inl rfl) Witness.taught1_eq

/-- A known word and a new one: the word `b` is known from the command before. -/
example : ∃ i j, TakenFor 60 Witness.taught1 Witness.taught2 (str% "b") i ∧
    TakenFor 60 Witness.taught1 Witness.taught2 (str% "c") j ∧
    Learnt Witness.taught1.snap Witness.taught2.snap i j ∧
    OnlyNamed Witness.taught1.snap Witness.taught2.snap (str% "b") (str% "c") := by
  have hb : (View.mk Witness.taught1.snap Witness.taught1.delta).conceptFromLabel 60 (str% "b") =
    .ok (some (.com 85)) := by decide +kernel
  have hc : History Calm Witness.taught1 :=
    History.check (fun _ _ => of_calm) boot_calm Witness.taught1_eq (by decide +kernel)
  obtain ⟨_, e, hn, _⟩ := lookup_named_partial hc hb
  cases e
  exact taught_reduces_partial hc ⟨by decide, by simp [SymbolChar]; decide⟩
    ⟨by decide, by simp [SymbolChar]; decide⟩ (by decide) (by decide) (by decide) (by decide +kernel)
    (by decide +kernel)
    (.inr ⟨85, hb, by decide, plain_of_check hn (by decide +kernel) (by decide)⟩)
    (.inl (newWord_of_check (by decide +kernel))) (.inl (by decide +kernel)) Witness.taught2_eq

end

end Zia.Props

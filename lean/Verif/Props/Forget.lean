import Verif.Lemmas.Forget
import Verif.Props.Learn
import Verif.Witness.Forget

/-!
# Forgetting a reduction
-/

namespace Zia.Props

open Spec

/-- The text of the command that forgets the reduction of `x`. -/
theorem forgetting_text (x : Str) : forgetting x = str% "forget " ++ x := rfl

/-! ## C55: what is forgotten is forgotten -/

/-- C55: the command `forget x` is answered with the empty text if and only if the concept of `x` reduces to
something. Then that concept reduces to nothing and every other concept has the reduction, and every concept
the definition, the string and the meaning to the program, that it had. Otherwise the answer is a message
and the store is what it was. Missing: words that are defined as a composition, a history in which a
reduction was replaced or a definition changed, and a cache with another tree for one of the two words. -/
theorem forget_forgets_partial [HashOrder] {c c' : Ctx}
    (h : History (fun s p => ReducesFresh s p ∧ KeepsDefinitions s p) c)
    {n : Nat} {x out : Str} (hx : IsSymbol x)
    (hf : (View.mk c.snap c.delta).conceptFromLabel n (str% "forget") = .ok (some (.com (builtin .forget))))
    {i : Nat} (hi : (View.mk c.snap c.delta).conceptFromLabel n x = .ok (some (.com i)))
    (wx : PlainWord c.snap i x)
    (hca : ∀ k t, k = builtin .forget ∨ k = i → c.cache.syntaxTree? (.com k) = some t → Plain (.com k) t)
    (he : Context.execute n c (forgetting x) = .ok (out, c')) :
    (out = [] ↔ ∃ j, ReducesTo c.snap i j) ∧ (out = [] → Forgotten c.snap c'.snap i) ∧
      (out ≠ [] → c'.snap = c.snap) := by
  have hs := History.nameable h
  have hse := History.settled h
  have hcomp := History.comps (History.mono (fun _ _ h => h.2) h)
  obtain ⟨k, hk, ek⟩ : Conc c.snap (builtin .forget) .forget := ((History.concrete h).2 _ _).2 ⟨_, rfl, rfl⟩
  have bf : IsBuiltIn c.snap (builtin .forget) .forget := ⟨k, hk, by simp [Concept.cct, ek]⟩
  have wf : PlainWord c.snap (builtin .forget) (str% "forget") := by
    obtain ⟨_, e, hn, _⟩ := lookup_named_partial h hf
    cases e
    refine ⟨hn, ?_, ?_, by decide⟩
    · rintro l r ⟨k', hk', hp⟩
      rw [hk] at hk'; cases hk'
      simp [composition_eq, ek, pairOf] at hp
    · intro w hw
      rw [isString_specs] at hw
      simp [specs, look, hk, ek] at hw
  have hc : PlainCache (· ∈ [CId.com (builtin .forget), .com i]) c.cache := by
    intro id t ht hid
    simp only [List.mem_cons, List.not_mem_nil, or_false] at hid
    rcases hid with rfl | rfl
    · exact hca _ _ (.inl rfl) ht
    · exact hca _ _ (.inr rfl) ht
  obtain ⟨r, c1, hcmd, _, ha, _, _, _, hout⟩ := execute_command he
  obtain ⟨_, ⟨j, hj, rfl, id, hu⟩ | ⟨hno, hd, s, rfl⟩⟩ :=
    forget_ends hse.delta (History.unpinned h) hs hcomp.1 hcomp.2 hx wf wx bf hc hf hi r c1 hcmd
  · have hout : out = [] := hout
    subst hout
    exact ⟨⟨fun _ => ⟨j, hj⟩, fun _ => rfl⟩, fun _ => forgotten_store hse.refs hse.delta hu ha, fun h => absurd rfl h⟩
  · have hout : out = (ZiaError.redundantReduction s).message := hout
    have hne : out ≠ [] := hout ▸ message_ne _
    refine ⟨⟨fun h => absurd h hne, fun ⟨j, hj⟩ => absurd hj (hno j)⟩, fun h => absurd h hne, fun _ => ?_⟩
    rw [hd, hse.delta] at ha
    exact apply_nothing hse.prev ha

/-- Forgetting undoes teaching: if the concept had no reduction before it was taught one, then after
forgetting it what was stored before is as it was. -/
theorem forgetting_undoes {s s1 s2 : Snap} {i j : Nat} (h : Learnt s s1 i j) (h' : Forgotten s1 s2 i)
    (hn : ∀ m, ¬ReducesTo s i m) : ∀ k, k < s.concepts.length →
      (∀ m, ReducesTo s2 k m ↔ ReducesTo s k m) ∧ (∀ l r, ComposedOf s2 k l r ↔ ComposedOf s k l r) ∧
      (∀ t, IsString s2 k t ↔ IsString s k t) ∧ ∀ t, IsBuiltIn s2 k t ↔ IsBuiltIn s k t := by
  intro k hk
  refine ⟨fun m => ?_, fun l r => (h'.definitions _ _ _).trans (h.definitions _ _ _ hk),
    fun t => (h'.strings _ _).trans (h.strings _ _ hk), fun t => (h'.builtIns _ _).trans (h.builtIns _ _ hk)⟩
  by_cases e : k = i
  · subst e
    exact ⟨fun a => absurd a (h'.gone m), fun a => absurd a (hn m)⟩
  · exact (h'.reductions _ _ e).trans (h.reductions _ _ hk e)

section

open Insertion

set_option maxRecDepth 100000

/-- The word `a`, which was taught to reduce to `b`, is forgotten. -/
example : Forgotten Witness.taught1.snap Witness.forgot2.snap 82 := by
  have ha : (View.mk Witness.taught1.snap Witness.taught1.delta).conceptFromLabel 60 (str% "a") =
    .ok (some (.com 82)) := by decide +kernel
  have hc : History Calm Witness.taught1 :=
    History.check (fun _ _ => of_calm) boot_calm Witness.taught1_eq (by decide +kernel)
  obtain ⟨_, e, hn, _⟩ := lookup_named_partial hc ha
  cases e
  have hca : Witness.taught1.cache = .empty := by decide +kernel
  exact (forget_forgets_partial hc ⟨by decide, by simp [SymbolChar]; decide⟩ (by decide +kernel) ha
    (plain_of_check hn (by decide +kernel) (by decide)) (by
      intro k t _ h
      rw [hca] at h
      cases h) Witness.forgot2_eq).2.1 rfl

/-- It cannot be forgotten twice. -/
example : Witness.forgot3.snap = Witness.forgot2.snap ∧ ∀ j, ¬ReducesTo Witness.forgot2.snap 82 j := by
  have ha : (View.mk Witness.forgot2.snap Witness.forgot2.delta).conceptFromLabel 60 (str% "a") =
    .ok (some (.com 82)) := by decide +kernel
  have hc : History Calm Witness.forgot2 :=
    History.check (fun _ _ => of_calm) (History.check (fun _ _ => of_calm) boot_calm Witness.taught1_eq
      (by decide +kernel)) Witness.forgot2_eq (by decide +kernel)
  obtain ⟨_, e, hn, _⟩ := lookup_named_partial hc ha
  cases e
  have hca : Witness.forgot2.cache = .empty := by decide +kernel
  have := forget_forgets_partial hc ⟨by decide, by simp [SymbolChar]; decide⟩ (by decide +kernel) ha
    (plain_of_check hn (by decide +kernel) (by decide)) (by
      intro k t _ h
      rw [hca] at h
      cases h) Witness.forgot3_eq
  exact ⟨this.2.2 (by decide), fun j hj => absurd (this.1.2 ⟨j, hj⟩) (by decide)⟩

end

end Zia.Props

import Verif.Lemmas.Told
import Verif.Props.Query

/-!
# Asking what was taught
-/

namespace Zia.Props

open Spec

/-! ## C57: what was taught is answered -/

/-- What the command makes of a context, and of the store concept by concept. -/
theorem told_command [HashOrder] {c c' : Ctx}
    (h : History (fun s p => ReducesFresh s p ∧ KeepsDefinitions s p) c)
    {n : Nat} {u x y : Str} (hu : Learns n u x y c) (hx : IsSymbol x) (hy : IsSymbol y) (hne : x ≠ y)
    (vx : Syn.isVariableName x = false) (vy : Syn.isVariableName y = false)
    (hl : (View.mk c.snap c.delta).conceptFromLabel n (str% "let") = .ok (some (.com (builtin .letCmd))))
    (hr : (View.mk c.snap c.delta).conceptFromLabel n (str% "->") = .ok (some (.com (builtin .reduction))))
    (kx : NewWord c.snap x ∨ ∃ i, (View.mk c.snap c.delta).conceptFromLabel n x = .ok (some (.com i)) ∧
      PlainWord c.snap i x ∧ Unconnected c.snap i ∧ (∀ k, ¬ReducesTo c.snap i k))
    (ky : NewWord c.snap y ∨ ∃ j, (View.mk c.snap c.delta).conceptFromLabel n y = .ok (some (.com j)) ∧
      PlainWord c.snap j y ∧ ∀ q, Relation.ReflTransGen (ReducesTo c.snap) j q →
        (∃ t, PlainWord c.snap q t) ∧ Unconnected c.snap q)
    (hca : (∀ i j, (View.mk c.snap c.delta).conceptFromLabel n x = .ok (some (.com i)) →
        (View.mk c.snap c.delta).conceptFromLabel n y = .ok (some (.com j)) →
        PlainCache (· ∈ [.com (builtin .letCmd), .com i, .com (builtin .reduction), .com j]) c.cache) ∨
      NewWord c.snap x ∨ NewWord c.snap y)
    (he : Context.execute n c u = .ok ([], c')) :
    ∃ i j N, Told c.snap c'.snap N i j ∧ Untold c.snap N i j ∧
      History (fun s p => ReducesFresh s p ∧ KeepsDefinitions s p) c' ∧ c'.cache = .empty ∧
      (∀ t ∈ N, (t = x ∨ t = y) ∧ NewWord c.snap t) ∧
      (∀ t, t ∉ N → (View.mk c'.snap c'.delta).conceptFromLabel n t = (View.mk c.snap c.delta).conceptFromLabel n t) ∧
      (∀ m t, N[m]? = some t → (View.mk c'.snap c'.delta).conceptFromLabel n t =
        .ok (some (.com (c.snap.concepts.length + 3 * m + 2)))) ∧
      (View.mk c'.snap c'.delta).conceptFromLabel n x = .ok (some (.com i)) ∧
      (View.mk c'.snap c'.delta).conceptFromLabel n y = .ok (some (.com j)) ∧
      ((View.mk c.snap c.delta).conceptFromLabel n x = .ok (some (.com i)) ∨
        ∃ m, N[m]? = some x ∧ i = c.snap.concepts.length + 3 * m + 2) ∧
      ((View.mk c.snap c.delta).conceptFromLabel n y = .ok (some (.com j)) ∨
        ∃ m, N[m]? = some y ∧ j = c.snap.concepts.length + 3 * m + 2) := by
  have hs := History.nameable h
  have notLabel : ∀ {i t}, PlainWord c.snap i t → Unconnected c.snap i → i ≠ builtin .label := by
    rintro i t hw hu rfl
    obtain ⟨k, _, hk, _⟩ := hw.name
    exact hu.left _ _ hk
  obtain ⟨d, ix, iy, c4, c1, hcmd, hap, _, g2, g5, g6, _, g11, g12, g13, g14, g15, shp, _, tau⟩ :=
    teaching_command h hu hx hy hne vx vy hl hr
      (kx.imp_right fun ⟨i, h1, h2, h3, _⟩ => ⟨i, h1, notLabel h2 h3, h2⟩)
      (ky.imp_right fun ⟨j, h1, h2, h3⟩ => ⟨j, h1, notLabel h2 (h3 j .refl).2, h2, fun k hk =>
        absurd ((h3 j .refl).2.right k _ hk) (by decide)⟩) hca he
  have lt : ∀ {i t}, PlainWord c.snap i t → i < c.snap.concepts.length := by
    rintro i t hw
    obtain ⟨k, _, hk, _⟩ := hw.name
    exact (composedOf_lt hs.refs hk).2
  have known' : ∀ {m i t}, (View.mk c.snap c.delta).conceptFromLabel m t = .ok (some (.com i)) → ¬NewWord c.snap t := by
    intro m i t hm hn
    obtain ⟨_, e, ⟨_, k, _, _, hk⟩, _⟩ := lookup_named_partial h hm
    exact hn k hk
  have kx' : ∀ i, ix = .com i → (∃ t, PlainWord c.snap i t) ∧ Unconnected c.snap i ∧ ∀ k, ¬ReducesTo c.snap i k := by
    intro i e
    have h1 := g12 i e
    rcases kx with hn | ⟨i', h2, h3, h4, h5⟩
    · exact absurd hn (known' h1)
    · rw [h1] at h2
      cases h2
      exact ⟨⟨_, h3⟩, h4, h5⟩
  have ky' : ∀ j, iy = .com j → ∀ q, Relation.ReflTransGen (ReducesTo c.snap) j q →
        (∃ t, PlainWord c.snap q t) ∧ Unconnected c.snap q := by
    intro j e
    have h1 := g13 j e
    rcases ky with hn | ⟨j', h2, h3, h4⟩
    · exact absurd hn (known' h1)
    · rw [h1] at h2
      cases h2
      exact h4
  have hrv0 := History.redRev (History.mono (fun _ _ h => h.1) h)
  obtain ⟨i, j, N, T, hnd, hN, hi, hj, hfr, htab, hcalm⟩ := told_of hs.refs hrv0 g2 shp hne
    (fun i e => by
      obtain ⟨⟨t, ht⟩, _, h3⟩ := kx' i e
      exact ⟨lt ht, ht.simple, h3⟩)
    (fun j e => by
      obtain ⟨⟨t, ht⟩, _⟩ := ky' j e j .refl
      exact lt ht) g11 tau hap
  have U : Untold c.snap N i j := by
    refine ⟨hs, ?_, ?_, ?_⟩
    · intro t ht
      rcases hN t ht with ⟨rfl, _⟩ | ⟨rfl, _⟩
      exacts [vx, vy]
    · intro hlt
      rcases hi with e | ⟨_, m, _, e⟩
      · exact kx' i e
      · omega
    · intro hlt
      rcases hj with e | ⟨_, m, _, e⟩
      · exact ky' j e
      · omega
  have h' : History (fun s p => ReducesFresh s p ∧ KeepsDefinitions s p) c' := by
    refine .step h he fun r c1' hc1 g p rest before e1 e2 => ?_
    rw [hcmd] at hc1
    cases hc1
    exact hcalm g p rest before e1 e2
  have hcache : c'.cache = .empty := by
    simp only [Context.execute, hcmd, Except.bind_eq_ok] at he
    obtain ⟨⟨x', c1'⟩, h1, c2, h2, h3⟩ := he
    cases h1
    simp only [Context.commit, Except.bind_eq_ok, Except.pure_eq_ok] at h2
    obtain ⟨s2, h2, rfl⟩ := h2
    cases h3
    exact tau.2.1
  have hrv := History.redRev (History.mono (fun _ _ h => h.1) h')
  have hd' := (History.settled h').delta
  have hnew : ∀ t ∈ N, (t = x ∨ t = y) ∧ NewWord c.snap t := by
    intro t ht
    rcases hN t ht with ⟨rfl, u, e⟩ | ⟨rfl, u, e⟩
    exacts [⟨.inl rfl, g14 u e⟩, ⟨.inr rfl, g15 u e⟩]
  have hold : ∀ t, t ∉ N →
      (View.mk c'.snap c'.delta).conceptFromLabel n t = (View.mk c.snap c.delta).conceptFromLabel n t := by
    intro t ht
    rw [hd', T.sameLookup U hrv0 hfr (htab t ht) n, ← (History.settled h).delta]
  have hfresh : ∀ m t, N[m]? = some t → (View.mk c'.snap c'.delta).conceptFromLabel n t =
      .ok (some (.com (c.snap.concepts.length + 3 * m + 2))) := by
    intro m t hm
    have hn : ∃ k, n = k + 1 := by
      cases n with
      | succ k => exact ⟨k, rfl⟩
      | zero =>
        exfalso
        unfold View.conceptFromLabel at hl
        cases hst : (View.mk c.snap c.delta).stringConcept (str% "let") with
        | error e => rw [hst] at hl; cases hl
        | ok o =>
          rw [hst] at hl
          cases o with
          | none => cases hl
          | some z =>
            have hl : ((View.mk c.snap c.delta).read z >>= fun m =>
              (View.mk c.snap c.delta).labelleeLoop 0 m.reducesFrom) = _ := hl
            rw [Except.bind_eq_ok] at hl
            obtain ⟨_, _, hl⟩ := hl
            cases hl
    obtain ⟨k, rfl⟩ := hn
    have hstr : IsString c'.snap (c.snap.concepts.length + 3 * m) t := T.strings.2 (.inr ⟨m, hm, rfl⟩)
    obtain ⟨z, hz⟩ := (string_table_exact (History.reachable h') t).2 ⟨_, hstr⟩
    rw [hd']
    refine T.lookup (History.nameable h') (History.redFwd h') hrv hnd hm (hnew t (List.mem_of_getElem? hm)).2 hz ?_ hs.refs
    obtain ⟨k, hk, e⟩ := ((History.concrete h').2 _ _).2
      (show Conc boot0.snap (builtin .label) .label from ⟨_, rfl, rfl⟩)
    exact ⟨k, hk, by simp [Concept.cct, e]⟩
  have hi' : (View.mk c.snap c.delta).conceptFromLabel n x = .ok (some (.com i)) ∨
      ∃ m, N[m]? = some x ∧ i = c.snap.concepts.length + 3 * m + 2 := by
    rcases hi with e | ⟨_, h⟩
    exacts [.inl (g12 i e), .inr h]
  have hj' : (View.mk c.snap c.delta).conceptFromLabel n y = .ok (some (.com j)) ∨
      ∃ m, N[m]? = some y ∧ j = c.snap.concepts.length + 3 * m + 2 := by
    rcases hj with e | ⟨_, h⟩
    exacts [.inl (g13 j e), .inr h]
  have found : ∀ {t k}, ((View.mk c.snap c.delta).conceptFromLabel n t = .ok (some (.com k)) ∨
      ∃ m, N[m]? = some t ∧ k = c.snap.concepts.length + 3 * m + 2) →
      (View.mk c'.snap c'.delta).conceptFromLabel n t = .ok (some (.com k)) := by
    rintro t k (h1 | ⟨m, hm, rfl⟩)
    · rw [hold t fun ht => known' h1 (hnew t ht).2, h1]
    · exact hfresh m t hm
  exact ⟨i, j, N, T, U, h', hcache, hnew, hold, hfresh, found hi', found hj', hi', hj'⟩

/-- C57: after `let (x (-> y))` was answered with the empty text, `x` is answered with what `y` was answered
with, which is `y` itself if that word was new. Missing: what is missing for C54 and C56, and a known word `x`
that already reduces to something. -/
theorem taught_answered_partial [HashOrder] {c c' c'' : Ctx}
    (h : History (fun s p => ReducesFresh s p ∧ KeepsDefinitions s p) c) (hb : NoBlanketRule c.snap)
    {n : Nat} {x y out : Str} (hx : IsSymbol x) (hy : IsSymbol y) (hne : x ≠ y)
    (vx : Syn.isVariableName x = false) (vy : Syn.isVariableName y = false)
    (hl : (View.mk c.snap c.delta).conceptFromLabel n (str% "let") = .ok (some (.com (builtin .letCmd))))
    (hr : (View.mk c.snap c.delta).conceptFromLabel n (str% "->") = .ok (some (.com (builtin .reduction))))
    (kx : NewWord c.snap x ∨ ∃ i, (View.mk c.snap c.delta).conceptFromLabel n x = .ok (some (.com i)) ∧
      PlainWord c.snap i x ∧ Unconnected c.snap i ∧ (∀ k, ¬ReducesTo c.snap i k))
    (ky : NewWord c.snap y ∨ ∃ j, (View.mk c.snap c.delta).conceptFromLabel n y = .ok (some (.com j)) ∧
      PlainWord c.snap j y ∧ ∀ q, Relation.ReflTransGen (ReducesTo c.snap) j q →
        (∃ t, PlainWord c.snap q t) ∧ Unconnected c.snap q)
    (hca : c.cache = .empty ∨ NewWord c.snap x ∨ NewWord c.snap y)
    (he : Context.execute n c (teaching x y) = .ok ([], c'))
    (ha : Context.execute n c' x = .ok (out, c'')) :
    c''.snap = c'.snap ∧ (NewWord c.snap y → out = y) ∧
      ∀ j, (View.mk c.snap c.delta).conceptFromLabel n y = .ok (some (.com j)) → Answer c.snap j out := by
  have hs := History.nameable h
  have known' : ∀ {m i t}, (View.mk c.snap c.delta).conceptFromLabel m t = .ok (some (.com i)) →
      i < c.snap.concepts.length ∧ ¬NewWord c.snap t := by
    intro m i t hm
    obtain ⟨_, e, ⟨_, k, hc, _, hk⟩, _⟩ := lookup_named_partial h hm
    cases e
    exact ⟨(composedOf_lt hs.refs hc).2, fun hn => hn k hk⟩
  obtain ⟨i, j, N, T, U, h', hcache, hnew, _, _, hlook, _, _, hj⟩ :=
    told_command h (learns_teaching hx hy) hx hy hne vx vy hl hr kx ky (hca.imp_left fun e _ _ _ _ => by rw [e]; exact .empty) he
  have hrv := History.redRev (History.mono (fun _ _ h => h.1) h')
  have hrun : Context.run n c' [x] = .ok ([out], c'') := by
    simp [Context.run, ha]
    rfl
  obtain ⟨hsn, hall⟩ := words_answered_partial h' hcache (T.noBlanketRule U hb (History.redFwd h) hrv) (by
    intro x' hx'
    simp only [List.mem_cons, List.not_mem_nil, or_false] at hx'
    subst hx'
    refine ⟨hx, vx, i, hlook, fun q hq => ?_⟩
    rcases Relation.ReflTransGen.cases_head hq with rfl | ⟨q', h1, h2⟩
    · exact T.words U (.inl rfl)
    · rcases T.reduces.1 h1 with ⟨_, rfl⟩ | ⟨hne, _⟩ | ⟨m, _, _, e, _⟩
      · exact T.words U (T.after U h2)
      · exact absurd rfl hne
      · rcases T.first with h | ⟨m', _, _, h⟩ <;> omega) hrun
  have hans : Answer c'.snap i out := by
    cases hall with
    | cons h1 _ =>
      obtain ⟨i', h2, h3⟩ := h1
      rw [hlook] at h2
      cases h2
      exact h3
  obtain ⟨q1, q2⟩ := T.answer U hans
  refine ⟨hsn, fun hn => ?_, fun j' hj' => ?_⟩
  · rcases hj with e | ⟨m, hm, e⟩
    · exact absurd hn (known' e).2
    · exact q2 m y hm e
  · rcases hj with e | ⟨m, hm, _⟩
    · rw [e] at hj'
      cases hj'
      exact q1 (known' e).1
    · exact absurd (hnew y (List.mem_of_getElem? hm)).2 (known' hj').2

section

open Insertion

set_option maxRecDepth 100000

/-- Two new words in a new context: `a` is answered with `b`. -/
example {out : Str} {c'' : Ctx} (ha : Context.execute 60 Witness.taught1 (str% "a") = .ok (out, c'')) :
    out = str% "b" := by
  have hbl : variableNamed boot.snap = [49, 55, 61] := by decide +kernel
  have hq : NoBlanketRule boot.snap := noBlanketRule_sound hbl (by decide +kernel)
  have hm : NewWord boot.snap (str% "a") := newWord_of_check (by decide +kernel)
  have hn : NewWord boot.snap (str% "b") := newWord_of_check (by decide +kernel)
  have hl : (View.mk boot.snap boot.delta).conceptFromLabel 60 (str% "let") =
    .ok (some (.com (builtin .letCmd))) := by decide +kernel
  have hr : (View.mk boot.snap boot.delta).conceptFromLabel 60 (str% "->") =
    .ok (some (.com (builtin .reduction))) := by decide +kernel
  have := taught_answered_partial boot_calm hq (x := str% "a") (y := str% "b")
    ⟨by decide, by simp [SymbolChar]; decide⟩ ⟨by decide, by simp [SymbolChar]; decide⟩ (by decide) (by decide)
    (by decide) hl hr (.inl hm) (.inl hn) (.inl rfl) Witness.taught1_eq ha
  exact this.2.1 hn

/-- A known word and a new one: `b` is answered with `c`. -/
example {out : Str} {c'' : Ctx} (ha : Context.execute 60 Witness.taught2 (str% "b") = .ok (out, c'')) :
    out = str% "c" := by
  have hb : (View.mk Witness.taught1.snap Witness.taught1.delta).conceptFromLabel 60 (str% "b") =
    .ok (some (.com 85)) := by decide +kernel
  have hc : History Calm Witness.taught1 :=
    History.check (fun _ _ => of_calm) boot_calm Witness.taught1_eq (by decide +kernel)
  obtain ⟨_, e, nb, _⟩ := lookup_named_partial hc hb
  cases e
  have pb := plain_of_check nb (by decide +kernel) (by decide)
  have hbl : variableNamed Witness.taught1.snap = [49, 55, 61] := by decide +kernel
  have hto : noneTo [49, 55, 61] Witness.taught1.snap = true := by decide +kernel
  have ub : Unconnected Witness.taught1.snap 85 := unconnected_of_check hbl hto (by decide) (by decide +kernel)
  have hq : NoBlanketRule Witness.taught1.snap := noBlanketRule_sound hbl (by decide +kernel)
  have hn : NewWord Witness.taught1.snap (str% "c") := newWord_of_check (by decide +kernel)
  have hl : (View.mk Witness.taught1.snap Witness.taught1.delta).conceptFromLabel 60 (str% "let") =
    .ok (some (.com (builtin .letCmd))) := by decide +kernel
  have hr : (View.mk Witness.taught1.snap Witness.taught1.delta).conceptFromLabel 60 (str% "->") =
    .ok (some (.com (builtin .reduction))) := by decide +kernel
  have rb : ∀ j, ¬ReducesTo Witness.taught1.snap 85 j := by
    rintro j ⟨c, h1, h2⟩
    have : (Witness.taught1.snap.concepts[85]?).map (·.reduction) = some none := by decide +kernel
    rw [h1] at this
    simp [h2] at this
  have := taught_answered_partial hc hq (x := str% "b") (y := str% "c")
    ⟨by decide, by simp [SymbolChar]; decide⟩ ⟨by decide, by simp [SymbolChar]; decide⟩ (by decide) (by decide)
    (by decide) hl hr (.inr ⟨85, hb, pb, ub, rb⟩) (.inl hn) (.inr (.inr hn)) Witness.taught2_eq ha
  exact this.2.1 hn

end

end Zia.Props

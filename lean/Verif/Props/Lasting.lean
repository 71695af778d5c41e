import Verif.Lemmas.Nature
import Verif.Props.Labels
import Verif.Spec.Nature
import Verif.Witness.Learn

/-!
# C62: nothing that is stored is lost or becomes something else
-/

namespace Zia.Props

open Zia Zia.Spec

section
variable [HashOrder]

/-- C62: whatever command is answered, rejected or not, every stored concept is still stored with its number
and is still what it was: a built-in concept of its type, a text, a variable of its kind, or none of these. -/
theorem concepts_last {n : Nat} {c c' : Ctx} {s r : Str} (h : Reachable c)
    (he : Context.execute n c s = .ok (r, c')) {i : Nat} (hi : i < c.snap.concepts.length) (a : Nature) :
    IsOf c'.snap i a ↔ IsOf c.snap i a := by
  have hs := History.settled h
  have h' : Reachable c' := .step h he (fun _ _ _ _ _ _ _ _ _ => trivial)
  have hid := hs.refs.valid.ids
  have hid' := (History.settled h').refs.valid.ids
  obtain ⟨k, hk⟩ : ∃ k, c.snap.concepts[i]? = some k := ⟨_, List.getElem?_eq_getElem hi⟩
  obtain ⟨k', hk', e⟩ := execute_natural hs he i k hk
  rw [← nature_eq, ← nature_eq] at e
  constructor
  · rintro ⟨x, hx, _, rfl⟩
    rw [hk'] at hx; cases hx
    exact ⟨k, hk, hid i k hk, e.symm⟩
  · rintro ⟨x, hx, _, rfl⟩
    rw [hk] at hx; cases hx
    exact ⟨k', hk', hid' i k' hk', e⟩

/-- C62: the store never shrinks. -/
theorem store_grows {n : Nat} {c c' : Ctx} {s r : Str} (h : Reachable c)
    (he : Context.execute n c s = .ok (r, c')) : c.snap.concepts.length ≤ c'.snap.concepts.length := by
  have key := execute_natural (History.settled h) he
  rcases Nat.lt_or_ge c'.snap.concepts.length c.snap.concepts.length with hl | hl
  · obtain ⟨k', hk', _⟩ := key _ _ (List.getElem?_eq_getElem hl)
    rw [List.getElem?_eq_none (Nat.le_refl _)] at hk'
    cases hk'
  · exact hl

/-- C62: a text that has been heard stays known. -/
theorem texts_last {n : Nat} {c c' : Ctx} {s r : Str} (h : Reachable c)
    (he : Context.execute n c s = .ok (r, c')) {t : Str} (ht : ∃ i, c.snap.stringMap.get? t = some i) :
    ∃ i, c'.snap.stringMap.get? t = some i := by
  obtain ⟨i, hi⟩ := ht
  have h' : Reachable c' := .step h he (fun _ _ _ _ _ _ _ _ _ => trivial)
  obtain ⟨k, hk, hs⟩ := isString_iff.1 ((string_table_exact h t).1 i hi)
  have hn : IsOf c.snap i (.text t) :=
    ⟨k, hk, (History.settled h).refs.valid.ids i k hk, by simp [nature, hs]⟩
  obtain ⟨k', hk', _, e⟩ := (concepts_last h he (lt_of_get hk) _).2 hn
  refine (string_table_exact h' t).2 ⟨i, k', hk', ?_⟩
  unfold nature at e
  unfold Concept.string
  split at e <;> simp_all

/-- C62, for a session: after any number of commands the concepts of its start are still there and are what
they were. -/
theorem session_lasts {n : Nat} {ss rs : List Str} {c c' : Ctx} (h : Reachable c)
    (he : Context.run n c ss = .ok (rs, c')) :
    Reachable c' ∧ c.snap.concepts.length ≤ c'.snap.concepts.length ∧
    (∀ i < c.snap.concepts.length, ∀ a, IsOf c'.snap i a ↔ IsOf c.snap i a) ∧
    ∀ t, (∃ i, c.snap.stringMap.get? t = some i) → ∃ i, c'.snap.stringMap.get? t = some i := by
  induction ss generalizing c rs with
  | nil => cases he; exact ⟨h, Nat.le_refl _, fun _ _ _ => .rfl, fun _ h => h⟩
  | cons s ss ih =>
    simp only [Context.run, Except.bind_eq_ok, Except.pure_eq_ok] at he
    obtain ⟨⟨r, c1⟩, h1, ⟨rs', c2⟩, h2, e⟩ := he
    cases e
    obtain ⟨a1, a2, a3, a4⟩ := ih (.step h h1 (fun _ _ _ _ _ _ _ _ _ => trivial)) h2
    have hl := store_grows h h1
    exact ⟨a1, hl.trans a2, fun i hi a => (a3 i (by omega) a).trans (concepts_last h h1 hi a),
      fun t ht => a4 t (texts_last h h1 ht)⟩

end

open Insertion

/-- The hypotheses are met when a new context is taught `let (a (-> b))`; the store has each kind of concept. -/
example : ∃ r c', Reachable boot ∧ Context.execute 60 boot (str% "let (a (-> b))") = .ok (r, c') ∧
    IsOf boot.snap 9 (.text (str% "let")) ∧ IsOf boot.snap 50 .freeVariable ∧
    IsOf boot.snap 62 .boundVariable ∧ IsOf boot.snap 2 (.builtin .label) :=
  ⟨[], Witness.taught1, History.reachable boot_calm, Witness.taught1_eq, ⟨_, rfl, rfl, rfl⟩, ⟨_, rfl, rfl, rfl⟩,
    ⟨_, rfl, rfl, rfl⟩, ⟨_, rfl, rfl, rfl⟩⟩

end Zia.Props

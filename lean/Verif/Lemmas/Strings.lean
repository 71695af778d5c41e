import Verif.Lemmas.Labels

/-!
# Strings and the table of strings
-/

namespace Zia
open Spec

theorem getElem?_snoc {α : Type} {L : List α} {a b : α} {i : Nat} (h : (L ++ [a])[i]? = some b) :
    L[i]? = some b ∨ (i = L.length ∧ b = a) := by
  rw [List.getElem?_append] at h
  split at h
  · exact .inl h
  · next hl =>
    have : i - L.length = 0 := by
      by_contra hne
      obtain ⟨j, hj⟩ : ∃ j, i - L.length = j + 1 := ⟨_, (Nat.succ_pred hne).symm⟩
      rw [hj] at h
      simp at h
    rw [this] at h
    simp only [List.getElem?_cons_zero, Option.some.injEq] at h
    exact .inr ⟨by omega, h.symm⟩

theorem Step.strAt_inv {s s' : Snap} {p : CId × Direct CId} (st : Step s p s') {i : Nat} {t : Str}
    (h : StrAt s' i t) : StrAt s i t ∨ ∃ u, p = (.unc u, .new (.str t)) := by
  obtain ⟨k, hk, hs⟩ := h
  unfold StrAt
  cases st with
  | str u t' =>
    have hk : (s.concepts ++ [Concept.mk' s.concepts.length (.str t')])[i]? = some k := hk
    rcases getElem?_snoc hk with h | ⟨_, rfl⟩
    · exact .inl ⟨k, h, hs⟩
    · cases hs
      exact .inr ⟨u, rfl⟩
  | left u comp r t => cases t <;> grind [leafOrConcrete, Snap.registerConcrete]
  | right u comp r t => cases t <;> grind [leafOrConcrete, Snap.registerConcrete]
  | double u comp t => cases t <;> grind [leafOrConcrete, Snap.registerConcrete]
  | _ => grind [Concept.freeVar, Concept.boundVar, Concept.mk']

/-- Every string of the store is in the table. -/
def StrBack (s : Snap) : Prop := ∀ i t, StrAt s i t → ∃ j, s.stringMap.get? t = some j

theorem Step.table_keep {s s' : Snap} {p : CId × Direct CId} (st : Step s p s') {t : Str} {j : Nat}
    (h : s.stringMap.get? t = some j) : ∃ j', s'.stringMap.get? t = some j' := by
  cases st with
  | str u t' =>
    show ∃ j', (s.stringMap.insert t' _).get? t = some j'
    rw [AMap.get?_insert]
    split
    · exact ⟨_, rfl⟩
    · exact ⟨j, h⟩
  | left u comp r t => cases t <;> exact ⟨j, h⟩
  | right u comp r t => cases t <;> exact ⟨j, h⟩
  | double u comp t => cases t <;> exact ⟨j, h⟩
  | _ => exact ⟨j, h⟩

theorem StrBack.step {s s' : Snap} {p : CId × Direct CId} (h : StrBack s) (st : Step s p s') :
    StrBack s' := by
  intro i t hi
  rcases st.strAt_inv hi with hi | ⟨u, rfl⟩
  · obtain ⟨j, hj⟩ := h i t hi
    exact st.table_keep hj
  · rw [st.str_inv]
    show ∃ j', (s.stringMap.insert t _).get? t = some j'
    rw [AMap.get?_insert, if_pos rfl]
    exact ⟨_, rfl⟩

theorem applyStrings_back {g g' : Snap} {L : List (Str × VChange CId)}
    (hL : ∀ p ∈ L, ∃ u, p.2 = .create (.unc u)) (hg : StrBack g) (h : g.applyStrings L = .ok g') :
    StrBack g' := by
  induction L generalizing g with
  | nil => cases h; exact hg
  | cons p L ih =>
    simp only [Snap.applyStrings, Except.bind_eq_ok] at h
    obtain ⟨g1, h1, h2⟩ := h
    refine ih (fun p hp => hL p (List.mem_cons_of_mem _ hp)) ?_ h2
    obtain ⟨u, e⟩ := hL p (by simp)
    unfold Snap.applyString at h1
    rw [e] at h1
    simp only [Except.bind_eq_ok, Except.pure_eq_ok] at h1
    obtain ⟨i, hi, rfl⟩ := h1
    intro j t hj
    obtain ⟨x, hx⟩ := hg j t hj
    show ∃ j', (g.stringMap.insert p.1 i).get? t = some j'
    rw [AMap.get?_insert]
    split
    · exact ⟨_, rfl⟩
    · exact ⟨x, hx⟩

/-- A decidable form. -/
def backCheck (s : Snap) : Bool :=
  s.concepts.all fun c => match c.spec with
    | .str t => (s.stringMap.get? t).isSome
    | _ => true

theorem strBack_of_check {s : Snap} (h : backCheck s = true) : StrBack s := by
  rintro i t ⟨k, hk, hs⟩
  have := List.all_eq_true.1 h k (List.mem_of_getElem? hk)
  simp only [hs] at this
  exact Option.isSome_iff_exists.1 this

theorem History.back {Q : Snap → CId × Direct CId → Prop} {c : Ctx} (h : History Q c) :
    StrBack c.snap := by
  refine History.induct (R := StrBack) (fun _ d g => Strings d ∧ StrBack g)
    (strBack_of_check (by decide +kernel)) ?_ ?_ ?_ ?_ h
  · intro s _ _ h
    exact ⟨Strings.start, h⟩
  · intro s d g d' g' dd _ _ _ sim hP he hq re _
    exact ⟨hP.1.step re.updated, hP.2.step (applyOne_step re.applied)⟩
  · intro _ s d g d1 g1 d2 g2 d3 g3 t l _ _ _ sim hP _ _ _ _ r1 s1 r2 s2 r3 _
    exact ⟨((hP.1.step r1.updated).step r2.updated).step r3.updated,
      ((hP.2.step (applyOne_step r1.applied)).step (applyOne_step r2.applied)).step
        (applyOne_step r3.applied)⟩
  · intro s d g g' _ _ _ _ _ hP hst
    exact (applyStrings_back (fun p hp => (hP.1 p hp).imp fun _ h => h.1) hP.2 hst : StrBack g')

end Zia

import Verif.Lemmas.PendingParse

/-!
# Storing new words

When a command that introduced words ends, the words are stored. What was remembered during the command is still
right.
-/

namespace Zia
open CM Spec
set_option linter.unusedSectionVars false

/-- Only new concepts have other ids while changes are pending, and the old concepts only lead to old ones. -/
structure Stand.Settles [HashOrder] {s : Snap} (W : Stand s) : Prop where
  len : W.snap.concepts.length ≤ s.concepts.length
  ids : ∀ k, k < W.snap.concepts.length → W.ι k = .com k
  parts : ∀ k l r, k < W.snap.concepts.length → ComposedOf s k l r →
    l < W.snap.concepts.length ∧ r < W.snap.concepts.length
  reds : ∀ k j, k < W.snap.concepts.length → ReducesTo s k j → j < W.snap.concepts.length

section
variable [HashOrder] {s : Snap} {W : Stand s} {D : Nat → Prop}

theorem Stand.Settles.tree (h : W.Settles) {k : Nat} {t : Syn} (hk : k < W.snap.concepts.length)
    (ht : TreeIn W k t) : TreeIn (.rest s) k t := by
  induction ht with
  | free hv => exact .free hv
  | leaf hv hn =>
    rw [h.ids _ hk]
    exact .leaf (W := .rest s) hv hn
  | pair hc _ _ ih1 ih2 =>
    have := h.parts _ _ _ hk hc
    exact .pair hc (ih1 this.1) (ih2 this.2)

theorem Stand.Settles.own (h : W.Settles) {id : CId} (ho : W.Own id) : (Stand.rest s).Own id := by
  intro j e
  exact Nat.lt_of_lt_of_le (ho j e) h.len

theorem Stand.Settles.kept (h : W.Settles) {ca : Cache} (hk : Kept W D ca) : Kept (.rest s) D ca := by
  refine ⟨fun f hf id t hg => ?_, fun id r hg => ?_⟩
  · obtain ⟨h1, h2⟩ := hk.trees f hf id t hg
    refine ⟨fun k e => ?_, h.own h2⟩
    have hlt := h2 k e
    exact h.tree hlt (h1 k (e.trans (h.ids k hlt).symm))
  · obtain ⟨h1, h2⟩ := hk.infs id r hg
    refine ⟨h.own h1, fun i di e => ?_⟩
    have hlt := h1 i e
    exact h2 i di (e.trans (h.ids i hlt).symm)

theorem Stand.Settles.known (h : W.Settles) {ca : Cache} (hk : Known W D ca) : Known (.rest s) D ca := by
  refine ⟨fun f hf i T r di hT hg => ?_, fun f hf k r hg id hid => h.own (hk.own f hf k r hg id hid),
    hk.pairs⟩
  obtain ⟨sx, kx, rfl, hkx⟩ := hT
  have hlt := hk.own f hf _ r hg _ rfl i rfl
  obtain ⟨h1, h2⟩ := hk.right f hf i _ r di ⟨sx, kx, (congrArg (fun o => Syn.leaf (some sx) (some o) kx) (h.ids i hlt).symm), hkx⟩ hg
  refine ⟨fun j hj => ?_, h2⟩
  obtain ⟨Y, why, e, t⟩ := h1 j hj
  exact ⟨Y, why, e, h.tree (h.reds i j hlt hj) t⟩

theorem Orderly.settles_one (hs : Orderly s) (t : Str) : (Stand.one hs.names t).Settles := by
  refine ⟨?_, fun k hk => pendId_old hk, fun k l r hk hc => ?_, fun k j hk hr => ?_⟩
  · show s.concepts.length ≤ _
    rw [grown_len]; omega
  · have hk : k < s.concepts.length := hk
    show l < s.concepts.length ∧ r < s.concepts.length
    rcases (hs.added t).composed.1 hc with h | ⟨m, _, _, _, h⟩
    · exact composedOf_lt hs.names.refs h
    · omega
  · have hk : k < s.concepts.length := hk
    show j < s.concepts.length
    rcases (hs.added t).reduces.1 hr with h | ⟨m, _, _, h⟩
    · exact (reducesTo_lt hs.names.refs h).2
    · omega

theorem Orderly.settles_two (hs : Orderly s) (t u : Str) : (Stand.two hs.names t u).Settles := by
  refine ⟨?_, fun k hk => pendId_old hk, fun k l r hk hc => ?_, fun k j hk hr => ?_⟩
  · show s.concepts.length ≤ _
    rw [grown_len, grown_len]; omega
  · have hk : k < s.concepts.length := hk
    show l < s.concepts.length ∧ r < s.concepts.length
    rcases ((hs.grown t).added u).composed.1 hc with h | ⟨m, _, _, h, _⟩
    · rcases (hs.added t).composed.1 h with h | ⟨m, _, _, _, h⟩
      · exact composedOf_lt hs.names.refs h
      · omega
    · rw [grown_len] at h
      omega
  · have hk : k < s.concepts.length := hk
    show j < s.concepts.length
    rcases ((hs.grown t).added u).reduces.1 hr with h | ⟨m, _, _, h, _⟩
    · rcases (hs.added t).reduces.1 h with h | ⟨m, _, _, h⟩
      · exact (reducesTo_lt hs.names.refs h).2
      · omega
    · rw [grown_len] at h
      omega

theorem AMap.insert_same {α β : Type} [DecidableEq α] {m : AMap α β} {a : α} {b : β} (h : m.get? a = some b) :
    m.insert a b = m := by
  induction m with
  | nil => cases h
  | cons q m ih =>
    obtain ⟨x, y⟩ := q
    simp only [AMap.get?] at h
    simp only [AMap.insert]
    split at h
    · next e =>
      rw [if_pos e]
      cases h
      rw [e]
    · next e =>
      rw [if_neg e, ih h]

/-- Storing a new word gives the store in which it is introduced. -/
theorem Orderly.commit_one (hs : Orderly s) {t : Str} {g : Snap} (h : s.apply (.base (oneName t)) = .ok g) :
    g = Zia.grown s t := by
  obtain ⟨g1, g2, h1, h2, rfl⟩ := apply_base h
  have h1 : s.applyAll (introducing 0 t) = .ok g1 := h1
  rw [hs.apply] at h1
  cases h1
  simp only [oneName, Snap.applyStrings, Except.bind_eq_ok] at h2
  obtain ⟨g3, h2, h3⟩ := h2
  cases h3
  simp only [Snap.applyString, Except.bind_eq_ok] at h2
  obtain ⟨i, h2, h3⟩ := h2
  have hi : i = s.concepts.length := by
    have : AMap.get? (recalled s.prev 0 s.concepts.length) 0 = some s.concepts.length := by
      simp [recalled, AMap.get?_insert]
    simp only [Snap.convert, this] at h2
    cases h2
    rfl
  subst hi
  cases h3
  have := AMap.insert_same (m := s.stringMap.insert t s.concepts.length) (a := t) (b := s.concepts.length)
    (by simp [AMap.get?_insert])
  show ({ Zia.grown s t with stringMap := (s.stringMap.insert t s.concepts.length).insert t s.concepts.length } : Snap) = _
  rw [this]
  rfl

/-- Storing two new words gives the store in which they are introduced. -/
theorem Orderly.commit_two (hs : Orderly s) {t u : Str} (hne : t ≠ u) {g : Snap}
    (h : s.apply (.base (twoNames t u)) = .ok g) : g = Zia.grown (Zia.grown s t) u := by
  obtain ⟨g1, g2, h1, h2, rfl⟩ := apply_base h
  have h1 : s.applyAll (introducing 0 t ++ introducing 3 u) = .ok g1 := h1
  rw [applyAll_append, hs.apply] at h1
  obtain ⟨c, hc, e⟩ := (hs.grown t).label
  have hr := (hs.grown t).names.refs
  have hlen := grown_len (s := s) t
  have h1 : Snap.applyAll { Zia.grown s t with prev := recalled s.prev 0 s.concepts.length } (introducing 3 u) =
    .ok g1 := h1
  rw [applyAll_grown (s := { Zia.grown s t with prev := recalled s.prev 0 s.concepts.length })
    ⟨⟨hr.valid.ids, hr.valid.concepts, hr.valid.strings, hr.valid.concrete⟩, fun v n e => by
      have e : AMap.get? (recalled s.prev 0 s.concepts.length) v = some n := e
      show n < (Zia.grown s t).concepts.length
      simp only [recalled, hs.prev, AMap.get?_insert, AMap.get?] at e
      split at e
      · cases e; omega
      · split at e
        · cases e; omega
        · split at e <;> cases e
          omega⟩ hc e] at h1
  cases h1
  simp only [twoNames, Snap.applyStrings, Except.bind_eq_ok] at h2
  obtain ⟨g3, h2, g4, h3, h4⟩ := h2
  cases h4
  simp only [Snap.applyString, Except.bind_eq_ok] at h2 h3
  obtain ⟨i, h2, h4⟩ := h2
  cases h4
  obtain ⟨j, h3, h4⟩ := h3
  cases h4
  have hi : i = s.concepts.length := by
    have : AMap.get? (recalled (recalled s.prev 0 s.concepts.length) 3 (Zia.grown s t).concepts.length) 0 =
        some s.concepts.length := by
      simp [recalled, AMap.get?_insert]
    simp only [Snap.convert, this] at h2
    cases h2
    rfl
  have hj : j = (Zia.grown s t).concepts.length := by
    have : AMap.get? (recalled (recalled s.prev 0 s.concepts.length) 3 (Zia.grown s t).concepts.length) 3 =
        some (Zia.grown s t).concepts.length := by
      simp [recalled, AMap.get?_insert]
    simp only [Snap.convert, this] at h3
    cases h3
    rfl
  subst hi hj
  have e1 := AMap.insert_same (m := (s.stringMap.insert t s.concepts.length).insert u (Zia.grown s t).concepts.length)
    (a := t) (b := s.concepts.length) (by simp [AMap.get?_insert, Ne.symm hne])
  have e2 := AMap.insert_same (m := (s.stringMap.insert t s.concepts.length).insert u (Zia.grown s t).concepts.length)
    (a := u) (b := (Zia.grown s t).concepts.length) (by simp [AMap.get?_insert])
  show ({ Zia.grown (Zia.grown s t) u with stringMap := ((((s.stringMap.insert t s.concepts.length).insert u
    (Zia.grown s t).concepts.length).insert t s.concepts.length).insert u (Zia.grown s t).concepts.length) } : Snap) = _
  rw [e1, e2]
  rfl

end
end Zia

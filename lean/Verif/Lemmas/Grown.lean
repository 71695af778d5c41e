import Verif.Lemmas.Told
import Verif.Lemmas.Retold

/-!
# The store after a word is introduced

A command that mentions a new word introduces it: its string, the concept that names it and the concept of the word.
-/

namespace Zia
open CM Spec Relation
set_option linter.unusedSectionVars false

/-- The store in which the word `t` is introduced. -/
def grown (s : Snap) (t : Str) : Snap :=
  { s with
    concepts := s.concepts.modify (builtin .label)
        (fun c => c.addLeft (s.concepts.length + 2) (s.concepts.length + 1)) ++
      [⟨s.concepts.length, [], [], [s.concepts.length + 1], .str t⟩,
       ⟨s.concepts.length + 1, [], [], [],
         .abst (.comp (builtin .label) (s.concepts.length + 2) [] []) (some s.concepts.length)⟩,
       ⟨s.concepts.length + 2, [], [(builtin .label, s.concepts.length + 1)], [], .abst (.leaf .constant) none⟩]
    stringMap := s.stringMap.insert t s.concepts.length
    prev := [] }

/-- The three changes that introduce a word. -/
def introducing (u : Nat) (t : Str) : List (CId × Direct CId) :=
  [(.unc u, .new (.str t)), (.unc (u + 1), .new (.reducesTo (.unc u))),
    (.unc (u + 2), .new (.right (.unc (u + 1)) (.com (builtin .label)) none))]

/-- The ids that are remembered. -/
def recalled (p : AMap Nat Nat) (u b : Nat) : AMap Nat Nat := ((p.insert u b).insert (u + 1) (b + 1)).insert (u + 2) (b + 2)

variable {s : Snap}

theorem grown_len (t : Str) : (grown s t).concepts.length = s.concepts.length + 3 := by
  simp [grown]

theorem grown_old {t : Str} {k : Nat} (h : k < s.concepts.length) (hk : k ≠ builtin .label) :
    (grown s t).concepts[k]? = s.concepts[k]? := by
  simp only [grown]
  rw [List.getElem?_append_left (by simpa using h), List.getElem?_modify]
  simp [Ne.symm hk]

theorem grown_label {t : Str} {c : Con} (h : s.concepts[builtin .label]? = some c) :
    (grown s t).concepts[builtin .label]? = some (c.addLeft (s.concepts.length + 2) (s.concepts.length + 1)) := by
  simp only [grown]
  rw [List.getElem?_append_left (by simpa using lt_of_get h), List.getElem?_modify]
  simp [h]

theorem grown_string (t : Str) : (grown s t).concepts[s.concepts.length]? =
    some ⟨s.concepts.length, [], [], [s.concepts.length + 1], .str t⟩ := by
  simp only [grown]
  rw [List.getElem?_append_right (by simp)]
  simp

theorem grown_name (t : Str) : (grown s t).concepts[s.concepts.length + 1]? = some ⟨s.concepts.length + 1, [], [], [],
    .abst (.comp (builtin .label) (s.concepts.length + 2) [] []) (some s.concepts.length)⟩ := by
  simp only [grown]
  rw [List.getElem?_append_right (by simp)]
  simp

theorem grown_word (t : Str) : (grown s t).concepts[s.concepts.length + 2]? =
    some ⟨s.concepts.length + 2, [], [(builtin .label, s.concepts.length + 1)], [], .abst (.leaf .constant) none⟩ := by
  simp only [grown]
  rw [List.getElem?_append_right (by simp)]
  simp

/-- A concept of the store is an old one or a new one. -/
theorem grown_cases {t : Str} {k : Nat} {c : Con} (h : (grown s t).concepts[k]? = some c) :
    (k < s.concepts.length ∧ k ≠ builtin .label ∧ s.concepts[k]? = some c) ∨
    (k = builtin .label ∧ ∃ c', s.concepts[builtin .label]? = some c' ∧
      c = c'.addLeft (s.concepts.length + 2) (s.concepts.length + 1)) ∨
    (s.concepts.length ≤ k ∧ k < s.concepts.length + 3) := by
  have hk := lt_of_get h
  rw [grown_len] at hk
  by_cases h1 : k < s.concepts.length
  · by_cases h2 : k = builtin .label
    · subst h2
      have hc := List.getElem?_eq_getElem h1
      rw [grown_label hc] at h
      cases h
      exact .inr (.inl ⟨rfl, _, hc, rfl⟩)
    · rw [grown_old h1 h2] at h
      exact .inl ⟨h1, h2, h⟩
  · exact .inr (.inr ⟨by omega, hk⟩)

theorem modify_eq_set {l : List Con} {i : Nat} {a : Con} (f : Con → Con) (h : l[i]? = some a) :
    l.modify i f = l.set i (f a) := by
  apply List.ext_getElem?
  intro j
  rw [List.getElem?_modify, List.getElem?_set]
  by_cases e : i = j
  · subst e
    simp only [if_true, h, if_pos (lt_of_get h), Option.map_eq_map, Option.map_some]
  · simp [e]

/-- The changes make that store. -/
theorem applyAll_grown (hs : RefsInv s) {c : Con} (hc : s.concepts[builtin .label]? = some c)
    (hl : c.spec = .concrete .label) (u : Nat) (t : Str) :
    s.applyAll (introducing u t) = .ok { grown s t with prev := recalled s.prev u s.concepts.length } := by
  have hlt := lt_of_get hc
  have hid := hs.valid.ids _ _ hc
  have hno : c.leftOf.get? (s.concepts.length + 2) = none := by
    cases hg : c.leftOf.get? (s.concepts.length + 2) with
    | none => rfl
    | some v =>
      have := hs.valid.concepts _ c hc (s.concepts.length + 2) (by
        simp only [Spec.refs, List.mem_append, List.mem_flatMap]
        exact .inl (.inl (.inr ⟨_, AMap.mem_of_get? _ _ _ hg, by simp⟩)))
      omega
  have hb : builtin .label ≠ s.concepts.length + 1 := by omega
  have e1 : s.applyOne (.unc u, .new (.str t)) = .ok { s with
      concepts := s.concepts ++ [Concept.mk' s.concepts.length (.str t)]
      stringMap := s.stringMap.insert t s.concepts.length
      prev := s.prev.insert u s.concepts.length } := rfl
  have e2 : Snap.applyOne { s with
      concepts := s.concepts ++ [Concept.mk' s.concepts.length (.str t)]
      stringMap := s.stringMap.insert t s.concepts.length
      prev := s.prev.insert u s.concepts.length } (.unc (u + 1), .new (.reducesTo (.unc u))) = .ok { s with
      concepts := s.concepts ++ [⟨s.concepts.length, [], [], [s.concepts.length + 1], .str t⟩] ++
        [Concept.mk' (s.concepts.length + 1) (.abst (.leaf .constant) (some s.concepts.length))]
      stringMap := s.stringMap.insert t s.concepts.length
      prev := (s.prev.insert u s.concepts.length).insert (u + 1) (s.concepts.length + 1) } := by
    have g1 : AMap.get? (s.prev.insert u s.concepts.length) u = some s.concepts.length := by
      simp [AMap.get?_insert]
    have e0 : (s.concepts ++ [Concept.mk' s.concepts.length (Specific.str t)])[s.concepts.length]? =
        some (Concept.mk' s.concepts.length (.str t)) := by simp
    simp only [Snap.applyOne, Snap.applyNew, Snap.convert, g1, bind, Except.bind, pure, Except.pure, e0, orDisjoint,
      Snap.pushNew, reductionTo, List.length_append, List.length_singleton]
    rw [List.set_append_right _ _ (by simp)]
    simp [Concept.mk', setInsert]
  have e3 : Snap.applyOne { s with
      concepts := s.concepts ++ [⟨s.concepts.length, [], [], [s.concepts.length + 1], .str t⟩] ++
        [Concept.mk' (s.concepts.length + 1) (.abst (.leaf .constant) (some s.concepts.length))]
      stringMap := s.stringMap.insert t s.concepts.length
      prev := (s.prev.insert u s.concepts.length).insert (u + 1) (s.concepts.length + 1) }
      (.unc (u + 2), .new (.right (.unc (u + 1)) (.com (builtin .label)) none)) =
      .ok { grown s t with prev := recalled s.prev u s.concepts.length } := by
    have g2 : AMap.get? ((s.prev.insert u s.concepts.length).insert (u + 1) (s.concepts.length + 1)) (u + 1) =
        some (s.concepts.length + 1) := by
      simp [AMap.get?_insert]
    have f1 : (s.concepts ++ [⟨s.concepts.length, [], [], [s.concepts.length + 1], .str t⟩] ++
        [Concept.mk' (s.concepts.length + 1) (.abst (.leaf .constant) (some s.concepts.length))])[builtin .label]? =
        some c := by
      rw [List.append_assoc, List.getElem?_append_left hlt, hc]
    have f2 : (s.concepts ++ [⟨s.concepts.length, [], [], [s.concepts.length + 1], .str t⟩] ++
        [Concept.mk' (s.concepts.length + 1) (.abst (.leaf .constant) (some s.concepts.length))])[s.concepts.length + 1]? =
        some (Concept.mk' (s.concepts.length + 1) (.abst (.leaf .constant) (some s.concepts.length))) := by
      simp
    have f3 := show get2 _ (builtin .label) (s.concepts.length + 1) = some (c, _) by
      unfold get2
      rw [if_neg hb, f1, f2]
    have f4 : righthandOf (s.concepts.length + 1 + 1) c
        (Concept.mk' (s.concepts.length + 1) (.abst (.leaf .constant) (some s.concepts.length))) none =
        .ok (⟨s.concepts.length + 2, [], [(builtin .label, s.concepts.length + 1)], [], .abst (.leaf .constant) none⟩,
          c.addLeft (s.concepts.length + 2) (s.concepts.length + 1),
          ⟨s.concepts.length + 1, [], [], [],
            .abst (.comp (builtin .label) (s.concepts.length + 2) [] []) (some s.concepts.length)⟩) := by
      obtain ⟨i, lo, ro, rf, sp⟩ := c
      dsimp only at hl hid hno
      subst hl hid
      simp only [righthandOf, Concept.mk', insertInto, hno, bind, Except.bind, pure, Except.pure]
      rfl
    simp only [Snap.applyOne, Snap.applyNew, Snap.convert, g2, bind, Except.bind, pure, Except.pure, orDisjoint, f3]
    rw [List.length_append, List.length_append, List.length_singleton, List.length_singleton, f4]
    simp only [Snap.pushNew, Snap.registerConcrete, grown, recalled]
    rw [modify_eq_set _ hc]
    simp [List.set_append_right, List.set_append_left, hlt]
  simp only [introducing, Snap.applyAll, e1, e2, e3, bind, Except.bind]

/-- What holds of the store at all times. -/
structure Orderly (s : Snap) : Prop where
  names : Nameable s
  fwd : CompFwd (look s.concepts)
  rev : CompRev (look s.concepts)
  conc : ConcInv s
  maps : Maps s.concepts
  redFwd : RedFwd s.concepts
  redRev : RedRev (look s.concepts)
  prev : s.prev = []

theorem orderly_of_history [HashOrder] {c : Ctx} (h : History (fun s p => ReducesFresh s p ∧ KeepsDefinitions s p) c) :
    Orderly c.snap :=
  ⟨History.nameable h, (History.comps (History.mono (fun _ _ h => h.2) h)).1,
    (History.comps (History.mono (fun _ _ h => h.2) h)).2, History.concrete h, History.maps h, History.redFwd h,
    History.redRev (History.mono (fun _ _ h => h.1) h), (History.settled h).prev⟩

theorem Orderly.label (h : Orderly s) : ∃ c, s.concepts[builtin .label]? = some c ∧ c.spec = .concrete .label :=
  (h.names.concrete _).2 rfl

theorem Orderly.apply (h : Orderly s) (u : Nat) (t : Str) :
    s.applyAll (introducing u t) = .ok { grown s t with prev := recalled s.prev u s.concepts.length } := by
  obtain ⟨c, h1, h2⟩ := h.label
  exact applyAll_grown h.names.refs h1 h2 u t

theorem Orderly.added (h : Orderly s) (t : Str) : Added s (grown s t) [t] := by
  have := (added_one h.names.refs (h.apply 0 t)).1
  exact ⟨this.len, this.old, this.new, this.from_, this.table⟩

theorem Orderly.grown [HashOrder] (h : Orderly s) (t : Str) : Orderly (grown s t) := by
  have h0 := h.apply 0 t
  generalize hg : ({ Zia.grown s t with prev := recalled s.prev 0 s.concepts.length } : Snap) = g at h0
  obtain ⟨g1, g2, s1, s2, s3⟩ := applyAll_three h0
  have r0 := h.names.refs
  have r1 := s1.refsInv r0
  have r2 := s2.refsInv r1
  have r3 := s3.refsInv r2
  have l1 := s1.lstep r0
  have l2 := s2.lstep r1
  have l3 := s3.lstep r2
  have c1 := ConcInv.step h.conc (by trivial) s1
  have c2 := ConcInv.step c1 (by trivial) s2
  have c3 := ConcInv.step c2 (by trivial) s3
  have f1 := l1.compFwd h.fwd (by trivial)
  have f2 := l2.compFwd f1 (by trivial)
  have f3 := l3.compFwd f2 (by trivial)
  have v1 := l1.compRev h.rev (by trivial) (by trivial)
  have v2 := l2.compRev v1 (by trivial) (by trivial)
  have v3 := l3.compRev v2 (by trivial) (by trivial)
  have m3 := s3.maps (s2.maps (s1.maps h.maps))
  have d1 := s1.redFwd (fun i c hc => r0.valid.ids i c hc) h.redFwd
  have d2 := s2.redFwd (fun i c hc => r1.valid.ids i c hc) d1
  have d3 := s3.redFwd (fun i c hc => r2.valid.ids i c hc) d2
  have b1 := l1.redRev h.redRev (by trivial)
  have b2 := l2.redRev b1 (by trivial)
  have b3 := l3.redRev b2 (by trivial)
  have t3 := s3.strings (s2.strings (s1.strings h.names.strings))
  subst hg
  refine ⟨⟨⟨⟨r3.valid.ids, r3.valid.concepts, r3.valid.strings, r3.valid.concrete⟩, fun u n e => by cases e⟩, t3,
    fun i => ?_, (congrArg (byRight · .label) c3.1).trans rfl⟩, f3, v3, c3, m3, d3, b3, rfl⟩
  refine (c3.2 i .label).trans ?_
  rw [← h.conc.2]
  exact h.names.concrete i

end Zia

import Verif.Spec.Words

/-!
# Renaming texts
-/

namespace Zia

open Spec

theorem sep_space : isSep ' ' = true := by decide

theorem sep_of_ws {c : Char} (h : isWs c = true) : isSep c = true := by simp [isSep, h]

/-- A text without separators, or one up to its first separator. -/
theorem sep_induction {P : Str → Prop} (h0 : ∀ a : Str, a.all (fun c => !isSep c) = true → P a)
    (h1 : ∀ (a : Str) (c : Char) (b : Str), a.all (fun c => !isSep c) = true → isSep c = true → P b →
      P (a ++ c :: b)) (s : Str) : P s := by
  suffices h : ∀ (s a : Str), a.all (fun c => !isSep c) = true → P (a ++ s) from h s [] rfl
  intro s
  induction s with
  | nil => intro a ha; rw [List.append_nil]; exact h0 a ha
  | cons c s ih =>
    intro a ha
    by_cases hc : isSep c = true
    · exact h1 a c s ha hc (ih [] rfl)
    · have := ih (a ++ [c]) (by simp [List.all_append, ha, hc])
      rwa [List.append_assoc] at this

theorem renFrom_append (f : Str → Str) {c : Char} (hc : isSep c = true) (b : Str) (a acc : Str) :
    renFrom f acc (a ++ c :: b) = renFrom f acc a ++ c :: renFrom f [] b := by
  induction a generalizing acc with
  | nil => simp [renFrom, hc]
  | cons x a ih =>
    by_cases hx : isSep x = true
    · simp [renFrom, hx, ih]
    · simp [renFrom, hx, ih]

theorem renFrom_plain (f : Str → Str) (a acc : Str) (ha : a.all (fun c => !isSep c) = true) :
    renFrom f acc a = if acc ++ a = [] then [] else f (acc ++ a) := by
  induction a generalizing acc with
  | nil => simp [renFrom]
  | cons x a ih =>
    simp only [List.all_cons, Bool.and_eq_true, Bool.not_eq_true'] at ha
    rw [renFrom, if_neg (by simp [ha.1]), ih _ ha.2]
    simp

theorem wordsFrom_words (acc s : Str) (ha : acc.all (fun c => !isSep c) = true) :
    ∀ x ∈ wordsFrom acc s, IsWord x := by
  induction s generalizing acc with
  | nil =>
    intro x hx
    simp only [wordsFrom] at hx
    split at hx
    · cases hx
    · next h => simp only [List.mem_singleton] at hx; subst hx; exact ⟨h, ha⟩
  | cons c s ih =>
    intro x hx
    rw [wordsFrom] at hx
    split at hx
    · rcases List.mem_append.1 hx with hx | hx
      · split at hx
        · cases hx
        · next h => simp only [List.mem_singleton] at hx; subst hx; exact ⟨h, ha⟩
      · exact ih [] rfl x hx
    · next hc => exact ih _ (by simp [List.all_append, ha, hc]) x hx

theorem reserved_word {s : Str} (h : Reserved s) : IsWord s := by
  rcases h with h | ⟨c, h⟩
  · revert s; decide
  · exact wordsFrom_words [] _ rfl s h

theorem renFrom_fixed (f : Str → Str) (acc s : Str) (h : ∀ x ∈ wordsFrom acc s, f x = x) :
    renFrom f acc s = acc ++ s := by
  induction s generalizing acc with
  | nil =>
    simp only [renFrom, List.append_nil]
    split
    · next e => exact e.symm
    · next e => exact h acc (by simp [wordsFrom, e])
  | cons c s ih =>
    rw [wordsFrom] at h
    rw [renFrom]
    split at h
    · next hc =>
      rw [if_pos hc, ih [] (fun x hx => h x (List.mem_append.2 (.inr hx)))]
      split
      · next e => simp [e]
      · next e => rw [h acc (List.mem_append.2 (.inl (by simp [e])))]; rfl
    · next hc =>
      rw [if_neg hc, ih _ h]
      simp

namespace Spec.Words

/-- The renaming back. -/
def symm (w : Words) : Words where
  to := w.back
  back := w.to
  word := w.word'
  word' := w.word
  back_to := w.to_back
  to_back := w.back_to
  keeps s h := by
    have := w.back_to s (reserved_word h)
    rwa [w.keeps s h] at this

end Spec.Words

section

variable (w : Words)

theorem ren_str (s : Str) : ren w s = renFrom w.to [] s := rfl

@[simp] theorem ren_nil : ren w ([] : Str) = [] := rfl

theorem ren_append_sep {c : Char} (hc : isSep c = true) (a b : Str) :
    ren w (a ++ c :: b) = ren w a ++ c :: ren w b := renFrom_append w.to hc b a []

theorem ren_cons_sep {c : Char} (hc : isSep c = true) (b : Str) :
    ren w (c :: b) = c :: ren w b := ren_append_sep w hc [] b

theorem ren_snoc_sep {c : Char} (hc : isSep c = true) (a : Str) :
    ren w (a ++ [c]) = ren w a ++ [c] := ren_append_sep w hc a []

theorem ren_word {s : Str} (h : IsWord s) : ren w s = w.to s := by
  rw [ren_str, renFrom_plain _ _ _ h.2, List.nil_append, if_neg h.1]

theorem ren_plain {a : Str} (ha : a.all (fun c => !isSep c) = true) :
    ren w a = if a = [] then [] else w.to a := by
  rw [ren_str, renFrom_plain _ _ _ ha, List.nil_append]

theorem ren_plain_plain {a : Str} (ha : a.all (fun c => !isSep c) = true) :
    (ren w a).all (fun c => !isSep c) = true := by
  rw [ren_plain w ha]
  split
  · rfl
  · next h => exact (w.word a ⟨h, ha⟩).2

theorem ren_fixed {s : Str} (h : ∀ x ∈ wordsOf s, w.to x = x) : ren w s = s :=
  renFrom_fixed w.to [] s h

theorem ren_back (s : Str) : ren w.symm (ren w s) = s := by
  induction s using sep_induction with
  | h0 a ha =>
    rw [ren_plain w ha]
    split
    · next e => simp [e]
    · next e => rw [ren_word _ (w.word a ⟨e, ha⟩)]; exact w.back_to a ⟨e, ha⟩
  | h1 a c b ha hc ih =>
    rw [ren_append_sep w hc, ren_append_sep _ hc, ih]
    congr 1
    rw [ren_plain w ha]
    split
    · next e => simp [e]
    · next e => rw [ren_word _ (w.word a ⟨e, ha⟩)]; exact w.back_to a ⟨e, ha⟩

theorem ren_to_back (s : Str) : ren w (ren w.symm s) = s := ren_back w.symm s

theorem ren_inj {a b : Str} : ren w a = ren w b ↔ a = b := by
  refine ⟨fun h => ?_, fun h => h ▸ rfl⟩
  rw [← ren_back w a, h, ren_back]

theorem ren_eq_nil {s : Str} : ren w s = [] ↔ s = [] := by
  refine ⟨fun h => ?_, fun h => by rw [h]; rfl⟩
  rw [← ren_back w s, h]; rfl

/-- A property of separators only is kept. -/
theorem ren_any {p : Char → Bool} (hp : ∀ c, p c = true → isSep c = true) (s : Str) :
    (ren w s).any p = s.any p := by
  have plain : ∀ a : Str, a.all (fun c => !isSep c) = true → a.any p = false := by
    intro a ha
    rw [List.any_eq_false]
    intro c hc h
    have := List.all_eq_true.1 ha c hc
    rw [hp c h] at this
    cases this
  induction s using sep_induction with
  | h0 a ha => rw [plain a ha, plain _ (ren_plain_plain w ha)]
  | h1 a c b ha hc ih =>
    rw [ren_append_sep w hc, List.any_append, List.any_append, plain a ha,
      plain _ (ren_plain_plain w ha), List.any_cons, List.any_cons, ih]

theorem ren_any_ws (s : Str) : (ren w s).any isWs = s.any isWs :=
  ren_any w (fun _ h => sep_of_ws h) s

theorem ren_contains {c : Char} (hc : isSep c = true) (s : Str) :
    (ren w s).contains c = s.contains c := by
  have := ren_any w (p := fun x => x == c) (fun x h => by rw [eq_of_beq h]; exact hc) s
  rwa [List.any_beq', List.any_beq'] at this

theorem ren_head {c : Char} (hc : isSep c = true) (s : Str) :
    (ren w s).head? = some c ↔ s.head? = some c := by
  have plain : ∀ (x : Char) (a : Str), (x :: a).all (fun c => !isSep c) = true → x ≠ c := by
    rintro x a ha rfl
    simp [hc] at ha
  have key : ∀ (a s : Str), a.all (fun c => !isSep c) = true → a ≠ [] →
      ¬ (a ++ s).head? = some c := by
    intro a s ha hn h
    cases a with
    | nil => exact hn rfl
    | cons x a => exact plain x a ha (by simpa using h)
  induction s using sep_induction with
  | h0 a ha =>
    by_cases e : a = []
    · simp [e]
    · have h1 := key a [] ha e
      have h2 := key (ren w a) [] (ren_plain_plain w ha) (fun h => e ((ren_eq_nil w).1 h))
      rw [List.append_nil] at h1 h2
      exact ⟨fun h => absurd h h2, fun h => absurd h h1⟩
  | h1 a x b ha hx ih =>
    rw [ren_append_sep w hx]
    by_cases e : a = []
    · simp [e]
    · have h1 := key a (x :: b) ha e
      have h2 := key (ren w a) (x :: ren w b) (ren_plain_plain w ha) (fun h => e ((ren_eq_nil w).1 h))
      exact ⟨fun h => absurd h h2, fun h => absurd h h1⟩

theorem ren_last {c : Char} (hc : isSep c = true) (s : Str) :
    (ren w s).getLast? = some c ↔ s.getLast? = some c := by
  have plain : ∀ (a : Str), a.all (fun c => !isSep c) = true → ¬ a.getLast? = some c := by
    intro a ha h
    have := List.all_eq_true.1 ha c (List.mem_of_getLast? h)
    simp [hc] at this
  induction s using sep_induction with
  | h0 a ha =>
    exact ⟨fun h => absurd h (plain _ (ren_plain_plain w ha)), fun h => absurd h (plain a ha)⟩
  | h1 a x b ha hx ih =>
    rw [ren_append_sep w hx]
    by_cases e : b = []
    · simp [e]
    · have e' : ren w b ≠ [] := fun h => e ((ren_eq_nil w).1 h)
      obtain ⟨y, b', rfl⟩ := List.exists_cons_of_ne_nil e
      obtain ⟨z, b'', hz⟩ := List.exists_cons_of_ne_nil e'
      rw [hz] at ih ⊢
      simpa [List.getLast?_append, List.getLast?_cons_cons] using ih

theorem ren_isVariableName (s : Str) : Syn.isVariableName (ren w s) = Syn.isVariableName s := by
  unfold Syn.isVariableName
  rw [ren_contains w sep_space]
  congr 2
  · rw [Bool.eq_iff_iff, beq_iff_eq, beq_iff_eq]; exact ren_head w (by decide) s
  · rw [Bool.eq_iff_iff, beq_iff_eq, beq_iff_eq]; exact ren_last w (by decide) s

theorem ren_display (c : CId) : ren w c.display = c.display :=
  ren_fixed w (fun x hx => w.keeps x (.inr ⟨c, hx⟩))

/-- Texts that begin with words of the program. -/
theorem ren_prefix {p : Str} (hp : ∀ x ∈ wordsOf p, Reserved x) {c : Char} (hc : isSep c = true)
    (s : Str) : ren w (p ++ c :: s) = p ++ c :: ren w s := by
  rw [ren_append_sep w hc, ren_fixed w (fun x hx => w.keeps x (hp x hx))]

theorem ren_label_of (s : Str) : ren w (str% "label_of " ++ s) = str% "label_of " ++ ren w s :=
  ren_prefix w (p := str% "label_of") (by
    intro x hx
    have : x ∈ [str% "label", str% "of"] := hx
    exact .inl (by simp only [List.mem_cons, List.not_mem_nil, or_false] at this ⊢; rcases this with h | h <;> simp [h])) sep_space s

end

end Zia

import Verif.Lemmas.Words

/-!
# Renamings for given names
-/

namespace Zia

open Spec

theorem wordsFrom_plain (acc s : Str) (h : s.all (fun c => !isSep c) = true) :
    wordsFrom acc s = if acc ++ s = [] then [] else [acc ++ s] := by
  induction s generalizing acc with
  | nil => simp [wordsFrom]
  | cons c s ih =>
    simp only [List.all_cons, Bool.and_eq_true] at h
    have hc : isSep c = false := by simpa using h.1
    simp only [wordsFrom, hc, Bool.false_eq_true, if_false]
    rw [ih _ h.2, List.append_assoc]; rfl

theorem wordsFrom_sep (acc a b : Str) {c : Char} (ha : a.all (fun c => !isSep c) = true) (hc : isSep c = true) :
    wordsFrom acc (a ++ c :: b) = (if acc ++ a = [] then [] else [acc ++ a]) ++ wordsFrom [] b := by
  induction a generalizing acc with
  | nil => simp [wordsFrom, hc]
  | cons x a ih =>
    simp only [List.all_cons, Bool.and_eq_true] at ha
    have hx : isSep x = false := by simpa using ha.1
    simp only [List.cons_append, wordsFrom, hx, Bool.false_eq_true, if_false]
    rw [ih _ ha.2, List.append_assoc]; rfl

theorem digit_plain {c : Char} (h : c.isDigit = true) : isSep c = false := by
  have h' : 48 ≤ c.toNat ∧ c.toNat ≤ 57 := by
    simp only [Char.isDigit, Bool.and_eq_true, decide_eq_true_eq] at h
    exact ⟨h.1, h.2⟩
  have key : ∀ m, 48 ≤ m → m ≤ 57 → isSep (Char.ofNat m) = false := by
    intro m h1 h2
    have : m = 48 ∨ m = 49 ∨ m = 50 ∨ m = 51 ∨ m = 52 ∨ m = 53 ∨ m = 54 ∨ m = 55 ∨ m = 56 ∨ m = 57 := by omega
    rcases this with h | h | h | h | h | h | h | h | h | h <;> subst h <;> decide
  have := key c.toNat h'.1 h'.2
  rwa [Char.ofNat_toNat] at this

theorem toDigits_digit (n : Nat) : ∀ c ∈ Nat.toDigits 10 n, c.isDigit = true :=
  fun _ hc => Nat.isDigit_of_mem_toDigits (by decide) (by decide) hc

theorem toDigits_ne_nil (n : Nat) : Nat.toDigits 10 n ≠ [] := Nat.toDigits_ne_nil

/-- The reserved words are words of the program, or begin with a digit. -/
theorem reserved_cases {s : Str} (h : Reserved s) :
    s ∈ programWords ∨ ∃ c, s.head? = some c ∧ c.isDigit = true := by
  have dig : ∀ (n : Nat) (t : Str), ∃ c, (Nat.toDigits 10 n ++ t).head? = some c ∧ c.isDigit = true := by
    intro n t
    obtain ⟨x, xs, e⟩ := List.exists_cons_of_ne_nil (toDigits_ne_nil n)
    exact ⟨x, by rw [e]; rfl, toDigits_digit n x (by rw [e]; simp)⟩
  have pl : ∀ n, (Nat.toDigits 10 n).all (fun c => !isSep c) = true := by
    intro n
    rw [List.all_eq_true]
    intro c hc
    simp [digit_plain (toDigits_digit n c hc)]
  rcases h with h | ⟨c, h⟩
  · left; revert s; decide
  · cases c with
    | com n =>
      have e : wordsOf (CId.com n).display = [str% "CommittedConceptId:", Nat.toDigits 10 (n + 1) ++ str% "v1"] := by
        show wordsFrom [] (str% "CommittedConceptId:" ++ ' ' :: (Nat.toDigits 10 (n + 1) ++ str% "v1")) = _
        rw [wordsFrom_sep _ _ _ (by decide) sep_space, wordsFrom_plain _ _ (by
          rw [List.all_append, pl]; decide)]
        rw [if_neg (by decide), if_neg (by simp)]
        rfl
      rw [e] at h
      simp only [List.mem_cons, List.not_mem_nil, or_false] at h
      rcases h with h | h
      · left; rw [h]; decide
      · right; rw [h]; exact dig _ _
    | unc n =>
      have e : wordsOf (CId.unc n).display = [str% "UncommittedConceptId:", Nat.toDigits 10 n] := by
        show wordsFrom [] (str% "UncommittedConceptId:" ++ ' ' :: (Nat.toDigits 10 n)) = _
        rw [wordsFrom_sep _ _ _ (by decide) sep_space, wordsFrom_plain _ _ (pl n)]
        rw [if_neg (by decide), if_neg (by simp)]
        rfl
      rw [e] at h
      simp only [List.mem_cons, List.not_mem_nil, or_false] at h
      rcases h with h | h
      · left; rw [h]; decide
      · right; rw [h]; have := dig n []; rwa [List.append_nil] at this

theorem name_not_reserved {s : Str} (h : Name s) : ¬ Reserved s := by
  intro hr
  rcases reserved_cases hr with h1 | ⟨c, h1, h2⟩
  · exact h.2.1 h1
  · rw [h.2.2 c h1] at h2; cases h2

/-- Swap two texts. -/
def swapStr (a b s : Str) : Str := if s = a then b else if s = b then a else s

theorem swapStr_swap (a b s : Str) : swapStr a b (swapStr a b s) = s := by
  unfold swapStr
  by_cases h1 : s = a
  · subst h1
    by_cases h2 : b = s
    · simp [h2]
    · simp [h2]
  · by_cases h2 : s = b
    · subst h2; simp [h1]
    · simp [h1, h2]

/-- The renaming that swaps two names. -/
def swapNames (a b : Str) (ha : Name a) (hb : Name b) : Words where
  to := swapStr a b
  back := swapStr a b
  word s hs := by unfold swapStr; split; · exact hb.1
                  split; · exact ha.1
                  exact hs
  word' s hs := by unfold swapStr; split; · exact hb.1
                   split; · exact ha.1
                   exact hs
  back_to s _ := swapStr_swap a b s
  to_back s _ := swapStr_swap a b s
  keeps s hs := by
    unfold swapStr
    rw [if_neg (fun h : s = a => name_not_reserved ha (h ▸ hs)),
      if_neg (fun h : s = b => name_not_reserved hb (h ▸ hs))]

/-- One renaming after another. -/
def thenWords (u w : Words) : Words where
  to s := w.to (u.to s)
  back s := u.back (w.back s)
  word s hs := w.word _ (u.word s hs)
  word' s hs := u.word' _ (w.word' s hs)
  back_to s hs := by rw [w.back_to _ (u.word s hs), u.back_to s hs]
  to_back s hs := by rw [u.to_back _ (w.word' s hs), w.to_back s hs]
  keeps s hs := by rw [u.keeps s hs, w.keeps s hs]

/-- No renaming. -/
def sameWords : Words where
  to s := s
  back s := s
  word _ h := h
  word' _ h := h
  back_to _ _ := rfl
  to_back _ _ := rfl
  keeps _ _ := rfl

/-- Any names can take the place of any others. -/
theorem exists_words {xs ys : List Str} (hl : xs.length = ys.length) (hx : xs.Nodup) (hy : ys.Nodup)
    (nx : ∀ x ∈ xs, Name x) (ny : ∀ y ∈ ys, Name y) :
    ∃ w : Words, xs.map w.to = ys ∧ (∀ p ∈ programWords, w.to p = p) ∧ ∀ z, Name z → Name (w.to z) := by
  induction xs generalizing ys with
  | nil =>
    cases ys with
    | nil => exact ⟨sameWords, rfl, fun _ _ => rfl, fun _ h => h⟩
    | cons _ _ => cases hl
  | cons x xs ih =>
    cases ys with
    | nil => cases hl
    | cons y ys =>
      obtain ⟨hxn, hx'⟩ := List.nodup_cons.1 hx
      obtain ⟨hyn, hy'⟩ := List.nodup_cons.1 hy
      obtain ⟨w, h1, h2, h3⟩ := ih (by simpa using hl) hx' hy' (fun z hz => nx z (by simp [hz]))
        (fun z hz => ny z (by simp [hz]))
      have nwx := h3 x (nx x (by simp))
      have nyy := ny y (by simp)
      have hinj : ∀ z ∈ xs, w.to z ≠ w.to x := by
        intro z hz e
        have := congrArg w.back e
        rw [w.back_to _ (nx z (by simp [hz])).1, w.back_to _ (nx x (by simp)).1] at this
        exact hxn (this ▸ hz)
      refine ⟨thenWords w (swapNames (w.to x) y nwx nyy), ?_, ?_, ?_⟩
      · rw [List.map_cons]
        congr 1
        · show swapStr _ _ (w.to x) = y
          simp [swapStr]
        · rw [← h1]
          apply List.map_congr_left
          intro z hz
          show swapStr _ _ (w.to z) = w.to z
          have hzy : w.to z ∈ ys := by rw [← h1]; exact List.mem_map_of_mem hz
          unfold swapStr
          rw [if_neg (hinj z hz), if_neg (fun e : w.to z = y => hyn (e ▸ hzy))]
      · intro p hp
        show swapStr _ _ (w.to p) = p
        rw [h2 p hp]
        unfold swapStr
        rw [if_neg (fun e : p = w.to x => nwx.2.1 (e ▸ hp)), if_neg (fun e : p = y => nyy.2.1 (e ▸ hp))]
      · intro z hz
        show Name (swapStr _ _ (w.to z))
        unfold swapStr
        split
        · exact nyy
        · split
          · exact nwx
          · exact h3 z hz

end Zia

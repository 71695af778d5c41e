import Verif.Lemmas.Arrange

/-!
# Sessions about words of two kinds
-/

namespace Zia.Spec
open Relation

/-- No pair leads from one kind of words to the other. -/
def Apart (A : Str → Bool) (L : Facts) : Prop := ∀ a b, (a, b) ∈ L → A a = A b

/-- The pairs of the words of one kind are the same. -/
def AgreeOn (A : Str → Bool) (L L' : Facts) : Prop := ∀ a b, A a = true → ((a, b) ∈ L ↔ (a, b) ∈ L')

variable {A : Str → Bool} {L L' : Facts} {x y t : Str}

theorem AgreeOn.none (e : AgreeOn A L L') (hx : A x = true) : (∀ z, (x, z) ∉ L) ↔ ∀ z, (x, z) ∉ L' :=
  forall_congr' fun z => not_congr (e x z hx)

theorem Apart.path (h : Apart A L) (e : AgreeOn A L L') (hx : A x = true) (p : ReflTransGen (fun a b => (a, b) ∈ L) x t) :
    ReflTransGen (fun a b => (a, b) ∈ L') x t ∧ A t = true := by
  induction p with
  | refl => exact ⟨.refl, hx⟩
  | tail _ s ih => exact ⟨ih.1.tail ((e _ _ ih.2).1 s), (h _ _ s).symm.trans ih.2⟩

theorem Apart.back (h : Apart A L) (e : AgreeOn A L L') (hx : A x = true) (p : ReflTransGen (fun a b => (a, b) ∈ L') x t) :
    ReflTransGen (fun a b => (a, b) ∈ L) x t ∧ A t = true := by
  induction p with
  | refl => exact ⟨.refl, hx⟩
  | tail _ s ih =>
    have s' := (e _ _ ih.2).2 s
    exact ⟨ih.1.tail s', (h _ _ s').symm.trans ih.2⟩

theorem Apart.transGen (h : Apart A L) (e : AgreeOn A L L') (hx : A x = true) :
    TransGen (fun a b => (a, b) ∈ L) x t ↔ TransGen (fun a b => (a, b) ∈ L') x t := by
  constructor <;> intro p <;> obtain ⟨z, p, s⟩ := TransGen.tail'_iff.1 p
  · obtain ⟨q, hz⟩ := h.path e hx p
    exact TransGen.tail' q ((e _ _ hz).1 s)
  · obtain ⟨q, hz⟩ := h.back e hx p
    exact TransGen.tail' q ((e _ _ hz).2 s)

theorem Apart.ends (h : Apart A L) (e : AgreeOn A L L') (hx : A x = true) (p : EndsIn L x t) : EndsIn L' x t := by
  obtain ⟨q, ht⟩ := h.path e hx p.1
  exact ⟨q, (e.none ht).1 p.2⟩

theorem Apart.step (h : Apart A L) (e : AgreeOn A L L') (hx : A x = true) (p : OneStep L x y) : OneStep L' x y ∧ A y = true := by
  rcases p with p | ⟨rfl, p⟩
  · exact ⟨.inl ((e _ _ hx).1 p), (h _ _ p).symm.trans hx⟩
  · exact ⟨.inr ⟨rfl, (e.none hx).1 p⟩, hx⟩

theorem Apart.verdict (h : Apart A L) (e : AgreeOn A L L') (hx : A x = true) (hy : A y = true) (v : Verdict L x y t) :
    Verdict L' x y t := by
  induction v with
  | same => exact .same
  | leads ne p => exact .leads ne ((h.transGen e hx).1 p)
  | reverse ne p => exact .reverse ne ((h.transGen e hy).1 p)
  | stuck ne nx ny => exact .stuck ne ((e.none hx).1 nx) ((e.none hy).1 ny)
  | moved ne p q m sx sy _ ih =>
    obtain ⟨s1, m1⟩ := h.step e hx sx
    obtain ⟨s2, m2⟩ := h.step e hy sy
    exact .moved ne (fun k => p ((h.transGen e hx).2 k)) (fun k => q ((h.transGen e hy).2 k))
      (m.imp fun z hz => hz.imp (e _ _ hx).1 (e _ _ hy).1) s1 s2 (ih m1 m2)

theorem Apart.allowed (h : Apart A L) (e : AgreeOn A L L') (hx : A x = true) (hy : A y = true) (a : Allowed L x y) :
    Allowed L' x y := ⟨a.1, (e.none hx).1 a.2.1, fun k => a.2.2 ((h.transGen e hy).2 k)⟩

theorem Apart.cons (h : Apart A L) (hxy : A x = A y) : Apart A ((x, y) :: L) := by
  intro a b hm
  rcases List.mem_cons.1 hm with e | hm
  · cases e; exact hxy
  · exact h a b hm

theorem Apart.without (h : Apart A L) (x : Str) : Apart A (L.without x) :=
  fun a b hm => h a b (List.mem_of_mem_filter hm)

theorem AgreeOn.cons (e : AgreeOn A L L') (x y : Str) : AgreeOn A ((x, y) :: L) ((x, y) :: L') :=
  fun a b ha => by rw [List.mem_cons, List.mem_cons, e a b ha]

theorem AgreeOn.without (e : AgreeOn A L L') (x : Str) : AgreeOn A (L.without x) (L'.without x) :=
  fun a b ha => by simp only [Facts.without, List.mem_filter, e a b ha]

theorem AgreeOn.consLeft (e : AgreeOn A L L') (hx : A x = false) : AgreeOn A ((x, y) :: L) L' := by
  intro a b ha
  rw [List.mem_cons, ← e a b ha]
  refine ⟨fun h => h.resolve_left fun k => ?_, .inr⟩
  cases k
  rw [ha] at hx
  cases hx

theorem AgreeOn.withoutLeft (e : AgreeOn A L L') (hx : A x = false) : AgreeOn A (L.without x) L' := by
  intro a b ha
  simp only [Facts.without, List.mem_filter, e a b ha]
  refine ⟨fun h => h.1, fun h => ⟨h, ?_⟩⟩
  simp only [decide_eq_true_eq]
  rintro rfl
  rw [ha] at hx
  cases hx

theorem saidAbout_in {s : Say} (h : s.words.all A = true) (said : List Say) :
    saidAbout A (s :: said) = s :: saidAbout A said := by simp only [saidAbout, List.filter_cons, h, if_true]

theorem saidAbout_out {s : Say} (h : s.words.all A = false) (said : List Say) : saidAbout A (s :: said) = saidAbout A said := by
  simp [saidAbout, List.filter_cons, h]

theorem answersAbout_in {s : Say} (h : s.words.all A = true) (said : List Say) (r : Str) (outs : List Str) :
    answersAbout A (s :: said) (r :: outs) = r :: answersAbout A said outs := by
  simp only [answersAbout, List.zip_cons_cons, List.filter_cons, h, if_true, List.map_cons]

theorem answersAbout_out {s : Say} (h : s.words.all A = false) (said : List Say) (r : Str) (outs : List Str) :
    answersAbout A (s :: said) (r :: outs) = answersAbout A said outs := by
  simp [answersAbout, List.filter_cons, h]

/-- The commands of one kind are answered as if the others were not there. -/
theorem Talk.about {said : List Say} {outs : List Str} (k : Talk L said outs) (h : Apart A L) (e : AgreeOn A L L')
    (hA : ∀ s ∈ said, (∀ t ∈ s.words, A t = true) ∨ ∀ t ∈ s.words, A t = false) :
    Talk L' (saidAbout A said) (answersAbout A said outs) := by
  have inn : ∀ {s : Say}, (∀ t ∈ s.words, A t = true) → s.words.all A = true := fun h => List.all_eq_true.2 h
  have out : ∀ {s : Say}, (∀ t ∈ s.words, A t = false) → s.words.all A = false := fun {s} h => by
    cases s <;> simp [Say.words] at h ⊢ <;> simp [h]
  induction k generalizing L' with
  | nil => exact .nil
  | @tell L x y rest outs ha _ ih =>
    have ih' := fun {M : Facts} a b => @ih M a b fun s hs => hA s (List.mem_cons_of_mem _ hs)
    rcases hA _ (List.mem_cons_self ..) with m | m
    · have hx := m x (by simp [Say.words])
      have hy := m y (by simp [Say.words])
      rw [saidAbout_in (inn m), answersAbout_in (inn m)]
      exact .tell (h.allowed e hx hy ha) (ih' (h.cons (hx.trans hy.symm)) (e.cons x y))
    · have hx := m x (by simp [Say.words])
      have hy := m y (by simp [Say.words])
      rw [saidAbout_out (out m), answersAbout_out (out m)]
      exact ih' (h.cons (hx.trans hy.symm)) (e.consLeft hx)
  | @existing L x y z rest outs hne hz _ ih =>
    have ih' := fun {M : Facts} a b => @ih M a b fun s hs => hA s (List.mem_cons_of_mem _ hs)
    rcases hA _ (List.mem_cons_self ..) with m | m
    · rw [saidAbout_in (inn m), answersAbout_in (inn m)]
      exact .existing hne ((e _ _ (m x (by simp [Say.words]))).1 hz) (ih' h e)
    · rw [saidAbout_out (out m), answersAbout_out (out m)]
      exact ih' h e
  | @cyclic L x y rest outs hne no hc _ ih =>
    have ih' := fun {M : Facts} a b => @ih M a b fun s hs => hA s (List.mem_cons_of_mem _ hs)
    rcases hA _ (List.mem_cons_self ..) with m | m
    · rw [saidAbout_in (inn m), answersAbout_in (inn m)]
      exact .cyclic hne ((e.none (m x (by simp [Say.words]))).1 no) ((h.transGen e (m y (by simp [Say.words]))).1 hc) (ih' h e)
    · rw [saidAbout_out (out m), answersAbout_out (out m)]
      exact ih' h e
  | @itself L x z rest outs hz _ ih =>
    have ih' := fun {M : Facts} a b => @ih M a b fun s hs => hA s (List.mem_cons_of_mem _ hs)
    rcases hA _ (List.mem_cons_self ..) with m | m
    · rw [saidAbout_in (inn m), answersAbout_in (inn m)]
      exact .itself ((e _ _ (m x (by simp [Say.words]))).1 hz) (ih' (h.without x) (e.without x))
    · rw [saidAbout_out (out m), answersAbout_out (out m)]
      exact ih' (h.without x) (e.withoutLeft (m x (by simp [Say.words])))
  | @idle L x rest outs no _ ih =>
    have ih' := fun {M : Facts} a b => @ih M a b fun s hs => hA s (List.mem_cons_of_mem _ hs)
    rcases hA _ (List.mem_cons_self ..) with m | m
    · rw [saidAbout_in (inn m), answersAbout_in (inn m)]
      exact .idle ((e.none (m x (by simp [Say.words]))).1 no) (ih' h e)
    · rw [saidAbout_out (out m), answersAbout_out (out m)]
      exact ih' h e
  | @forget L x z rest outs hz _ ih =>
    have ih' := fun {M : Facts} a b => @ih M a b fun s hs => hA s (List.mem_cons_of_mem _ hs)
    rcases hA _ (List.mem_cons_self ..) with m | m
    · rw [saidAbout_in (inn m), answersAbout_in (inn m)]
      exact .forget ((e _ _ (m x (by simp [Say.words]))).1 hz) (ih' (h.without x) (e.without x))
    · rw [saidAbout_out (out m), answersAbout_out (out m)]
      exact ih' (h.without x) (e.withoutLeft (m x (by simp [Say.words])))
  | @nothing L x rest outs no _ ih =>
    have ih' := fun {M : Facts} a b => @ih M a b fun s hs => hA s (List.mem_cons_of_mem _ hs)
    rcases hA _ (List.mem_cons_self ..) with m | m
    · rw [saidAbout_in (inn m), answersAbout_in (inn m)]
      exact .nothing ((e.none (m x (by simp [Say.words]))).1 no) (ih' h e)
    · rw [saidAbout_out (out m), answersAbout_out (out m)]
      exact ih' h e
  | @ask L x o rest outs ht _ ih =>
    have ih' := fun {M : Facts} a b => @ih M a b fun s hs => hA s (List.mem_cons_of_mem _ hs)
    rcases hA _ (List.mem_cons_self ..) with m | m
    · rw [saidAbout_in (inn m), answersAbout_in (inn m)]
      exact .ask (h.ends e (m x (by simp [Say.words])) ht) (ih' h e)
    · rw [saidAbout_out (out m), answersAbout_out (out m)]
      exact ih' h e
  | @wonder L x y o rest outs ht _ ih =>
    have ih' := fun {M : Facts} a b => @ih M a b fun s hs => hA s (List.mem_cons_of_mem _ hs)
    rcases hA _ (List.mem_cons_self ..) with m | m
    · rw [saidAbout_in (inn m), answersAbout_in (inn m)]
      exact .wonder (h.verdict e (m x (by simp [Say.words])) (m y (by simp [Say.words])) ht) (ih' h e)
    · rw [saidAbout_out (out m), answersAbout_out (out m)]
      exact ih' h e
  | @pair L x y a b rest outs hx hy _ ih =>
    have ih' := fun {M : Facts} a b => @ih M a b fun s hs => hA s (List.mem_cons_of_mem _ hs)
    rcases hA _ (List.mem_cons_self ..) with m | m
    · rw [saidAbout_in (inn m), answersAbout_in (inn m)]
      exact .pair (h.ends e (m x (by simp [Say.words])) hx) (h.ends e (m y (by simp [Say.words])) hy) (ih' h e)
    · rw [saidAbout_out (out m), answersAbout_out (out m)]
      exact ih' h e
  | @name L x rest outs _ ih =>
    have ih' := fun {M : Facts} a b => @ih M a b fun s hs => hA s (List.mem_cons_of_mem _ hs)
    rcases hA _ (List.mem_cons_self ..) with m | m
    · rw [saidAbout_in (inn m), answersAbout_in (inn m)]
      exact .name (ih' h e)
    · rw [saidAbout_out (out m), answersAbout_out (out m)]
      exact ih' h e
  | @arrow L x z o rest outs hz ht _ ih =>
    have ih' := fun {M : Facts} a b => @ih M a b fun s hs => hA s (List.mem_cons_of_mem _ hs)
    rcases hA _ (List.mem_cons_self ..) with m | m
    · have hx := m x (by simp [Say.words])
      rw [saidAbout_in (inn m), answersAbout_in (inn m)]
      exact .arrow ((e _ _ hx).1 hz) (h.ends e hx ht) (ih' h e)
    · rw [saidAbout_out (out m), answersAbout_out (out m)]
      exact ih' h e
  | @arrowIdle L x rest outs no _ ih =>
    have ih' := fun {M : Facts} a b => @ih M a b fun s hs => hA s (List.mem_cons_of_mem _ hs)
    rcases hA _ (List.mem_cons_self ..) with m | m
    · rw [saidAbout_in (inn m), answersAbout_in (inn m)]
      exact .arrowIdle ((e.none (m x (by simp [Say.words]))).1 no) (ih' h e)
    · rw [saidAbout_out (out m), answersAbout_out (out m)]
      exact ih' h e

/-- The words of the commands of one kind were mentioned by commands of that kind. -/
theorem Heard.about {K K' : List Str} {said : List Say} (h : Heard K said) (hK : ∀ t ∈ K, A t = true → t ∈ K')
    (hA : ∀ s ∈ said, (∀ t ∈ s.words, A t = true) ∨ ∀ t ∈ s.words, A t = false) :
    Heard K' (saidAbout A said) := by
  induction said generalizing K K' with
  | nil => trivial
  | cons s said ih =>
    have hA' : ∀ q ∈ said, (∀ t ∈ q.words, A t = true) ∨ ∀ t ∈ q.words, A t = false :=
      fun q hq => hA q (List.mem_cons_of_mem _ hq)
    by_cases m : s.words.all A = true
    · rw [saidAbout_in m]
      have m' := List.all_eq_true.1 m
      refine ⟨fun x y e => ?_, ih h.2 (fun t ht k => ?_) hA'⟩
      · have w : x ∈ s.words ∧ y ∈ s.words := by rcases e with rfl | rfl <;> simp [Say.words]
        exact ⟨hK x (h.1 x y e).1 (m' x w.1), hK y (h.1 x y e).2 (m' y w.2)⟩
      · rcases List.mem_append.1 ht with ht | ht
        · exact List.mem_append_left _ ht
        · exact List.mem_append_right _ (hK t ht k)
    · rw [saidAbout_out (by simpa using m)]
      refine ih h.2 (fun t ht k => ?_) hA'
      rcases List.mem_append.1 ht with ht | ht
      · rcases hA s (List.mem_cons_self ..) with w | w
        · exact absurd (List.all_eq_true.2 w) m
        · rw [w t ht] at k
          cases k
      · exact hK t ht k

end Zia.Spec

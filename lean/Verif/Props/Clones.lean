import Verif.Props.Cache
import Verif.Props.Session
import Verif.Spec.Clones

/-!
# Clones that are asked about words
-/

namespace Zia.Props

open Spec CM

/-- `Says` is a `World.Step` with the command and the answer in view. -/
theorem says_step [HashOrder] {n i : Nat} {u r : Str} {w w' : World} (h : Says n i u r w w') : World.Step i w w' := by
  cases h with
  | query hi hc h hd he => exact .query hi hc h hd he
  | change old hi hc h hd he => exact .change old hi hc h hd he

section

variable [HashOrder] {n : Nat} {B : Str → Prop} {K : List Str} {L : Facts} {c : Ctx}

/-- The context after a session. -/
theorem Talking.runs {said : List Say} {us outs : List Str} {c' : Ctx} (h : Talking n B K L c)
    (hw : ∀ s ∈ said, ∀ t ∈ s.words, IsSymbol t ∧ Syn.isVariableName t = false ∧ ¬B t) (hh : Heard K said)
    (hs : Written said us) (he : Context.run n c us = .ok (outs, c')) :
    ∃ K' L', Talking n B K' L' c' ∧ (∀ t, t ∈ K' ↔ t ∈ K ∨ ∃ s ∈ said, t ∈ s.words) ∧
      ∀ rest o, Talk L' rest o → Talk L (said ++ rest) (outs ++ o) := by
  induction hs generalizing K L c outs with
  | nil => cases he; exact ⟨K, L, h, by simp, fun _ _ t => t⟩
  | @cons s u said us hu _ ih =>
    simp only [Context.run, Except.bind_eq_ok] at he
    obtain ⟨⟨r, c1⟩, h1, ⟨rs, c2⟩, h2, h3⟩ := he
    cases h3
    obtain ⟨L1, h', _, t⟩ := h.said (hw s (by simp)) hh.1 hu h1
    obtain ⟨K', L', h'', m, t'⟩ := ih h' (fun q hq => hw q (by simp [hq])) hh.2 h2
    refine ⟨K', L', h'', fun a => ?_, fun rest o k => t _ _ (t' _ _ k)⟩
    rw [m, List.mem_append]
    simp only [List.mem_cons, exists_eq_or_imp]
    tauto

/-- A question about words mentioned before introduces nothing. -/
theorem Talking.quiet {s : Say} {u : Str} {q : Except ZiaError Str} {c3 : Ctx} (h : Talking n B K L c)
    (hw : ∀ t ∈ s.words, IsSymbol t ∧ Syn.isVariableName t = false) (hq : s.Question) (hk : ∀ t ∈ s.words, t ∈ K)
    (hu : s.Written u) (hcmd : Context.command n u c = .ok (q, c3)) : Asking (.rest c.snap) (Means n K c.snap) c3 := by
  have S := h.speech
  have a := h.asking
  have hd := (History.settled h.history).delta
  cases s with
  | tell x y => exact hq.elim
  | forget x => exact hq.elim
  | ask x =>
    cases hu
    obtain ⟨x1, x2⟩ := hw x (by simp [Say.words])
    have mx := hk x (by simp [Say.words])
    obtain ⟨i, hi, _⟩ := S.word x mx
    exact (ask_read S.asked ⟨x, mx, hi⟩ (parse_word_with x1 fun k hk => by
      obtain ⟨X, pX, eX⟩ := leafOf_known (c := c) x1 x2 (id := .com i) (by rw [hd]; exact hi) hk
      rw [eX]
      exact Ends.pure ⟨a, X, pX, rfl⟩) q c3 hcmd).1
  | wonder x y =>
    obtain ⟨x1, x2⟩ := hw x (by simp [Say.words])
    obtain ⟨y1, y2⟩ := hw y (by simp [Say.words])
    have mx := hk x (by simp [Say.words])
    have my := hk y (by simp [Say.words])
    obtain ⟨i, h1, _⟩ := S.word x mx
    obtain ⟨j, h2, _⟩ := S.word y my
    have hp : AsksWhether c.snap (Means n K c.snap) n u i j c := by
      cases hu with
      | full =>
        exact asksWhether_wondering S.asked S.ties x1 y1 x2 y2 h.asking ⟨y, my, h2⟩
          (by rw [hd]; exact S.redWord) (by rw [hd]; exact h1) (by rw [hd]; exact h2)
      | wonder =>
        exact asksWhether_bare S.asked S.ties x1 y1 x2 y2 h.asking ⟨x, mx, h1⟩ ⟨y, my, h2⟩
          ((Pends.rest S.orderly).ranked S.orderly S.ties.wide)
          (by rw [hd]; exact S.redWord) (by rw [hd]; exact h1) (by rw [hd]; exact h2)
    exact (wonder_read S.asked S.ties ⟨x, mx, h1⟩ ⟨y, my, h2⟩ hp q c3 hcmd).1
  | pair x y =>
    cases hu
    obtain ⟨x1, x2⟩ := hw x (by simp [Say.words])
    obtain ⟨y1, y2⟩ := hw y (by simp [Say.words])
    have mx := hk x (by simp [Say.words])
    have my := hk y (by simp [Say.words])
    obtain ⟨i, h1, _⟩ := S.word x mx
    obtain ⟨j, h2, _⟩ := S.word y my
    have e : (Say.pair x y).text = coupleText x y := by simp [Say.text, coupleText]
    rw [e] at hcmd
    exact (couple_word S.asked S.ties x1 y1 x2 y2 h.asking ⟨x, mx, h1⟩ ⟨y, my, h2⟩ (by rw [hd]; exact h1)
      (by rw [hd]; exact h2) q c3 hcmd).1
  | name x =>
    cases hu
    obtain ⟨x1, x2⟩ := hw x (by simp [Say.words])
    have mx := hk x (by simp [Say.words])
    obtain ⟨i, hi, _⟩ := S.word x mx
    have sym : IsSymbol (str% "label_of") := ⟨by decide, by simp [SymbolChar]; decide⟩
    have bf := S.orderly.built .label
    refine (name_read S.asked S.orderly ⟨x, mx, hi⟩ (S.plain mx hi).1 (S.constant _ (by simp))
      (built_simple bf) bf ?_ q c3 hcmd).1
    refine (parse_couple sym x1 (by decide) x2 (by rw [hd]; exact S.labelWord) (by rw [hd]; exact hi)).mono ?_
    rintro r _ ⟨rfl, hX⟩
    exact ⟨a, hX⟩
  | arrow x =>
    cases hu
    obtain ⟨x1, x2⟩ := hw x (by simp [Say.words])
    have mx := hk x (by simp [Say.words])
    obtain ⟨i, hi, _⟩ := S.word x mx
    have e : (Say.arrow x).text = coupleText x (str% "->") := by simp [Say.text, coupleText]
    rw [e] at hcmd
    refine (asked_read S.asked S.ties ⟨x, mx, hi⟩ (S.plain mx hi).1 ?_ q c3 hcmd).1
    refine parse_arrow_with x1 (o := .com (builtin .reduction)) (by rw [hd]; exact S.redWord) fun k V pV hk => ?_
    obtain ⟨X, pX, eX⟩ := leafOf_known (c := c) x1 x2 (id := .com i) (by rw [hd]; exact hi) hk
    rw [eX]
    exact Ends.pure ⟨a, X, V, pX, pV, rfl⟩

/-- A question about words mentioned before changes nothing but the cache. -/
theorem Talking.asked {s : Say} {u r : Str} {c1 : Ctx} (h : Talking n B K L c)
    (hw : ∀ t ∈ s.words, IsSymbol t ∧ Syn.isVariableName t = false ∧ ¬B t) (hq : s.Question)
    (hk : ∀ t ∈ s.words, t ∈ K) (hu : s.Written u) (h1 : Context.execute n c u = .ok (r, c1)) :
    c1 = { c with cache := c1.cache } ∧ (∀ q c3, Context.command n u c = .ok (q, c3) → c3.delta = c.delta) ∧
      Talking n B K L c1 ∧ Talk L [s] [r] := by
  have hd := (History.settled h.history).delta
  have hcmd : ∀ q c3, Context.command n u c = .ok (q, c3) → Asking (.rest c.snap) (Means n K c.snap) c3 :=
    fun q c3 e => h.quiet (fun t ht => ⟨(hw t ht).1, (hw t ht).2.1⟩) hq hk hu e
  obtain ⟨L', h', f, t⟩ := h.said hw (fun x y e => by
    rcases e with rfl | rfl <;> exact ⟨hk x (by simp [Say.words]), hk y (by simp [Say.words])⟩) hu h1
  obtain ⟨q, c3, e, _, ha, e1, e2, e3, _⟩ := execute_command h1
  have ea := hcmd q c3 e
  rw [ea.delta] at ha
  have es := apply_nothing (History.settled h.history).prev ha
  have ec : c1 = { c with cache := c1.cache } := by
    have v := (History.settled h.history).vars
    have b := (History.settled h.history).bound
    have p := History.unpinned h.history
    have p1 := History.unpinned h'.history
    cases c1
    cases c
    simp only at *
    subst es hd e1 v e2 b e3 p p1
    rfl
  have hK : ∀ a, a ∈ K ↔ a ∈ s.words ++ K := fun a => ⟨fun m => List.mem_append_right _ m, fun m => by
    rcases List.mem_append.1 m with m | m
    exacts [hk a m, m]⟩
  refine ⟨ec, fun q c3 e => by rw [(hcmd q c3 e).delta, hd]; rfl, ?_, ?_⟩
  · cases f hq
    exact h'.same hK
  · cases f hq
    exact t _ _ .nil

/-- Contexts that share one cache and differ in nothing. -/
def Together (n : Nat) (B : Str → Prop) (K : List Str) (L : Facts) (c : Ctx) (w : World) : Prop :=
  ∃ ca : Cache, w.cells = [ca] ∧ (∀ (i : Nat) (c0 : Ctx) (k : Nat), w.sessions[i]? = some (c0, k) →
      k = 0 ∧ { c0 with cache := ca } = { c with cache := ca }) ∧
    Talking n B K L { c with cache := ca }

theorem Together.clone {w : World} (h : Together n B K L c w) (i : Nat) : Together n B K L c (w.clone i) := by
  unfold World.clone
  split
  · exact h
  · rename_i c0 k hi
    obtain ⟨ca, e, hs, ht⟩ := h
    refine ⟨ca, e, fun j c1 m hj => ?_, ht⟩
    rw [List.getElem?_append] at hj
    split at hj
    · exact hs j c1 m hj
    · rw [List.getElem?_singleton] at hj
      split at hj
      · cases hj
        obtain ⟨rfl, e1⟩ := hs i c0 k hi
        refine ⟨rfl, ?_⟩
        have hd : Nested.default = c.delta := (History.settled ht.history).delta.symm
        rw [hd]
        exact congrArg (fun d : Ctx => { d with delta := c.delta }) e1
      · cases hj

theorem Together.say {w w' : World} (h : Together n B K L c w) {i : Nat} {s : Say} {u r : Str} (hu : s.Written u)
    (hw : ∀ t ∈ s.words, IsSymbol t ∧ Syn.isVariableName t = false ∧ ¬B t) (hq : s.Question)
    (hk : ∀ t ∈ s.words, t ∈ K) (hs : Says n i u r w w') : Together n B K L c w' ∧ Talk L [s] [r] := by
  obtain ⟨ca, e, ha, ht⟩ := h
  have ctx : ∀ c0 k c2, w.sessions[i]? = some (c0, k) → w.context? i = some c2 → k = 0 ∧ c2 = { c with cache := ca } := by
    intro c0 k c2 hi hc
    obtain ⟨rfl, e1⟩ := ha i c0 k hi
    refine ⟨rfl, ?_⟩
    simp only [World.context?, hi, e, List.getElem?_cons_zero, Option.map_some, Option.some.injEq] at hc
    rw [← hc, e1]
  cases hs with
  | @query k c2 c0 c1 c' x hi hc h hd he =>
    obtain ⟨rfl, rfl⟩ := ctx _ _ _ hi hc
    obtain ⟨e1, _, ht', ta⟩ := ht.asked hw hq hk hu h
    refine ⟨⟨c'.cache, by simp [e], fun j c3 m hj => ?_, ?_⟩, ta⟩
    · simp only [List.getElem?_set] at hj
      split at hj
      · split at hj
        · cases hj
          exact ⟨rfl, e1⟩
        · cases hj
      · obtain ⟨rfl, e2⟩ := ha j c3 m hj
        exact ⟨rfl, congrArg (fun d : Ctx => { d with cache := c'.cache }) e2⟩
    · rw [e1] at ht'
      exact ht'
  | @change k c2 c0 c1 c' x old hi hc h hd he =>
    obtain ⟨rfl, rfl⟩ := ctx _ _ _ hi hc
    exact absurd ((ht.asked hw hq hk hu h).2.1 _ _ hd) he

theorem Together.chat {w w' : World} {l : List (Say × Str)} (h : Together n B K L c w)
    (hl : ∀ p ∈ l, p.1.Question ∧ ∀ t ∈ p.1.words, (IsSymbol t ∧ Syn.isVariableName t = false ∧ ¬B t) ∧ t ∈ K)
    (hc : Chat n w l w') : ∀ p ∈ l, Talk L [p.1] [p.2] := by
  induction hc with
  | nil => simp
  | clone i _ ih => exact ih (h.clone i) hl
  | @say w w' w'' i s u r l hu hs _ ih =>
    obtain ⟨hq, ht⟩ := hl (s, r) (by simp)
    obtain ⟨h', ta⟩ := h.say hu (fun t m => (ht t m).1) hq (fun t m => (ht t m).2) hs
    intro p hp
    rcases List.mem_cons.1 hp with rfl | hp
    · exact ta
    · exact ih h' (fun q hq => hl q (by simp [hq])) p hp

end

/-! ## C31: clones that are asked about words -/

/-- C31: the part of the claim about answers that holds for words. After a session as in `words_session`, let the context
and its clones, and clones of these, be asked questions about the words mentioned in the session, in any order. Then each of
them is answered as the context would have answered right after the session. Missing: other contexts and other commands; the
claim is false of answers in general (`clone_changes_answer`). -/
theorem words_clones_partial [HashOrder] {n : Nat} (hn : 1 ≤ n) {said : List Say} {us outs : List Str} {c : Ctx}
    (hw : ∀ s ∈ said, ∀ t ∈ s.words, IsSymbol t ∧ Syn.isVariableName t = false ∧ NewWord boot.snap t)
    (hh : Heard [] said) (hs : Written said us) (he : Context.run n boot us = .ok (outs, c)) {l : List (Say × Str)}
    {w : World} (hl : ∀ p ∈ l, p.1.Question ∧ ∀ t ∈ p.1.words, ∃ s ∈ said, t ∈ s.words)
    (hc : Chat n (World.single c) l w) : ∀ p ∈ l, Talk [] (said ++ [p.1]) (outs ++ [p.2]) := by
  have new : ∀ s ∈ said, ∀ t ∈ s.words, IsSymbol t ∧ Syn.isVariableName t = false ∧ ¬∃ k, IsString boot.snap k t :=
    fun s hs t ht => by
      obtain ⟨h1, h2, h3⟩ := hw s hs t ht
      exact ⟨h1, h2, fun ⟨k, hk⟩ => h3 k hk⟩
  obtain ⟨K', L', h, m, t⟩ := (boot_talking hn).runs new hh hs he
  refine fun p hp => t _ _ (Together.chat (c := c) (K := K') (B := fun t => ∃ k, IsString boot.snap k t) ?_ (fun p hp => ⟨(hl p hp).1, fun t ht => ?_⟩) hc p hp)
  · refine ⟨c.cache, rfl, fun i c0 k hi => ?_, h⟩
    simp only [World.single, List.getElem?_singleton] at hi
    split at hi
    · cases hi
      exact ⟨rfl, rfl⟩
    · cases hi
  · obtain ⟨s, hs, ht⟩ := (hl p hp).2 t ht
    exact ⟨new s hs t ht, (m t).2 (.inr ⟨s, hs, ht⟩)⟩

section

open Insertion

/-- After `let (a (-> b))` the context is cloned, the clone is asked `a`, and then the context is. -/
example : ∃ w, Chat 60 (World.single Witness.taught1) [(.ask (str% "a"), str% "b"), (.ask (str% "a"), str% "b")] w := by
  have q : (do
      let p1 ← Context.command 60 (str% "a") Witness.taught1
      let p2 ← Context.execute 60 Witness.taught1 (str% "a")
      let p3 ← Context.command 60 (str% "a") { Witness.taught1 with cache := p2.2.cache }
      let p4 ← Context.execute 60 { Witness.taught1 with cache := p2.2.cache } (str% "a")
      Except.ok (decide (p1.2.delta = Witness.taught1.delta), p2.1, decide (p3.2.delta = Witness.taught1.delta), p4.1)) =
      Except.ok (ε := Fault) (true, str% "b", true, str% "b") := by decide +kernel
  simp only [Except.bind_eq_ok, Except.ok.injEq, Prod.mk.injEq, decide_eq_true_eq] at q
  obtain ⟨⟨x1, c1⟩, h1, ⟨r2, c2⟩, h2, ⟨x3, c3⟩, h3, ⟨r4, c4⟩, h4, d1, e1, d2, e2⟩ := q
  cases e1
  cases e2
  refine ⟨_, .clone 0 (.say (i := 1) (.full _) (.query (c := Witness.taught1) (c0 := Witness.taught1) rfl rfl h2 h1 d1)
    (.say (i := 0) (.full _) (.query (c0 := Witness.taught1) rfl rfl h4 h3 d2) (.nil _)))⟩

end

end Zia.Props

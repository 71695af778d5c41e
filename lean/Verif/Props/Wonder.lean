import Verif.Props.Session
import Verif.Witness.Wonder

/-!
# Questions about reductions
-/

namespace Zia.Props

open Spec

/-! ## C59: a question about a reduction is answered as what was told says -/

/-- C59: the part of the claim that holds. In a new context, let a session consist of commands `let (x (-> y))`,
`forget x`, questions `x` and questions `x (-> y)` as in `words_session`, and let the last question be `x (-> y)` or, in
another form, `x -> y`. If the
pairs told and not forgotten lead from `x` to `y`, the answer is `true`. If they do not and there is no pair for `y`, the
answer is `false` if `x` is `y`, and otherwise `z -> y`, where `z` is the word to which the pairs lead from `x`. What is
missing: that the answer is not `true` if the pairs do not lead from `x` to `y` but there is a pair for `y`; that is false
(`wonder_answered_wrongly`). What is answered then is described by `Verdict` in `words_session`. -/
theorem wonder_answered_partial [HashOrder] {n : Nat} (hn : 1 ≤ n) {said : List Say} {x y : Str} {us outs : List Str} {c' : Ctx}
    (hw : ∀ s ∈ said ++ [.wonder x y], ∀ t ∈ s.words, IsSymbol t ∧ Syn.isVariableName t = false ∧ NewWord boot.snap t)
    (hh : Heard [] (said ++ [.wonder x y]))
    (hs : Written (said ++ [.wonder x y]) us) (he : Context.run n boot us = .ok (outs, c')) :
    ∃ earlier out, outs = earlier ++ [out] ∧
      let L := said.foldl Facts.after []
      (Relation.TransGen (fun a b => (a, b) ∈ L) x y → out = str% "true") ∧
      (¬Relation.TransGen (fun a b => (a, b) ∈ L) x y → (∀ z, (y, z) ∉ L) →
        x = y ∧ out = str% "false" ∨ ∃ z, EndsIn L x z ∧ out = z ++ str% " -> " ++ y) := by
  obtain ⟨o1, o2, rfl, _, h⟩ := (words_session hn hw hh hs he).split
  cases h with
  | wonder hv t =>
    cases t
    exact ⟨o1, _, rfl, hv.led (Facts.sound_nil.foldl said), fun hp hy => hv.final hy hp⟩

section

open Insertion

/-- C59 is false: after `let (a (-> p))`, `let (p (-> q))` and `let (b (-> q))` the question `a -> b` is answered with
`true`, although no pairs lead from `a` to `b`. The two sides of the question are reduced at the same time, and what is
answered is whether `p` reduces to `q`. -/
theorem wonder_answered_wrongly : ∃ (L : Facts) (x y : Str) (c : Ctx),
    Context.run 60 boot (L.map (fun p => (Say.tell p.1 p.2).text) ++ [x ++ str% " -> " ++ y]) =
      .ok (L.map (fun _ => []) ++ [str% "true"], c) ∧
    ¬Relation.TransGen (fun a b => (a, b) ∈ L) x y := by
  have t1 : (Say.tell (str% "a") (str% "p")).text = str% "let (a (-> p))" := by decide
  have t2 : (Say.tell (str% "p") (str% "q")).text = str% "let (p (-> q))" := by decide
  have t3 : (Say.tell (str% "b") (str% "q")).text = str% "let (b (-> q))" := by decide
  refine ⟨[(str% "a", str% "p"), (str% "p", str% "q"), (str% "b", str% "q")], str% "a", str% "b", Witness.meet4, ?_,
    fun h => ?_⟩
  · simp only [List.map_cons, List.map_nil, t1, t2, t3]
    exact run_cons Witness.meet1_eq (run_cons Witness.meet2_eq (run_cons Witness.meet3_eq
      (run_cons Witness.meet4_eq rfl)))
  · obtain ⟨z, _, hz⟩ := Relation.TransGen.tail'_iff.1 h
    simp only [List.mem_cons, List.not_mem_nil, or_false, Prod.mk.injEq] at hz
    rcases hz with ⟨_, h⟩ | ⟨_, h⟩ | ⟨_, h⟩ <;> exact absurd h (by decide)

/-- The session `let (a (-> p))`, `let (p (-> q))`, `let (b (-> q))`, `a (-> q)`, `a (-> b)`, `q (-> b)`. The second
question is answered wrongly. -/
example : Talk [] [.tell (str% "a") (str% "p"), .tell (str% "p") (str% "q"), .tell (str% "b") (str% "q"),
      .wonder (str% "a") (str% "q"), .wonder (str% "a") (str% "b"), .wonder (str% "q") (str% "b")]
    [[], [], [], str% "true", str% "true", str% "false"] := by
  have h3 : (Context.run 60 Witness.meet3 [str% "a (-> q)", str% "a (-> b)", str% "q (-> b)"]).map (·.1) =
      .ok [str% "true", str% "true", str% "false"] := by decide +kernel
  cases h : Context.run 60 Witness.meet3 [str% "a (-> q)", str% "a (-> b)", str% "q (-> b)"] with
  | error e => rw [h] at h3; cases h3
  | ok p =>
    obtain ⟨r, c⟩ := p
    rw [h] at h3
    cases h3
    have he : Context.run 60 boot ([Say.tell (str% "a") (str% "p"), .tell (str% "p") (str% "q"),
        .tell (str% "b") (str% "q"), .wonder (str% "a") (str% "q"), .wonder (str% "a") (str% "b"),
        .wonder (str% "q") (str% "b")].map Say.text) =
        .ok ([[], [], [], str% "true", str% "true", str% "false"], c) := by
      have t1 : (Say.tell (str% "a") (str% "p")).text = str% "let (a (-> p))" := by decide
      have t2 : (Say.tell (str% "p") (str% "q")).text = str% "let (p (-> q))" := by decide
      have t3 : (Say.tell (str% "b") (str% "q")).text = str% "let (b (-> q))" := by decide
      have t4 : (Say.wonder (str% "a") (str% "q")).text = str% "a (-> q)" := by decide
      have t5 : (Say.wonder (str% "a") (str% "b")).text = str% "a (-> b)" := by decide
      have t6 : (Say.wonder (str% "q") (str% "b")).text = str% "q (-> b)" := by decide
      simp only [List.map_cons, List.map_nil, t1, t2, t3, t4, t5, t6]
      exact run_cons Witness.meet1_eq (run_cons Witness.meet2_eq (run_cons Witness.meet3_eq h))
    have ok : ∀ t ∈ [str% "a", str% "b", str% "p", str% "q"],
        IsSymbol t ∧ Syn.isVariableName t = false ∧ NewWord boot.snap t := by
      have a : NewWord boot.snap (str% "a") := newWord_of_check (by decide +kernel)
      have b : NewWord boot.snap (str% "b") := newWord_of_check (by decide +kernel)
      have p : NewWord boot.snap (str% "p") := newWord_of_check (by decide +kernel)
      have q : NewWord boot.snap (str% "q") := newWord_of_check (by decide +kernel)
      intro t ht
      simp only [List.mem_cons, List.not_mem_nil, or_false] at ht
      rcases ht with rfl | rfl | rfl | rfl
      exacts [⟨⟨by decide, by simp [SymbolChar]; decide⟩, by decide, a⟩,
        ⟨⟨by decide, by simp [SymbolChar]; decide⟩, by decide, b⟩,
        ⟨⟨by decide, by simp [SymbolChar]; decide⟩, by decide, p⟩,
        ⟨⟨by decide, by simp [SymbolChar]; decide⟩, by decide, q⟩]
    refine words_session (n := 60) (by decide) (fun s hs t ht => ok t ?_) (by simp [Heard, Say.words]) (written_full _) he
    simp only [List.mem_cons, List.not_mem_nil, or_false] at hs
    rcases hs with rfl | rfl | rfl | rfl | rfl | rfl <;>
      simp only [Say.words, List.mem_cons, List.not_mem_nil, or_false] at ht ⊢ <;>
      rcases ht with rfl | rfl <;> simp

end

end Zia.Props

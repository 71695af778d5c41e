import Verif.Lemmas.Apart
import Verif.Props.Arrange

/-!
# Sessions about unrelated words
-/

namespace Zia.Props

open Spec

/-! ## C68: what is said about other words does not matter -/

/-- C68: in a new context, let a session as in `words_session` mix commands about words of one kind (`A`) with commands
about other words, so that no command is about both. Then the commands about the words of the kind `A` are answered as in
the session that consists of them only (whatever the order in which hash tables are visited, the bounds on recursion, and the
brackets left out). -/
theorem unrelated_words (order order' : HashOrder) {n m : Nat} (hn : 1 ≤ n) (hm : 1 ≤ m) (A : Str → Bool) {said : List Say}
    (hA : ∀ s ∈ said, (∀ t ∈ s.words, A t = true) ∨ ∀ t ∈ s.words, A t = false) {us us' outs outs' : List Str} {c c' : Ctx}
    (hw : ∀ s ∈ said, ∀ t ∈ s.words, IsSymbol t ∧ Syn.isVariableName t = false ∧ NewWord boot.snap t)
    (hh : Heard [] said) (hs : Written said us) (hs' : Written (saidAbout A said) us')
    (he : @Context.run order n boot us = .ok (outs, c)) (he' : @Context.run order' m boot us' = .ok (outs', c')) :
    outs' = answersAbout A said outs := by
  have t := @words_session order _ hn _ _ _ _ hw hh hs he
  have t' := @words_session order' _ hm _ _ _ _ (fun s hs => hw s (List.mem_of_mem_filter hs))
    (hh.about (fun _ h => by cases h) hA) hs' he'
  exact Talk.unique Facts.sound_nil t' (t.about (fun _ _ h => by cases h) (fun _ _ _ => Iff.rfl) hA)

section

open Insertion

/-- The session `let (a (-> b))`, `let (c (-> d))`, `a`, `forget c`, `a`, and its commands about `a` and `b`. -/
example : ∃ c c',
    let A : Str → Bool := fun t => t = str% "a" || t = str% "b"
    let said : List Say := [.tell (str% "a") (str% "b"), .tell (str% "c") (str% "d"), .ask (str% "a"), .forget (str% "c"),
      .ask (str% "a")]
    (∀ s ∈ said, (∀ t ∈ s.words, A t = true) ∨ ∀ t ∈ s.words, A t = false) ∧
    saidAbout A said = [.tell (str% "a") (str% "b"), .ask (str% "a"), .ask (str% "a")] ∧
    Written said [str% "let (a (-> b))", str% "let (c (-> d))", str% "a", str% "forget c", str% "a"] ∧
    Written (saidAbout A said) [str% "let (a (-> b))", str% "a", str% "a"] ∧
    Context.run 60 boot [str% "let (a (-> b))", str% "let (c (-> d))", str% "a", str% "forget c", str% "a"] =
      .ok ([[], [], str% "b", [], str% "b"], c) ∧
    Context.run 60 boot [str% "let (a (-> b))", str% "a", str% "a"] = .ok ([[], str% "b", str% "b"], c') := by
  obtain ⟨c, h⟩ := run_taught (us := [str% "let (c (-> d))", str% "a", str% "forget c", str% "a"])
    (outs := [[], str% "b", [], str% "b"]) (by decide +kernel)
  obtain ⟨c', h'⟩ := run_taught (us := [str% "a", str% "a"])
    (outs := [str% "b", str% "b"]) (by decide +kernel)
  refine ⟨c, c', ?_, rfl, ?_, ?_, h, h'⟩
  · simp only [List.forall_mem_cons, Say.words]
    decide
  · exact .cons (.full (.tell (str% "a") (str% "b"))) (.cons (.full (.tell (str% "c") (str% "d")))
      (.cons (.full (.ask (str% "a"))) (.cons (.full (.forget (str% "c"))) (.cons (.full (.ask (str% "a"))) .nil))))
  · exact .cons (.full (.tell (str% "a") (str% "b"))) (.cons (.full (.ask (str% "a"))) (.cons (.full (.ask (str% "a"))) .nil))

end

end Zia.Props

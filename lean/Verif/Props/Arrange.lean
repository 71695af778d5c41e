import Verif.Lemmas.Arrange
import Verif.Props.Session
import Verif.Props.Spacing

/-!
# Sessions that tell the same
-/

namespace Zia.Props

open Spec

/-! ## C58: spaces and redundant brackets in sessions about words -/

/-- C58, C66, C67: a session about words may be written with any spaces and with redundant brackets. -/
theorem words_session_spelt [HashOrder] {n : Nat} (hn : 1 ≤ n) {said : List Say} {us us' outs : List Str} {c' : Ctx}
    (hw : ∀ s ∈ said, ∀ t ∈ s.words, IsSymbol t ∧ Syn.isVariableName t = false ∧ NewWord boot.snap t)
    (hh : Heard [] said) (hs : Written said us)
    (hp : List.Forall₂ (fun u u' => ∃ x y : Bracketed, x.Good ∧ SameWithin x y ∧ pieces u = x.pieces ∧ pieces u' = y.pieces)
      us us')
    (he : Context.run n boot us' = .ok (outs, c')) : Talk [] said outs := by
  refine words_session hn hw hh hs (us := us) (c' := c') ?_
  rw [← he]
  clear hs he hh hw
  generalize boot = c
  induction hp generalizing c with
  | nil => rfl
  | cons h _ ih =>
    obtain ⟨x, y, hx, hxy, e1, e2⟩ := h
    simp only [Context.run, redundant_brackets_ignored n c hx hxy e1 e2]
    congr 1
    funext p
    rw [ih p.2]

section

open Insertion

/-- The session `let (a -> b)`, `a` written ` let ((a) ->  b) `, `(a)`. -/
example : List.Forall₂ (fun u u' => ∃ x y : Bracketed, x.Good ∧ SameWithin x y ∧ pieces u = x.pieces ∧ pieces u' = y.pieces)
      [str% "let (a -> b)", str% "a"] [str% " let ((a) ->  b) ", str% "(a)"] ∧
    (Context.run 60 boot [str% " let ((a) ->  b) ", str% "(a)"]).map (·.1) = .ok [[], str% "b"] := by
  refine ⟨.cons ⟨.sym (str% "let") (.group (.sym (str% "a") (.sym (str% "->") (.sym (str% "b") .nil))) .nil),
    .sym (str% "let") (.group (.group (.sym (str% "a") .nil) (.sym (str% "->") (.sym (str% "b") .nil))) .nil), ?_,
    .sym _ (.group (.symm (.word _ _)) (.refl _)), by decide, by decide⟩
    (.cons ⟨.sym (str% "a") .nil, .group (.sym (str% "a") .nil) .nil, ?_, .symm (.word _ _), by decide, by decide⟩ .nil),
    by decide +kernel⟩
  · simp [Bracketed.Good, SymbolChar]
    decide
  · simp [Bracketed.Good, SymbolChar]
    decide

end

/-! ## C64: the order in which things are told does not matter -/

/-- C64: in a new context, let any number of commands `let (x (-> y))` about words that are not part of the language be
accepted (answered with the empty text). Then they are accepted in any other order too, and every session about words that
follows is answered in the same way after either order (and whatever the order in which hash tables are visited, the
bounds on recursion, and the brackets left out). -/
theorem told_in_any_order (order order' : HashOrder) {n m : Nat} (hn : 1 ≤ n) (hm : 1 ≤ m) {P P' : List (Str × Str)}
    (hp : P.Perm P') (hne : ∀ p ∈ P, p.1 ≠ p.2) {more : List Say} {us us' outs outs' : List Str} {c c' : Ctx}
    (hw : ∀ s ∈ P.map (fun p => Say.tell p.1 p.2) ++ more, ∀ t ∈ s.words,
      IsSymbol t ∧ Syn.isVariableName t = false ∧ NewWord boot.snap t)
    (hh : Heard [] (P.map (fun p => Say.tell p.1 p.2) ++ more))
    (hs : Written (P.map (fun p => Say.tell p.1 p.2) ++ more) us)
    (hs' : Written (P'.map (fun p => Say.tell p.1 p.2) ++ more) us')
    (he : @Context.run order n boot us = .ok (outs, c)) (he' : @Context.run order' m boot us' = .ok (outs', c'))
    (ha : ∀ o ∈ outs.take P.length, o = []) : outs' = outs := by
  have t := @words_session order _ hn _ _ _ _ hw hh hs he
  have t' := @words_session order' _ hm _ _ _ _ (fun s hs => hw s (by
    rcases List.mem_append.1 hs with hs | hs
    · exact List.mem_append_left _ ((hp.map _).mem_iff.2 hs)
    · exact List.mem_append_right _ hs)) (hh.perm hp) hs' he'
  obtain ⟨o, rfl, t, s, k⟩ := t.allTold Facts.sound_nil (by simp) hne ha
  have perm : (P.reverse ++ []).Perm (P'.reverse ++ []) := by
    rw [List.append_nil, List.append_nil]
    exact P.reverse_perm.trans (hp.trans P'.reverse_perm.symm)
  have e : ∀ p, p ∈ P.reverse ++ [] ↔ p ∈ P'.reverse ++ [] := fun p => perm.mem_iff
  rw [Talk.unique Facts.sound_nil t' (Talk.tellAll (s.congr e) ((perm.map _).nodup_iff.1 k) (t.congr e)),
    hp.length_eq]

/-! ## C65: to forget is to undo -/

/-- C65: in a session about words, let `let (x (-> y))` with different words be accepted, and be followed at once by
`forget x`. Then `forget x` is accepted, and all other commands of the session, before and after, are answered as if neither of
the two had been entered. -/
theorem forgetting_undoes_telling (order order' : HashOrder) {n m : Nat} (hn : 1 ≤ n) (hm : 1 ≤ m) {said more : List Say} {x y : Str}
    (hne : x ≠ y) {us us' outs outs' : List Str} {c c' : Ctx}
    (hw : ∀ s ∈ said ++ .tell x y :: .forget x :: more, ∀ t ∈ s.words,
      IsSymbol t ∧ Syn.isVariableName t = false ∧ NewWord boot.snap t)
    (hh : Heard [] (said ++ .tell x y :: .forget x :: more)) (hh' : Heard [] (said ++ more))
    (hs : Written (said ++ .tell x y :: .forget x :: more) us) (hs' : Written (said ++ more) us')
    (he : @Context.run order n boot us = .ok (outs, c)) (he' : @Context.run order' m boot us' = .ok (outs', c'))
    (ha : outs[said.length]? = some []) :
    ∃ before after, outs = before ++ [] :: [] :: after ∧ outs' = before ++ after ∧ before.length = said.length := by
  have t := @words_session order _ hn _ _ _ _ hw hh hs he
  have t' := @words_session order' _ hm _ _ _ _ (fun s hs => hw s (by
    rcases List.mem_append.1 hs with hs | hs
    · exact List.mem_append_left _ hs
    · exact List.mem_append_right _ (List.mem_cons_of_mem _ (List.mem_cons_of_mem _ hs)))) hh' hs' he'
  obtain ⟨o1, o2, rfl, l, f, t1⟩ := t.splitBoth
  obtain ⟨p1, p2, rfl, l', f', t2⟩ := t'.splitBoth
  cases Talk.unique Facts.sound_nil f f'
  have hL := Facts.sound_nil.foldl said
  obtain ⟨a, o, rfl, ta, t3⟩ := t1.uncons
  rw [List.getElem?_append_right (by omega), ← l, Nat.sub_self] at ha
  cases ha
  have al := ta.accepted hne
  rw [Facts.after, if_pos al] at t3
  obtain ⟨b, o, rfl, tb, t4⟩ := t3.uncons
  have hb : b = [] := by
    have := Talk.unique (hL.cons al) tb (.forget (List.mem_cons_self ..) .nil)
    exact (List.cons.inj this).1
  rw [hb]
  have e : Facts.after ((x, y) :: said.foldl Facts.after []) (.forget x) = said.foldl Facts.after [] := by
    show Facts.without _ x = _
    rw [Facts.without, List.filter_cons_of_neg (by simp)]
    exact Facts.without_same al.2.1
  rw [e] at t4
  exact ⟨o1, o, rfl, by rw [Talk.unique hL t2 t4], l⟩

/-! ## C39, C30: commands that are rejected, and questions -/

/-- C39, C30: the part of the claims that holds for sessions about words. Let a command of such a session be a question, or
be rejected (its answer is not the empty text). Then all other commands, before and after, are answered as if it had not been
entered. Missing: other sessions; the claims are false of them in general (`rejected_changes_store`,
`cache_changes_answer`). -/
theorem words_session_no_trace_partial (order order' : HashOrder) {n m : Nat} (hn : 1 ≤ n) (hm : 1 ≤ m)
    {said more : List Say} {s : Say} {us us' outs outs' : List Str} {a : Str} {c c' : Ctx}
    (hw : ∀ q ∈ said ++ s :: more, ∀ t ∈ q.words, IsSymbol t ∧ Syn.isVariableName t = false ∧ NewWord boot.snap t)
    (hh : Heard [] (said ++ s :: more)) (hh' : Heard [] (said ++ more))
    (hs : Written (said ++ s :: more) us) (hs' : Written (said ++ more) us')
    (he : @Context.run order n boot us = .ok (outs, c)) (he' : @Context.run order' m boot us' = .ok (outs', c'))
    (ha : outs[said.length]? = some a) (hq : s.Question ∨ a ≠ []) :
    ∃ before after, outs = before ++ a :: after ∧ outs' = before ++ after ∧ before.length = said.length := by
  have t := @words_session order _ hn _ _ _ _ hw hh hs he
  have t' := @words_session order' _ hm _ _ _ _ (fun s hs => hw s (by
    rcases List.mem_append.1 hs with hs | hs
    · exact List.mem_append_left _ hs
    · exact List.mem_append_right _ (List.mem_cons_of_mem _ hs))) hh' hs' he'
  obtain ⟨o1, o2, rfl, l, f, t1⟩ := t.splitBoth
  obtain ⟨p1, p2, rfl, l', f', t2⟩ := t'.splitBoth
  cases Talk.unique Facts.sound_nil f f'
  obtain ⟨b, o, rfl, tb, t3⟩ := t1.uncons
  rw [List.getElem?_append_right (by omega), ← l, Nat.sub_self] at ha
  cases ha
  rw [tb.traceless hq] at t3
  exact ⟨o1, o, rfl, by rw [Talk.unique (Facts.sound_nil.foldl said) t2 t3], l⟩

section

open Insertion

theorem run_answered {n : Nat} {us outs : List Str} (h : (Context.run n boot us).map (·.1) = .ok outs) :
    ∃ c, Context.run n boot us = .ok (outs, c) := by
  match hr : Context.run n boot us, h with
  | .ok (o, c), h =>
    cases h
    exact ⟨c, rfl⟩

/-- A session that goes on from a first command. -/
theorem run_after {n : Nat} {c₀ c₁ : Ctx} {u o : Str} {us outs : List Str}
    (hu : Context.execute n c₀ u = .ok (o, c₁)) (h : (Context.run n c₁ us).map (·.1) = .ok outs) :
    ∃ c, Context.run n c₀ (u :: us) = .ok (o :: outs, c) := by
  match hr : Context.run n c₁ us, h with
  | .ok (o, c), h =>
    cases h
    exact ⟨c, run_cons hu hr⟩

/-- A session that begins with `let (a (-> b))`. -/
theorem run_taught {us outs : List Str} (h : (Context.run 60 Witness.taught1 us).map (·.1) = .ok outs) :
    ∃ c, Context.run 60 boot (str% "let (a (-> b))" :: us) = .ok ([] :: outs, c) :=
  run_after Witness.taught1_eq h

/-- `told_in_any_order` applies to `let (a (-> b))`, `let (b -> c)`, `a` and to `let (b (-> c))`, `let (a (-> b))`, `a`. -/
example : ∃ c c', [(str% "a", str% "b"), (str% "b", str% "c")].Perm [(str% "b", str% "c"), (str% "a", str% "b")] ∧
    Written ([(str% "a", str% "b"), (str% "b", str% "c")].map (fun p => Say.tell p.1 p.2) ++ [.ask (str% "a")])
      [str% "let (a (-> b))", str% "let (b -> c)", str% "a"] ∧
    Written ([(str% "b", str% "c"), (str% "a", str% "b")].map (fun p => Say.tell p.1 p.2) ++ [.ask (str% "a")])
      [str% "let (b (-> c))", str% "let (a (-> b))", str% "a"] ∧
    Context.run 60 boot [str% "let (a (-> b))", str% "let (b -> c)", str% "a"] = .ok ([[], [], str% "c"], c) ∧
    Context.run 60 boot [str% "let (b (-> c))", str% "let (a (-> b))", str% "a"] = .ok ([[], [], str% "c"], c') := by
  obtain ⟨c, h⟩ := run_taught (us := [str% "let (b -> c)", str% "a"])
    (outs := [[], str% "c"]) (by decide +kernel)
  obtain ⟨c', h'⟩ := run_answered (n := 60) (us := [str% "let (b (-> c))", str% "let (a (-> b))", str% "a"])
    (outs := [[], [], str% "c"]) (by decide +kernel)
  exact ⟨c, c', .swap _ _ _, .cons (.full (.tell (str% "a") (str% "b"))) (.cons (.tell (str% "b") (str% "c"))
    (.cons (.full (.ask (str% "a"))) .nil)), .cons (.full (.tell (str% "b") (str% "c")))
    (.cons (.full (.tell (str% "a") (str% "b"))) (.cons (.full (.ask (str% "a"))) .nil)), h, h'⟩

/-- `forgetting_undoes_telling` applies to `let (a (-> b))`, `let (b (-> c))`, `forget b`, `a` and to `let (a (-> b))`, `a`. -/
example : ∃ c c', Context.run 60 boot [str% "let (a (-> b))", str% "let (b (-> c))", str% "forget b", str% "a"] =
      .ok ([[]] ++ [] :: [] :: [str% "b"], c) ∧
    Context.run 60 boot [str% "let (a (-> b))", str% "a"] = .ok ([[]] ++ [str% "b"], c') := by
  obtain ⟨c, h⟩ := run_taught (us := [str% "let (b (-> c))", str% "forget b", str% "a"])
    (outs := [[], [], str% "b"]) (by decide +kernel)
  obtain ⟨c', h'⟩ := run_taught (us := [str% "a"])
    (outs := [str% "b"]) (by decide +kernel)
  exact ⟨c, c', h, h'⟩

/-- `words_session_no_trace_partial` applies to `let (a (-> b))`, `let (a (-> c))`, `a`, where the second command is
rejected, and to `let (a (-> b))`, `a`. -/
example : ∃ c c', Context.run 60 boot [str% "let (a (-> b))", str% "let (a (-> c))", str% "a"] =
      .ok ([[]] ++ str% "a already reduces to b" :: [str% "b"], c) ∧
    Context.run 60 boot [str% "let (a (-> b))", str% "a"] = .ok ([[]] ++ [str% "b"], c') := by
  obtain ⟨c, h⟩ := run_taught (us := [str% "let (a (-> c))", str% "a"])
    (outs := [str% "a already reduces to b", str% "b"]) (by decide +kernel)
  obtain ⟨c', h'⟩ := run_taught (us := [str% "a"])
    (outs := [str% "b"]) (by decide +kernel)
  exact ⟨c, c', h, h'⟩

end

end Zia.Props

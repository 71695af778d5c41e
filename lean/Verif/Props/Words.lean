import Verif.Witness.Words

/-!
# The same session in other words

C52: replacing the names a user has chosen by other names, everywhere, replaces them in the answers and
changes nothing else.
-/

namespace Zia.Props

open Spec

/-- C52, one command. In a context where symbols can be looked up, the outcome of a renamed command in the
renamed context is the renamed outcome: the same answer, error or fault, and the same context, in the other
words. -/
theorem command_renamed [HashOrder] (hO : ByKeys) (w : Words) {n : Nat} {c : Ctx} (hc : Clear n c) (s : Str) :
    respond n (ren w c) (ren w s) = (respond n c s).map (ren w) := by
  have : Keyed := ⟨hO⟩
  have := Context.ren_respond (w := w) n c s (Context.reads_of_clear hc s)
    (Context.reads_of_clear (Context.ren_clear hc) _)
  rw [show respond n (ren w c) (ren w s) = ren w <$> respond n c s from this]
  cases respond n c s <;> rfl

/-- C52, a session from any context: whenever it and its renamed version are both answered, they have the
same outcomes in different words. -/
theorem session_renamed [HashOrder] (hO : ByKeys) (w : Words) {n : Nat} {c c1 c2 : Ctx} {ss as bs : List Str}
    (h1 : Context.run n c ss = .ok (as, c1)) (h2 : Context.run n (ren w c) (ss.map (ren w)) = .ok (bs, c2)) :
    ∃ rs : List (Except ZiaError Str),
      as = rs.map shown ∧ bs = rs.map (fun r => shown (ren w r)) ∧ c2 = ren w c1 := by
  have : Keyed := ⟨hO⟩
  rw [Context.run_outcomes] at h1 h2
  cases e1 : outcomes n c ss with
  | error e => rw [e1] at h1; cases h1
  | ok p =>
    cases e2 : outcomes n (ren w c) (ss.map (ren w)) with
    | error e => rw [e2] at h2; cases h2
    | ok q =>
      obtain ⟨rs, d⟩ := p
      obtain ⟨rs', d'⟩ := q
      rw [e1] at h1
      rw [e2] at h2
      cases h1
      cases h2
      obtain ⟨rfl, rfl⟩ := Context.ren_outcomes_ok e1 e2
      exact ⟨rs, rfl, by rw [List.map_map]; rfl, rfl⟩

/-- A new context contains no names but those of the program. -/
theorem new_renamed [HashOrder] (hO : ByKeys) (w : Words) (hw : ∀ p ∈ programWords, w.to p = p) {n : Nat}
    {c : Ctx} (h : Context.new n = .ok c) : ren w c = c :=
  have : Keyed := ⟨hO⟩
  Context.ren_new hw h

/-- C52, a session from a new context. The two sessions may be any: neither needs to be in a good state. -/
theorem names_do_not_matter [HashOrder] (hO : ByKeys) (w : Words) (hw : ∀ p ∈ programWords, w.to p = p)
    {n : Nat} {c c1 c2 : Ctx} {ss as bs : List Str} (h0 : Context.new n = .ok c)
    (h1 : Context.run n c ss = .ok (as, c1)) (h2 : Context.run n c (ss.map (ren w)) = .ok (bs, c2)) :
    ∃ rs : List (Except ZiaError Str),
      as = rs.map shown ∧ bs = rs.map (fun r => shown (ren w r)) ∧ c2 = ren w c1 := by
  refine session_renamed hO w h1 ?_
  rw [new_renamed hO w hw h0]
  exact h2

/-- C52, whether a session is answered. If symbols can be looked up on the way, the renamed session has the
renamed outcomes: it is answered iff the session is, and otherwise fails with the same fault. -/
theorem session_renamed_clear [HashOrder] (hO : ByKeys) (w : Words) {n : Nat} {c : Ctx} {ss : List Str}
    (hc : ClearAll n c ss) :
    outcomes n (ren w c) (ss.map (ren w)) = (outcomes n c ss).map (fun p => (p.1.map (ren w), ren w p.2)) :=
  have : Keyed := ⟨hO⟩
  Context.ren_outcomes_clear hc

/-- What `run` shows is what the outcomes are written out as. -/
theorem run_shows [HashOrder] (n : Nat) (c : Ctx) (ss : List Str) :
    Context.run n c ss = (outcomes n c ss).map (fun p => (p.1.map shown, p.2)) :=
  Context.run_outcomes n c ss

/-- Any distinct names can take the place of any other distinct names. -/
theorem names_exist {xs ys : List Str} (hl : xs.length = ys.length) (hx : xs.Nodup) (hy : ys.Nodup)
    (nx : ∀ x ∈ xs, Name x) (ny : ∀ y ∈ ys, Name y) :
    ∃ w : Words, xs.map w.to = ys ∧ ∀ p ∈ programWords, w.to p = p :=
  let ⟨w, h1, h2, _⟩ := exists_words hl hx hy nx ny
  ⟨w, h1, h2⟩

/-! ## What follows for particular sessions, in any words -/

section

open Insertion

theorem byKeys_insertion : ByKeys := fun _ _ => rfl

/-- The names of the program are not the user's, and nothing else keeps a word from being a name. -/
theorem sample_names : ∀ s ∈ [str% "p", str% "q", str% "r", str% "v", str% "man", str% "mortal", str% "k"], Name s := by
  intro s hs
  simp only [List.mem_cons, List.not_mem_nil, or_false] at hs
  rcases hs with h | h | h | h | h | h | h <;> subst h <;>
    refine ⟨by decide, by decide, ?_⟩ <;> intro c hc <;> cases hc <;> decide

theorem outcomes_step {n : Nat} {c c1 c2 : Ctx} {s : Str} {ss : List Str} {r : Except ZiaError Str}
    {rs : List (Except ZiaError Str)} (h : respond n c s = .ok (r, c1)) (h' : outcomes n c1 ss = .ok (rs, c2)) :
    outcomes n c (s :: ss) = .ok (r :: rs, c2) := by
  rw [Context.outcomes_cons, h]
  show (outcomes n c1 ss >>= _) = _
  rw [h']; rfl

theorem outcomes_nil {n : Nat} {c : Ctx} : outcomes n c [] = .ok ([], c) := rfl

theorem clearAll_nil {n : Nat} {c : Ctx} : ClearAll n c [] := trivial

theorem clearAll_step {n : Nat} {c c1 : Ctx} {s : Str} {ss : List Str} {r : Except ZiaError Str}
    (hc : Clear n c) (h : respond n c s = .ok (r, c1)) (h' : ClearAll n c1 ss) : ClearAll n c (s :: ss) := by
  refine ⟨hc, fun r' c' h2 => ?_⟩
  rw [h] at h2; cases h2; exact h'

/-- Reductions are followed, whatever the names: after `let a -> b` and `let b -> c`, a new context
answers `a` with `c`. -/
theorem chain_any_names {a b c : Str} (ha : Name a) (hb : Name b) (hc : Name c) (hd : [a, b, c].Nodup) :
    ∃ c0 c1, Context.new 60 = .ok c0 ∧
      Context.run 60 c0 [str% "let " ++ a ++ str% " -> " ++ b, str% "let " ++ b ++ str% " -> " ++ c, a] =
        .ok ([[], [], c], c1) := by
  obtain ⟨w, h1, h2⟩ := names_exist (xs := [str% "p", str% "q", str% "r"]) (ys := [a, b, c]) rfl (by decide) hd
    (fun x hx => sample_names x (by revert x; decide)) (by simp [ha, hb, hc])
  simp only [List.map_cons, List.map_nil, List.cons.injEq, and_true] at h1
  obtain ⟨wp, wq, wr⟩ := h1
  refine ⟨boot, ren w Witness.follow3, new_eq, ?_⟩
  have key := session_renamed_clear byKeys_insertion w (clearAll_step Witness.boot_clear Witness.follow1_eq
    (clearAll_step Witness.follow1_clear Witness.follow2_eq
      (clearAll_step Witness.follow2_clear Witness.follow3_eq clearAll_nil)))
  rw [outcomes_step Witness.follow1_eq (outcomes_step Witness.follow2_eq (outcomes_step Witness.follow3_eq outcomes_nil)),
    new_renamed byKeys_insertion w h2 new_eq] at key
  have e1 : ren w (str% "let p -> q") = str% "let " ++ a ++ str% " -> " ++ b := by
    rw [show str% "let p -> q" = str% "let" ++ ' ' :: (str% "p" ++ ' ' :: (str% "->" ++ ' ' :: str% "q")) from rfl]
    simp only [ren_append_sep w sep_space]
    rw [ren_word w (by decide), ren_word w (by decide), ren_word w (by decide), ren_word w (by decide), wp, wq,
      h2 (str% "let") (by decide), h2 (str% "->") (by decide)]
    simp
  have e2 : ren w (str% "let q -> r") = str% "let " ++ b ++ str% " -> " ++ c := by
    rw [show str% "let q -> r" = str% "let" ++ ' ' :: (str% "q" ++ ' ' :: (str% "->" ++ ' ' :: str% "r")) from rfl]
    simp only [ren_append_sep w sep_space]
    rw [ren_word w (by decide), ren_word w (by decide), ren_word w (by decide), ren_word w (by decide), wq, wr,
      h2 (str% "let") (by decide), h2 (str% "->") (by decide)]
    simp
  have e3 : ren w (str% "p") = a := by rw [ren_word w (by decide), wp]
  have e4 : ren w (str% "r") = c := by rw [ren_word w (by decide), wr]
  simp only [List.map_cons, List.map_nil, e1, e2, e3] at key
  rw [run_shows, key]
  simp only [Except.map, List.map_cons, List.map_nil, ren_ok, shown, e4]
  rfl

/-- Implications are applied, whatever the names: when every `v` that is `p` is `q`, and `k` is `p`, a
new context answers that `k` is `q`. -/
theorem syllogism_any_names {v p q k : Str} (hv : Name v) (hp : Name p) (hq : Name q) (hk : Name k)
    (hd : [v, p, q, k].Nodup) :
    ∃ c0 c1, Context.new 60 = .ok c0 ∧
      Context.run 60 c0
        [str% "let (_" ++ v ++ str% "_ " ++ p ++ str% ") => _" ++ v ++ str% "_ " ++ q,
          str% "let " ++ k ++ str% " " ++ p, k ++ str% " " ++ q] =
        .ok ([[], [], str% "true"], c1) := by
  obtain ⟨w, h1, h2⟩ := names_exist (xs := [str% "v", str% "man", str% "mortal", str% "k"]) (ys := [v, p, q, k]) rfl
    (by decide) hd (fun x hx => sample_names x (by revert x; decide)) (by simp [hv, hp, hq, hk])
  simp only [List.map_cons, List.map_nil, List.cons.injEq, and_true] at h1
  obtain ⟨wv, wp, wq, wk⟩ := h1
  refine ⟨boot, ren w Witness.syllogism3, new_eq, ?_⟩
  have key := session_renamed_clear byKeys_insertion w (clearAll_step Witness.boot_clear Witness.syllogism1_eq
    (clearAll_step Witness.syllogism1_clear Witness.syllogism2_eq
      (clearAll_step Witness.syllogism2_clear Witness.syllogism3_eq clearAll_nil)))
  rw [outcomes_step Witness.syllogism1_eq (outcomes_step Witness.syllogism2_eq
    (outcomes_step Witness.syllogism3_eq outcomes_nil)), new_renamed byKeys_insertion w h2 new_eq] at key
  have s1 : isSep '(' = true := by decide
  have s2 : isSep ')' = true := by decide
  have s3 : isSep '_' = true := by decide
  have rv : ren w (str% "v") = v := by rw [ren_word w (by decide), wv]
  have rp : ren w (str% "man") = p := by rw [ren_word w (by decide), wp]
  have rq : ren w (str% "mortal") = q := by rw [ren_word w (by decide), wq]
  have rk : ren w (str% "k") = k := by rw [ren_word w (by decide), wk]
  have rl : ren w (str% "let") = str% "let" := by rw [ren_word w (by decide), h2 _ (by decide)]
  have ri : ren w (str% "=>") = str% "=>" := by rw [ren_word w (by decide), h2 _ (by decide)]
  have rt : ren w (str% "true") = str% "true" := by rw [ren_word w (by decide), h2 _ (by decide)]
  have e1 : ren w (str% "let (_v_ man) => _v_ mortal") =
      str% "let (_" ++ v ++ str% "_ " ++ p ++ str% ") => _" ++ v ++ str% "_ " ++ q := by
    rw [show str% "let (_v_ man) => _v_ mortal" = str% "let" ++ ' ' :: '(' :: '_' :: (str% "v" ++ '_' :: ' ' ::
      (str% "man" ++ ')' :: ' ' :: (str% "=>" ++ ' ' :: '_' :: (str% "v" ++ '_' :: ' ' :: str% "mortal")))) from rfl,
      ren_append_sep w sep_space, ren_cons_sep w s1, ren_cons_sep w s3, ren_append_sep w s3, ren_cons_sep w sep_space,
      ren_append_sep w s2, ren_cons_sep w sep_space, ren_append_sep w sep_space, ren_cons_sep w s3,
      ren_append_sep w s3, ren_cons_sep w sep_space, rv, rp, rq, rl, ri]
    simp
  have e2 : ren w (str% "let k man") = str% "let " ++ k ++ str% " " ++ p := by
    rw [show str% "let k man" = str% "let" ++ ' ' :: (str% "k" ++ ' ' :: str% "man") from rfl,
      ren_append_sep w sep_space, ren_append_sep w sep_space, rl, rk, rp]
    simp
  have e3 : ren w (str% "k mortal") = k ++ str% " " ++ q := by
    rw [show str% "k mortal" = str% "k" ++ ' ' :: str% "mortal" from rfl, ren_append_sep w sep_space, rk, rq]
    simp
  simp only [List.map_cons, List.map_nil, e1, e2, e3] at key
  rw [run_shows, key]
  simp only [Except.map, List.map_cons, List.map_nil, ren_ok, shown, rt]
  rfl

/-! ## Cases that meet the hypotheses -/

/-- `chain_any_names` for other names. -/
example : ∃ c0 c1, Context.new 60 = .ok c0 ∧
    Context.run 60 c0 [str% "let mouse -> cat", str% "let cat -> dog", str% "mouse"] =
      .ok ([[], [], str% "dog"], c1) := by
  have nm : ∀ s ∈ [str% "mouse", str% "cat", str% "dog"], Name s := by
    intro s hs
    simp only [List.mem_cons, List.not_mem_nil, or_false] at hs
    rcases hs with h | h | h <;> subst h <;>
      refine ⟨by decide, by decide, ?_⟩ <;> intro c hc <;> cases hc <;> decide
  have h := chain_any_names (nm (str% "mouse") (by decide)) (nm (str% "cat") (by decide))
    (nm (str% "dog") (by decide)) (by decide)
  simp only [List.cons_append, List.nil_append] at h
  exact h

/-- A renaming that keeps the words of the program and renames others. -/
example : ∃ w : Words, [str% "p", str% "q"].map w.to = [str% "q", str% "mortal"] ∧
    ∀ p ∈ programWords, w.to p = p :=
  names_exist rfl (by decide) (by decide) (fun x hx => sample_names x (by revert x; decide))
    (fun x hx => sample_names x (by revert x; decide))

/-- The hypotheses of `command_renamed` and `session_renamed_clear`. -/
example : ByKeys ∧ Clear 60 boot ∧ ClearAll 60 boot [str% "let p -> q", str% "let q -> r", str% "p"] :=
  ⟨byKeys_insertion, Witness.boot_clear, clearAll_step Witness.boot_clear Witness.follow1_eq
    (clearAll_step Witness.follow1_clear Witness.follow2_eq
      (clearAll_step Witness.follow2_clear Witness.follow3_eq clearAll_nil))⟩

/-- The hypotheses of `session_renamed` and `names_do_not_matter`, for every renaming that keeps the words
of the program. -/
example (w : Words) (hw : ∀ p ∈ programWords, w.to p = p) : ∃ c c1 c2 as bs,
    Context.new 60 = .ok c ∧
    Context.run 60 c [str% "let p -> q", str% "let q -> r", str% "p"] = .ok (as, c1) ∧
    Context.run 60 c ([str% "let p -> q", str% "let q -> r", str% "p"].map (ren w)) = .ok (bs, c2) := by
  have key := session_renamed_clear byKeys_insertion w (clearAll_step Witness.boot_clear Witness.follow1_eq
    (clearAll_step Witness.follow1_clear Witness.follow2_eq
      (clearAll_step Witness.follow2_clear Witness.follow3_eq clearAll_nil)))
  have run1 := outcomes_step Witness.follow1_eq (outcomes_step Witness.follow2_eq (outcomes_step Witness.follow3_eq outcomes_nil))
  rw [run1, new_renamed byKeys_insertion w hw new_eq] at key
  exact ⟨boot, _, _, _, _, new_eq, by rw [run_shows, run1]; rfl, by rw [run_shows, key]; rfl⟩

end

end Zia.Props

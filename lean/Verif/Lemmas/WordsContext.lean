import Verif.Lemmas.WordsParse

/-!
# Renaming and commands
-/

set_option linter.unusedSectionVars false

namespace Zia

open Spec HashOrder

variable [HashOrder] {w : Words}

/-- Errors that quote nothing are told apart from all others. -/
theorem ren_error_eq (e : ZiaError) (x : ZiaError) (he : ∀ w, ren w e = e) :
    (ren w x = e) ↔ x = e := by
  constructor
  · intro h
    rw [← he w] at h
    have key : ∀ a b : ZiaError, ren w a = ren w b → a = b := by
      intro a b h
      have li : ∀ l l' : List Str, ren w l = ren w l' → l = l' := by
        intro l l' h
        exact List.map_inj_right (fun a b hab => (ren_inj w).1 hab) |>.1 h
      cases a <;> cases b <;> first | rfl | cases h | skip
      all_goals first
        | (injection h with h1 h2; rw [(ren_inj w).1 h1, (ren_inj w).1 h2])
        | (injection h with h1 h2 h3; rw [(ren_inj w).1 h1, h2, h3])
        | (injection h with h1; rw [(ren_inj w).1 h1])
        | (injection h with h1; rw [li _ _ h1])
    exact key x e h
  · rintro rfl; exact he w

namespace RenC

variable {α : Type} [Ren α]

theorem onError {e : ZiaError} (he : ∀ w, ren w e = e) {m m' h h' : CM α} (hm : RenC w m m') (hh : RenC w h h') :
    RenC w (Context.onError e m h) (Context.onError e m' h') := by
  refine hm.tryCatch (fun x => ?_)
  simp only [ren_error_eq (w := w) e x he]
  split
  · exact hh
  · exact throw rfl

theorem pinning {m m' : CM α} (hm : RenC w m m') : RenC w (Context.pinning m) (Context.pinning m') := by
  refine get.bind (fun c => ?_)
  rw [ren_ctx_pinned]
  refine RenC.bind (α := Unit) (RenC.modify (fun _ => ?_)) (fun _ => ?_)
  · rfl
  have h : RenC w (MonadExcept.tryCatch (do return Except.ok (← m)) (fun e => return .error e) : CM (Except ZiaError α))
      (MonadExcept.tryCatch (do return Except.ok (← m')) (fun e => return .error e) : CM (Except ZiaError α)) :=
    RenC.tryCatch (hm.bind (fun a => pure rfl)) (fun e => pure rfl)
  refine h.bind (fun x => RenC.bind (α := Unit) (RenC.modify (fun _ => ?_)) (fun _ => ofR rfl))
  rfl

end RenC

namespace Context

open CM

theorem ren_commit (c : Ctx) : RenE w (commit c) (commit (ren w c)) :=
  (ren_apply w c.snap c.delta).bind (fun _ => RenE.pure rfl)

variable [Keyed]

theorem ren_tryRemovingReduction (t : Syn) : RenC w (tryRemovingReduction t) (tryRemovingReduction (ren w t)) := by
  refine RenC.exclusive.bind (fun _ => ?_)
  rw [ren_concept]
  cases t.concept with
  | none => exact (RenC.ofE (ren_syn_display w t)).bind (fun s => RenC.throw rfl)
  | some c => exact (RenC.ofE (ren_syn_display w t)).bind (fun s => Updater.ren_deleteReduction c s)

theorem ren_executeReduction (n : Nat) (t nf : Syn) :
    RenC w (executeReduction n t nf) (executeReduction n (ren w t) (ren w nf)) := by
  have S := ren_search (w := w) n
  unfold executeReduction
  simp only [ren_contains_syn, ren_key, ren_key_inj]
  split
  · exact RenC.throw rfl
  · split
    · exact ren_tryRemovingReduction t
    · have hs : ∀ e, RenS w
          (do
            match ← (search n).reduce e t with
            | some x => return some x
            | none => Search.findInferred (search n) e t)
          (do
            match ← (search n).reduce (ren w e) (ren w t) with
            | some x => return some x
            | none => Search.findInferred (search n) (ren w e) (ren w t)) := by
        intro e
        refine (S.reduce e t).bind (fun x => ?_)
        cases x with
        | some x => exact RenS.pure rfl
        | none => exact Search.ren_findInferred S e t
      refine (RenC.searching hs).bind (fun found => ?_)
      · cases found with
        | some x =>
          obtain ⟨x, r⟩ := x
          exact (RenC.ofE (ren_syn_display w t)).bind (fun a => (RenC.ofE (ren_syn_display w x)).bind (fun b =>
            RenC.throw rfl))
        | none =>
          exact RenC.exclusive.bind (fun _ => (Updater.ren_conceptFromAst n t).bind (fun c =>
            (Updater.ren_conceptFromAst n nf).bind (fun r => (RenC.ofE (ren_syn_display w t)).bind (fun s =>
              Updater.ren_updateReduction n c s r))))

theorem ren_showAst (n : Nat) (c : CId) : RenC w (do ofE (← searching (fun e => (search n).toAst e c)).display)
    (do ofE (← searching (fun e => (search n).toAst e c)).display) :=
  (Parser.ren_stoAst n c).bind (fun t => RenC.ofE (ren_syn_display w t))

theorem ren_define (n : Nat) (new old : Syn) : RenC w (define n new old) (define n (ren w new) (ren w old)) := by
  have dn := RenC.ofE (ren_syn_display w new)
  have dd := RenC.ofE (ren_syn_display w old)
  unfold define
  simp only [ren_concept, ren_expansion]
  cases hnc : new.concept with
  | none =>
    cases hoc : old.concept with
    | none =>
      cases hoe : old.expansion with
      | none => cases hne : new.expansion <;> exact RenC.throw rfl
      | some p =>
        obtain ⟨l, r⟩ := p
        have : RenC w (do exclusive; Updater.defineNewSyntax n (← ofE new.display) l r)
            (do exclusive; Updater.defineNewSyntax n (← ofE (ren w new).display) (ren w l) (ren w r)) :=
          RenC.exclusive.bind (fun _ => dn.bind (fun s => Updater.ren_defineNewSyntax n s l r))
        cases hne : new.expansion <;> exact this
    | some b =>
      have rel : RenC w (do exclusive; Updater.relabel n b (← ofE old.display) (← ofE new.display))
          (do exclusive; Updater.relabel n b (← ofE (ren w old).display) (← ofE (ren w new).display)) :=
        RenC.exclusive.bind (fun _ => dd.bind (fun s => dn.bind (fun t => Updater.ren_relabel n b s t)))
      cases hoe : old.expansion with
      | none =>
        cases hne : new.expansion with
        | none => exact rel
        | some p => exact RenC.throw rfl
      | some q =>
        have : RenC w
            (do
              let s ← ofE (← searching (fun e => (search n).toAst e b)).display
              match ← reading (·.conceptOfLabel b) with
              | none => do
                exclusive
                Updater.label n b s (← ofE new.display)
              | some _ => do
                exclusive
                Updater.relabel n b (← ofE old.display) (← ofE new.display))
            (do
              let s ← ofE (← searching (fun e => (search n).toAst e b)).display
              match ← reading (·.conceptOfLabel b) with
              | none => do
                exclusive
                Updater.label n b s (← ofE (ren w new).display)
              | some _ => do
                exclusive
                Updater.relabel n b (← ofE (ren w old).display) (← ofE (ren w new).display)) := by
          refine (Parser.ren_stoAst n b).bind (fun t => (RenC.ofE (ren_syn_display w t)).bind (fun s =>
            (Updater.ren_rconceptOfLabel b).bind (fun x => ?_)))
          cases x with
          | none => exact RenC.exclusive.bind (fun _ => dn.bind (fun t => Updater.ren_ulabel n b s t))
          | some _ => exact rel
        cases hne : new.expansion <;> exact this
  | some a =>
    cases hoc : old.concept with
    | none =>
      cases hoe : old.expansion with
      | none => cases hne : new.expansion <;> exact RenC.throw rfl
      | some p =>
        obtain ⟨l, r⟩ := p
        cases hne : new.expansion with
        | none => exact RenC.exclusive.bind (fun _ => Updater.ren_redefine n a l r)
        | some q =>
          obtain ⟨nl, nr⟩ := q
          exact RenC.exclusive.bind (fun _ => (RenC.ofE (ren_syn_display w nl)).bind (fun s =>
            (RenC.ofE (ren_syn_display w nr)).bind (fun t => Updater.ren_redefineComposition n a l r s t)))
    | some b =>
      cases hoe : old.expansion with
      | some q =>
        have : RenC w (if a = b then throw .redundantComposition else throw .compositionCollision : CM Unit)
            (if a = b then throw .redundantComposition else throw .compositionCollision) := by
          split <;> exact RenC.throw rfl
        cases hne : new.expansion <;> exact this
      | none =>
        cases hne : new.expansion with
        | some p => exact RenC.throw rfl
        | none =>
          simp only [ren_none]
          by_cases hab : a = b
          · rw [if_pos hab, if_pos hab]
            refine (ren_rread a).bind (fun m => ?_)
            rw [ren_mixed_composition]
            rcases m.composition with _ | ⟨l, r⟩
            · exact RenC.throw rfl
            · refine (Parser.ren_stoAst n l).bind (fun t => (RenC.ofE (ren_syn_display w t)).bind (fun ls =>
                (Parser.ren_stoAst n r).bind (fun t => (RenC.ofE (ren_syn_display w t)).bind (fun rs =>
                  RenC.exclusive.bind (fun _ => ?_)))))
              have := Updater.ren_tryDeleteConcept (w := w) a a.display
              rw [ren_display] at this
              exact this.bind (fun _ => (Updater.ren_tryDeleteConcept l ls).bind (fun _ =>
                Updater.ren_tryDeleteConcept r rs))
          · rw [if_neg hab, if_neg hab]
            refine RenC.view.bind (fun v => ?_)
            rw [ren_view_getConcept, ren_isSome]
            by_cases hs : (v.getConcept b).isSome = true
            · rw [if_pos hs, if_pos hs]
              refine RenC.exclusive.bind (fun _ => ?_)
              have := Updater.ren_unlabel (w := w) a a.display
              rw [ren_display] at this
              exact this.bind (fun _ => dd.bind (fun s => dn.bind (fun t => Updater.ren_relabel n b s t)))
            · rw [if_neg hs, if_neg hs]
              exact RenC.throw rfl

theorem ren_executeComposition (n : Nat) (new old : Syn) :
    RenC w (executeComposition n new old) (executeComposition n (ren w new) (ren w old)) := by
  unfold executeComposition
  rw [ren_contains_syn]
  split
  · exact RenC.throw rfl
  · exact ren_define n new old

theorem ren_matchRighthandPair (n k : Nat) (l rl rr : Syn) :
    RenC w (matchRighthandPair n k l rl rr) (matchRighthandPair n k (ren w l) (ren w rl) (ren w rr)) := by
  induction k generalizing rl with
  | zero => exact RenC.fault _
  | succ k ih =>
    unfold matchRighthandPair
    rw [ren_concept]
    cases rl.concept with
    | none => exact RenC.throw rfl
    | some c =>
      refine (RenC.reading_rigid (fun v => ren_view_cct w v c)).bind (fun x => ?_)
      rw [ren_rigid]
      split
      · exact ren_executeReduction n l rr
      · exact ren_executeComposition n l rr
      · refine (ren_rread c).bind (fun m => ?_)
        rw [ren_mixed_reduction]
        cases m.reduction with
        | none => exact RenC.throw rfl
        | some r => exact (Parser.ren_stoAst n r).bind (fun t => ih t)

theorem ren_callLet (n : Nat) (t : Syn) : RenC w (callLet n t) (callLet n (ren w t)) := by
  have fin : ∀ b : Bool, RenC w
      (if b then return some [] else do
        match ← searching (fun e => (search n).concreteAst e .tru) with
        | none => return none
        | some x => do
          executeReduction n t x
          return some [] : CM (Option Str))
      (if b then return some [] else do
        match ← searching (fun e => (search n).concreteAst e .tru) with
        | none => return none
        | some x => do
          executeReduction n (ren w t) x
          return some [] : CM (Option Str)) := by
    intro b
    split
    · exact RenC.pure rfl
    · refine (RenC.searching (fun e => Search.ren_concreteAst (ren_search n) e .tru)).bind (fun x => ?_)
      cases x with
      | none => exact RenC.pure rfl
      | some x => exact (ren_executeReduction n t x).bind (fun _ => RenC.pure rfl)
  unfold callLet
  rw [ren_expansion]
  cases t.expansion with
  | none => exact fin false
  | some p =>
    obtain ⟨l, r⟩ := p
    simp only [ren_some, ren_pair, executeLet, ren_expansion]
    cases r.expansion with
    | none => exact fin false
    | some q =>
      obtain ⟨rl, rr⟩ := q
      refine RenC.bind (α := Bool) (RenC.onError (fun _ => rfl) (RenC.onError (fun _ => rfl)
        ((ren_matchRighthandPair n n l rl rr).bind (fun _ => RenC.pure rfl)) (RenC.pure rfl)) (RenC.pure rfl)) ?_
      exact fin

theorem ren_callForget (t : Syn) : RenC w (callForget t) (callForget (ren w t)) := by
  unfold callForget
  rw [ren_concept]
  cases t.concept with
  | none => exact RenC.pure rfl
  | some c =>
    exact RenC.exclusive.bind (fun _ => (RenC.ofE (ren_syn_display w t)).bind (fun s =>
      (Updater.ren_deleteReduction c s).bind (fun _ => RenC.pure rfl)))

theorem ren_callLabel (n : Nat) (t : Syn) : RenC w (callLabel n t) (callLabel n (ren w t)) := by
  have fin : ∀ s : Str, RenC w (pure (some ('\'' :: s ++ ['\''])) : CM (Option Str))
      (pure (some ('\'' :: ren w s ++ ['\'']))) := by
    intro s
    refine RenC.pure ?_
    rw [ren_some]
    congr 1
    exact (ren_quoted w (by decide) s)
  have d := RenC.ofE (ren_syn_display w t)
  unfold callLabel
  rw [ren_concept]
  cases t.concept with
  | none => exact d.bind fin
  | some c =>
    refine (RenC.reading (fun v => ren_label w Keyed.byKeys v n c)).bind (fun x => ?_)
    cases x with
    | none => exact d.bind fin
    | some s => exact fin s

theorem ren_stringOf (t : Syn) : RenC w (stringOf t) (stringOf (ren w t)) := by
  unfold stringOf
  rw [ren_concept]
  cases t.concept with
  | none => exact RenC.pure rfl
  | some c => exact (ren_rread c).bind (fun m => RenC.pure (ren_mixed_string w m))

/-- The mutually recursive commands. -/
theorem ren_calls (n k : Nat) :
    (∀ t, RenC w (call n k t) (call n k (ren w t))) ∧
    (∀ l r, RenC w (callPair n k l r) (callPair n k (ren w l) (ren w r))) ∧
    (∀ l r, RenC w (reduceAndCallPair n k l r) (reduceAndCallPair n k (ren w l) (ren w r))) ∧
    (∀ t, RenC w (tryReducing n k t) (tryReducing n k (ren w t))) := by
  have S := ren_search (w := w) n
  induction k with
  | zero => exact ⟨fun _ => RenC.fault _, fun _ _ => RenC.fault _, fun _ _ => RenC.fault _, fun _ => RenC.fault _⟩
  | succ k ih =>
    obtain ⟨ic, ip, ir, it⟩ := ih
    have cr : ∀ w', ren w' ZiaError.cannotReduceFurther = .cannotReduceFurther := fun _ => rfl
    refine ⟨fun t => ?_, fun l r => ?_, fun l r => ?_, fun t => ?_⟩
    · unfold call
      refine (ren_stringOf t).bind (fun x => ?_)
      cases x with
      | some s => exact RenC.pure rfl
      | none =>
        rw [ren_expansion]
        cases t.expansion with
        | none => exact (it t).onError cr (RenC.ofE (ren_syn_display w t))
        | some p =>
          obtain ⟨l, r⟩ := p
          exact (ip l r).onError cr ((it t).onError cr
            ((RenC.searching (fun e => Search.ren_contractPair S e l r)).bind (fun x => RenC.ofE (ren_syn_display w x))))
    · have fin : ∀ x : Option Str, RenC w
          (match x with
            | some s => return s
            | none => do
              if (← ofE (Search.cctOfAst (env (← get)) r)) = some .reduction then tryReducing n k l
              else reduceAndCallPair n k l r)
          (match ren w x with
            | some s => return s
            | none => do
              if (← ofE (Search.cctOfAst (env (← get)) (ren w r))) = some .reduction then tryReducing n k (ren w l)
              else reduceAndCallPair n k (ren w l) (ren w r)) := by
        intro x
        cases x with
        | some s => exact RenC.pure rfl
        | none =>
          refine RenC.get.bind (fun c => (RenC.ofE (RenE.of_eq (Search.ren_cctOfAst (env c) r))).bind (fun x => ?_))
          rw [ren_rigid w x]
          split
          · exact it l
          · exact ir l r
      refine RenC.get.bind (fun c => (RenC.ofE (RenE.of_eq (Search.ren_cctOfAst (env c) l))).bind (fun x => ?_))
      rw [ren_rigid w x]
      split
      · exact (ren_callLet n r).bind fin
      · exact (ren_callForget r).bind fin
      · exact (ren_callLabel n r).bind fin
      · exact fin none
    · refine (RenC.searching (fun e => S.reduce e l)).bind (fun rl =>
        (RenC.searching (fun e => S.reduce e r)).bind (fun rr => ?_))
      rcases rl with _ | ⟨x, _⟩ <;> rcases rr with _ | ⟨y, _⟩
      · exact RenC.throw rfl
      · exact ip l y
      · exact ip x r
      · exact ip x y
    · refine (RenC.searching (fun e => S.recReduce e t none)).bind (fun p => ?_)
      obtain ⟨nf, r⟩ := p
      simp only [ren_pair, ren_key, ren_key_inj]
      split
      · refine (RenC.searching (fun e => Search.ren_findInferred S e t)).bind (fun x => ?_)
        rcases x with _ | ⟨x, _⟩
        · exact RenC.throw rfl
        · exact RenC.ofE (ren_syn_display w x)
      · exact RenC.pinning (ic nf)

theorem ren_command (n : Nat) (c : Ctx) (s : Str) (h : Parser.Reads n c s) (h' : Parser.Reads n (ren w c) (ren w s)) :
    RenE w (command n s c) (command n (ren w s) (ren w c)) := by
  have fin : ∀ t : Syn, RenC w
      (do
        let t ← searching (fun e => (search n).expand e t)
        let t ← tryCatch (Parser.createVariables t) (fun _ => fault (.panic .executeUnwrap))
        call n n t)
      (do
        let t ← searching (fun e => (search n).expand e (ren w t))
        let t ← tryCatch (Parser.createVariables t) (fun _ => fault (.panic .executeUnwrap))
        call n n t) := fun t =>
    (RenC.searching (fun e => (ren_search n).expand e t)).bind (fun t =>
      (RenC.tryCatch (Parser.ren_createVariables t) (fun _ => RenC.fault _)).bind (fun t => (ren_calls n n).1 t))
  unfold command
  rw [CM.bind_apply, CM.bind_apply]
  refine (Parser.ren_astFromExpression n c s h h').bind (fun p => ?_)
  obtain ⟨r, c⟩ := p
  cases r with
  | error e => rfl
  | ok t => exact fin t c

theorem ren_respond (n : Nat) (c : Ctx) (s : Str) (h : Parser.Reads n c s) (h' : Parser.Reads n (ren w c) (ren w s)) :
    RenE w (respond n c s) (respond n (ren w c) (ren w s)) := by
  refine (ren_command n c s h h').bind (fun p => ?_)
  obtain ⟨r, c⟩ := p
  exact (ren_commit c).bind (fun c => rfl)

/-- A command that does not fault could be read. -/
theorem reads_of_command {n : Nat} {c : Ctx} {s : Str} {x} (h : command n s c = .ok x) : Parser.Reads n c s := by
  unfold command Parser.astFromExpression at h
  rw [CM.bind_apply, CM.bind_apply, CM.reading_apply] at h
  cases hl : lex (Parser.conceptKind ⟨c.snap, c.delta⟩ n) s with
  | ok ls => exact ⟨ls, hl⟩
  | error e => rw [hl] at h; cases h

theorem reads_of_respond {n : Nat} {c : Ctx} {s : Str} {x} (h : respond n c s = .ok x) : Parser.Reads n c s := by
  unfold respond at h
  cases hc : command n s c with
  | error e => rw [hc] at h; cases h
  | ok p => exact reads_of_command hc

theorem reads_of_clear {n : Nat} {c : Ctx} (h : Clear n c) (s : Str) : Parser.Reads n c s := by
  obtain ⟨st, hst⟩ := lexLoop_total h s ⟨[], []⟩
  exact ⟨st.rev.reverse, by simp [lex, hst]; rfl⟩

theorem ren_clear {n : Nat} {c : Ctx} (h : Clear n c) : Clear n (ren w c) := by
  intro s
  obtain ⟨k, hk⟩ := h (ren w.symm s)
  refine ⟨k, ?_⟩
  have := Parser.ren_conceptKind (w := w) ⟨c.snap, c.delta⟩ n (ren w.symm s)
  rw [ren_to_back] at this
  exact this.trans hk

end Context

end Zia

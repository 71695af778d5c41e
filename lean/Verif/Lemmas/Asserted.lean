import Verif.Lemmas.Accepted
import Verif.Lemmas.Layers
import Verif.Lemmas.LearnNew
import Verif.Lemmas.SM

/-!
# What an accepted assertion makes so
-/

namespace Zia

open CM Spec

set_option linter.unusedSectionVars false

variable [HashOrder]

/-! ## The concept of `true` while words are introduced -/

theorem Trace.wf {s : Snap} {d : Nested} (ht : Trace s Nested.default d) : ∃ o, d = .base o ∧ DWF o := by
  have one : ∀ {o : Delta} {d' : Nested} {dd : Direct CId} {id : CId}, DWF o →
      (Nested.base o).update dd = .ok (d', id) → ∃ o', d' = .base o' ∧ DWF o' := by
    intro o d' dd id hw hd
    simp only [Nested.update, Except.bind_eq_ok, Except.pure_eq_ok] at hd
    obtain ⟨⟨o', i⟩, h1, hd⟩ := hd
    cases hd
    exact ⟨o', rfl, update_wf hw h1⟩
  induction ht with
  | refl => exact ⟨_, rfl, by constructor <;> simp [Delta.empty, AMap.WF]⟩
  | tail _ hm ih =>
    obtain ⟨o, rfl, hw⟩ := ih
    cases hm with
    | emit dd he hd => exact one hw hd
    | labelled t hl h1 h2 h3 =>
      obtain ⟨o1, rfl, w1⟩ := one hw h1
      obtain ⟨o2, rfl, w2⟩ := one w1 h2
      exact one w2 h3

theorem readSteps_no_new {a : CId} {L : List CDelta} (hL : ∀ x, .direct (.remove x) ∉ L) {m : Mixed} {o : Option Mixed}
    (h : View.readSteps a (some m) L = .ok o) : ∀ nd, .direct (.new nd) ∉ L := by
  induction L generalizing m with
  | nil => simp
  | cons e L ih =>
    simp only [View.readSteps, Except.bind_eq_ok] at h
    obtain ⟨o1, h1, h2⟩ := h
    have hs : ∃ m1, o1 = some m1 := by
      cases e with
      | indirect i =>
        simp only [View.readStep, orPanic, Except.bind_eq_ok, Except.pure_eq_ok] at h1
        obtain ⟨_, _, m1, _, rfl⟩ := h1
        exact ⟨m1, rfl⟩
      | direct dd =>
        cases dd with
        | new nd => simp [View.readStep] at h1
        | remove x => exact absurd (.head _) (hL x)
        | compose c ch => simp [View.readStep] at h1
        | reduce c ch =>
          simp only [View.readStep] at h1
          split at h1
          · simp only [orPanic, Except.bind_eq_ok, Except.pure_eq_ok] at h1
            obtain ⟨_, _, m1, _, rfl⟩ := h1
            exact ⟨m1, rfl⟩
          · cases h1
    obtain ⟨m1, rfl⟩ := hs
    intro nd hn
    rcases List.mem_cons.1 hn with e' | hn
    · subst e'; simp [View.readStep] at h1
    · exact ih (fun x hx => hL x (.tail _ hx)) h2 nd hn

/-- What is read of a built-in concept while words are introduced. -/
theorem read_concrete {s g : Snap} {d : Delta} (hn : Names s g) (sim : Sim s d g) {a : CId} {m : Mixed} {k : CCT}
    (hm : (View.mk s (.base d)).read a = .ok m) (hk : m.cct = some k) :
    ∃ i, a = .com i ∧ Conc s i k ∧ m.composition = none := by
  obtain ⟨i, sp, hl, hsp, hag⟩ := sim.read hm
  have hc := hag.cct
  have hp := hag.comp
  change m.cct = _ at hc
  change Option.Rel _ m.composition _ at hp
  rw [hk] at hc
  cases sp with
  | concrete k' =>
    cases hc
    have hcomp : m.composition = none := by
      simp only [pairOf] at hp
      cases h : m.composition with
      | none => rfl
      | some p => rw [h] at hp; cases hp
    simp only [specs, look, Option.map_eq_some_iff] at hsp
    obtain ⟨c, hc, hs⟩ := hsp
    have hlt : i < s.concepts.length := by
      refine Nat.lt_of_not_le fun hle => ?_
      rcases hn.new i c hle hc with ⟨l, e⟩ | ⟨t, e⟩ | ⟨x, f, b, j, cj, t, e, _⟩ <;> rw [hs] at e <;> cases e
    obtain ⟨c', h1, h2, _⟩ := hn.old i _ (List.getElem?_eq_getElem hlt)
    rw [hc] at h1
    cases h1
    refine ⟨i, ?_, ⟨_, List.getElem?_eq_getElem hlt, h2.symm.trans hs⟩, hcomp⟩
    cases a with
    | com n => obtain ⟨rfl, _⟩ := hl; rfl
    | unc u => exact absurd (sim.range u i hl) (by omega)
  | abst mc r => cases hc
  | str t => cases hc

/-- The built-in concepts are found while words are introduced. -/
theorem concreteId_introduced {s g : Snap} {d : Delta} (hn : Names s g) (sim : Sim s d g)
    (hw : DWF d) {k : CCT} {r : Option CId} (h : (View.mk s (.base d)).concreteId k = .ok r) :
    r = (byRight s.concrete k).map .com := by
  simp only [View.concreteId, Except.bind_eq_ok] at h
  obtain ⟨o, ho, h⟩ := h
  have : o = none := by
    refine concreteLoop_skip ?_ ho
    rintro ⟨a, L⟩ hp hk e he
    rw [HashOrder.mem_order] at hp
    have hget : d.concept.get? a = some L := AMap.get?_of_mem _ hw.1 _ _ hp
    have hent : d.entries a = L := by simp [Delta.entries, hget]
    have hnr : ∀ x, .direct (.remove x) ∉ L := fun x => hent ▸ sim.noRemove a x
    simp only [View.maybeCct, Except.bind_eq_ok, Except.pure_eq_ok] at hk
    obtain ⟨om, hom, hk⟩ := hk
    cases om with
    | none => cases hk
    | some m =>
      have hm : (View.mk s (.base d)).read a = .ok m := by simp only [View.read, hom]; rfl
      obtain ⟨i, rfl, ⟨c, hc, _⟩, _⟩ := read_concrete hn sim hm hk
      have hr : View.readSteps (.com i) (some (Mixed.ofCon c)) L = .ok (some m) := by
        have : (View.mk s (.base d)).maybeRead (.com i) = View.readSteps (.com i) ((View.mk s (.base d)).getConcept (.com i)) L := by
          show (match d.concept.get? (.com i) with
            | none => Except.ok none
            | some ds => View.readSteps _ _ ds) = _
          rw [hget]
        rw [← hom, this]
        simp [View.getConcept, hc]
      exact ⟨fun nd e' => readSteps_no_new hnr hr nd (e' ▸ he), fun x e' => hnr x (e' ▸ he)⟩
  subst this
  cases h
  rfl

/-- The tree of a built-in concept is of that concept, if the remembered one is. -/
theorem concreteAst_tree {n : Nat} {c : Ctx} {k : CCT} {a : CId} {o : Option Syn} {ca : Cache}
    (ha : (View.mk c.snap c.delta).concreteId k = .ok (some a))
    (hread : ∀ m, (View.mk c.snap c.delta).read a = .ok m → m.composition = none ∧ m.id = a)
    (hca : ∀ t, c.cache.syntaxTree? a = some t → t.concept = some a)
    (h : (search n).concreteAst (env c) k c.cache = .ok (o, ca)) : ∃ t, o = some t ∧ t.concept = some a := by
  cases n with
  | zero =>
    unfold Search.concreteAst at h
    obtain ⟨r, c1, h1, h⟩ := SM.bind_ok.1 h
    obtain ⟨h0, rfl⟩ := SM.lift_ok.1 h1
    change (View.mk c.snap c.delta).concreteId k = _ at h0
    rw [ha] at h0
    cases h0
    cases h
  | succ n =>
    unfold Search.concreteAst at h
    obtain ⟨r, c1, h1, h⟩ := SM.bind_ok.1 h
    obtain ⟨h0, rfl⟩ := SM.lift_ok.1 h1
    change (View.mk c.snap c.delta).concreteId k = _ at h0
    rw [ha] at h0
    cases h0
    dsimp only at h
    obtain ⟨t, c2, h2, h⟩ := SM.bind_ok.1 h
    obtain ⟨rfl, rfl⟩ := SM.pure_ok.1 h
    refine ⟨t, rfl, ?_⟩
    change (search n).toAstF (env c) a c.cache = _ at h2
    unfold Search.toAstF at h2
    rw [show (env c).mask.get a = none from rfl] at h2
    dsimp only at h2
    obtain ⟨ca1, c3, h3, h2⟩ := SM.bind_ok.1 h2
    obtain ⟨rfl, rfl⟩ := SM.get_ok.1 h3
    cases e : c.cache.syntaxTree? a with
    | some t' =>
      rw [e] at h2
      obtain ⟨rfl, _⟩ := SM.pure_ok.1 h2
      exact hca _ e
    | none =>
      rw [e] at h2
      dsimp only at h2
      obtain ⟨m, c4, h4, h2⟩ := SM.bind_ok.1 h2
      obtain ⟨h4', rfl⟩ := SM.lift_ok.1 h4
      obtain ⟨hcomp, hid⟩ := hread m h4'
      obtain ⟨t', c5, h5, h2⟩ := SM.bind_ok.1 h2
      obtain ⟨_, c6, _, h2⟩ := SM.bind_ok.1 h2
      obtain ⟨rfl, _⟩ := SM.pure_ok.1 h2
      unfold Search.buildAst at h5
      have : ∃ ls c7, (match (generalizing := false) ls with
          | some s => liftM ((env c).view.bindConceptToSyntax (Syn.ofStr s) a)
          | none => match m.composition with
            | some (l, r) => do (search n).combine (env c) (← (search n).toAst (env c) l) (← (search n).toAst (env c) r)
            | none => pure (View.newSyntaxFromConcept m) : SM Syn) c7 = .ok (t', c5) := by
        cases hs : m.string with
        | some s =>
          rw [hs] at h5
          dsimp only at h5
          obtain ⟨ls, c7, _, h5⟩ := SM.bind_ok.1 h5
          exact ⟨ls, c7, h5⟩
        | none =>
          rw [hs] at h5
          dsimp only at h5
          obtain ⟨ls, c7, _, h5⟩ := SM.bind_ok.1 h5
          exact ⟨ls, c7, h5⟩
      obtain ⟨ls, c7, h6⟩ := this
      cases ls with
      | some ls =>
        dsimp only at h6
        obtain ⟨h5, _⟩ := SM.lift_ok.1 h6
        unfold View.bindConceptToSyntax at h5
        simp only [Except.bind_eq_ok] at h5
        obtain ⟨q, _, h5⟩ := h5
        split at h5
        · unfold Syn.bindQuantifierConcept at h5
          split at h5
          · cases h5; rfl
          · cases h5
        · cases h5
          unfold Syn.bindConcept
          split <;> rfl
      | none =>
        rw [hcomp] at h6
        dsimp only at h6
        obtain ⟨rfl, _⟩ := SM.pure_ok.1 h6
        unfold View.newSyntaxFromConcept
        rw [hid]
        split
        · rfl
        · split <;> rfl

/-! ## The change -/

theorem matchRighthandPair_asserts {n k : Nat} {t o u : Syn} {c : Ctx}
    (h : o.concept = none ∨ ∃ x m, o.concept = some x ∧ (View.mk c.snap c.delta).read x = .ok m ∧
      m.cct ≠ some .reduction ∧ m.cct ≠ some .define ∧ m.reduction = none) :
    Ends (Context.matchRighthandPair n k t o u) c
      (fun r c' => c' = c ∧ (r = .error .unusedSymbol ∨ r = .error .cannotReduceFurther)) := by
  cases k with
  | zero => exact Ends.fault
  | succ k =>
    unfold Context.matchRighthandPair
    rcases h with h | ⟨x, m, hx, hm, h1, h2, h3⟩
    · rw [h]
      exact Ends.throw ⟨rfl, .inl rfl⟩
    · rw [hx]
      refine Ends.bind (Ends.reading fun r hr => ?_)
      show Ends _ _ _
      simp only [View.cct, hm] at hr
      cases hr
      split
      · next e => exact absurd e h1
      · next e => exact absurd e h2
      · refine Ends.bind (Ends.reading fun r hr => ?_)
        show Ends _ _ _
        rw [hm] at hr
        cases hr
        rw [h3]
        exact Ends.throw ⟨rfl, .inr rfl⟩

/-- A command `let r` that says that `r` is true, when what it does shows its errors. -/
theorem call_asserts {n k : Nat} {L R T : Syn} {c : Ctx} {Q : Except ZiaError Unit → Ctx → Prop}
    (hT : T.concept = none) (hTe : T.expansion = some (L, R)) (hL : OfType ⟨c.snap, c.delta⟩ L .letCmd)
    (hR : Asserts ⟨c.snap, c.delta⟩ R) (hQ : ∀ e c', Q (.error e) c' → Shown e)
    (h : ∀ o ca, (search n).concreteAst (env c) .tru c.cache = .ok (o, ca) →
      ∃ t, o = some t ∧ Ends (Context.executeReduction n R t) { c with cache := ca } Q) :
    Ends (Context.call n k T) c (fun r c' => Q (r.map fun _ => ()) c') := by
  cases k with
  | zero => exact Ends.fault
  | succ k =>
    unfold Context.call Context.stringOf
    rw [hT]
    refine Ends.bind (Ends.pure ?_)
    show Ends _ _ _
    rw [hTe]
    refine onError_ends ?_ fun x c' h => (hQ _ _ h).2
    cases k with
    | zero => exact Ends.fault
    | succ k =>
      unfold Context.callPair
      refine Ends.bind (Ends.get ?_)
      refine Ends.bind (Ends.ofE fun o ho => ?_)
      obtain ⟨l, hl, hlc⟩ := hL
      rw [cct_of_plain hl hlc] at ho
      cases ho
      show Ends _ _ _
      refine Ends.bind (Ends.mono (Q := fun r c' => Q (r.map fun _ => ()) c' ∧
        ∀ o, r = .ok o → o = some []) ?_ ?_)
      · unfold Context.callLet
        refine Ends.bind (Ends.mono (Q := fun r c' => r = .ok false ∧ c' = c) ?_ ?_)
        · cases hRe : R.expansion with
          | none => exact Ends.pure ⟨rfl, rfl⟩
          | some p =>
            obtain ⟨t, a⟩ := p
            dsimp only
            unfold Context.executeLet
            cases ha : a.expansion with
            | none => exact Ends.pure ⟨rfl, rfl⟩
            | some q =>
              obtain ⟨o, u⟩ := q
              dsimp only [Option.map_some]
              refine Ends.tryCatch (Ends.tryCatch (Ends.bind
                ((matchRighthandPair_asserts (hR t a o u hRe ha)).mono ?_)))
              rintro r c' ⟨rfl, rfl | rfl⟩
              · show Ends _ _ _
                rw [if_neg (by simp)]
                refine Ends.throw ?_
                show Ends _ _ _
                rw [if_pos rfl]
                exact Ends.pure ⟨rfl, rfl⟩
              · show Ends _ _ _
                rw [if_pos rfl]
                exact Ends.pure ⟨rfl, rfl⟩
        · rintro _ _ ⟨rfl, rfl⟩
          show Ends _ _ _
          rw [if_neg (by simp)]
          refine Ends.bind (Ends.searching fun o ca ho => ?_)
          show Ends _ _ _
          obtain ⟨t, rfl, he⟩ := h o ca ho
          refine Ends.bind (he.mono fun r c' hr => ?_)
          cases r with
          | error e => exact ⟨hr, fun o h => by cases h⟩
          | ok _ => exact Ends.pure ⟨hr, fun o h => by cases h; rfl⟩
      · intro r c' h
        cases r with
        | error e => exact h.1
        | ok o =>
          cases h.2 o rfl
          exact Ends.pure h.1

end Zia

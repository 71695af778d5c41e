import Verif.Lemmas.LearnStore
import Verif.Lemmas.Related
import Verif.Lemmas.Teach

/-!
# Forgetting a reduction

What `forget x` does for a word.
-/

namespace Zia
open CM Spec
set_option linter.unusedSectionVars false

/-- The effect on the store of forgetting a reduction. -/
theorem remove_specs {g g' : Snap} {a b : CId} (hg : RefsInv g) (st : Step g (a, .reduce a (.remove b)) g') :
    ∃ i mc red, g.convert a = .ok i ∧ specs g i = some (.abst mc red) ∧
      specs g' = updS (specs g) i (.abst mc none) ∧ g'.concepts.length = g.concepts.length := by
  cases st with
  | reduceRemove _ _ k bi ck cb mc red hk hb hne hck hcb hs =>
    refine ⟨k, mc, red, hk, by simp [specs, look, hck, hs], ?_, by simp [Snap.withConcepts]⟩
    funext m
    simp only [specs, look, Snap.withConcepts, updS, List.getElem?_set, List.length_set]
    have h1 := lt_of_get hck
    have h2 := lt_of_get hcb
    by_cases e1 : bi = m
    · subst e1
      rw [if_pos rfl, if_pos h2, if_neg (fun e => hne e.symm), hcb]; rfl
    · rw [if_neg e1]
      by_cases e2 : k = m
      · subst e2
        rw [if_pos rfl, if_pos rfl, if_pos h1]; rfl
      · rw [if_neg e2, if_neg (fun e => e2 e.symm)]

/-- The text that forgets the reduction of `x`. -/
def forgetting (x : Str) : Str := str% "forget " ++ x

variable [HashOrder]

theorem pinned_kept : Loose (fun c c' => c'.pinned = c.pinned) where
  refl _ := rfl
  trans h h' := h'.trans h
  cache _ _ _ _ _ _ := rfl
  update _ _ _ _ _ := rfl
  bound _ _ := rfl
  pin _ := rfl

omit [HashOrder] in
/-- Between commands there is one pointer to the pending changes. -/
theorem History.unpinned {Q : Snap → CId × Direct CId → Prop} {c : Ctx} (h : History Q c) :
    c.pinned = false := by
  induction h with
  | start h => rw [boot0_eq] at h; cases h; rfl
  | shared ca _ ih => exact ih
  | @step _ c c' n s r _ h _ ih =>
    simp only [Context.execute, Except.bind_eq_ok] at h
    obtain ⟨⟨x, c1⟩, h1, c2, h2, h3⟩ := h
    have hp : c1.pinned = c.pinned := Context.command_related pinned_kept (fun _ _ => rfl) n s c x c1 h1
    simp only [Context.commit, Except.bind_eq_ok, Except.pure_eq_ok] at h2
    obtain ⟨s2, h2, rfl⟩ := h2
    cases h3
    exact hp.trans ih

theorem lex_forgetting {x : Str} (hx : IsSymbol x) {kind : Str → Except Fault Kind}
    {ls : List Lexeme} (h : lex kind (forgetting x) = .ok ls) :
    ∃ kf kx, ls = [⟨str% "forget", .concept kf⟩, ⟨[' '], .whitespace⟩, ⟨x, .concept kx⟩] ∧
      kind (str% "forget") = .ok kf ∧ kind x = .ok kx := by
  obtain ⟨stack, I⟩ := lex_inv h
  have hsp : HasClass .space [' '] := ⟨by simp, by decide⟩
  have hf : HasClass .symbol (str% "forget") := ⟨by decide, by simp [SymbolChar]; decide⟩
  have hcan : Canonical [(.symbol, str% "forget"), (.space, [' ']), (.symbol, x)] :=
    ⟨hf, by decide, hsp, by decide, hx⟩
  have hs := canonical_unique _ _ I.canonical hcan (by
    have := I.text
    simp only [textOf, segments, List.map_map]
    rw [show ((fun x : Cls × Str => x.2) ∘ fun l : Lexeme => (clsOf l.category, l.text)) = (·.text) from rfl, this]
    simp [forgetting])
  simp only [segments, List.map_eq_cons_iff, List.map_eq_nil_iff, Prod.mk.injEq] at hs
  obtain ⟨⟨t1, k1⟩, _, rfl, ⟨c1, rfl⟩, ⟨t2, k2⟩, _, rfl, ⟨c2, rfl⟩, ⟨t3, k3⟩, _, rfl, ⟨c3, rfl⟩, rfl⟩ := hs
  have hw := fun l hl => (I.wf l hl).2
  clear I hcan h
  obtain ⟨k1, rfl⟩ : ∃ k, k1 = .concept k := by cases k1 <;> simp_all [clsOf]
  obtain ⟨k3, rfl⟩ : ∃ k, k3 = .concept k := by cases k3 <;> simp_all [clsOf]
  obtain rfl : k2 = .whitespace := by cases k2 <;> simp_all [clsOf]
  exact ⟨k1, k3, rfl, hw ⟨str% "forget", .concept k1⟩ (by simp) _ rfl, hw ⟨t3, .concept k3⟩ (by simp) _ rfl⟩

theorem nest_forget (kf kx : Kind) (x : Str) :
    nest [⟨str% "forget", .concept kf⟩, ⟨[' '], .whitespace⟩, ⟨x, .concept kx⟩] =
    .ok ((NST.fromConceptKind kf (str% "forget")).appendNode (NST.fromConceptKind kx x)) := rfl

/-- The tree of a word that is known. -/
theorem leafOf_known {n : Nat} {c : Ctx} {t : Str} {id : CId} {k : Kind} (ht : IsSymbol t)
    (hv : Syn.isVariableName t = false) (hl : (View.mk c.snap c.delta).conceptFromLabel n t = .ok (some id))
    (hk : Parser.conceptKind ⟨c.snap, c.delta⟩ n t = .ok k) : ∃ l, Plain id l ∧ leafOf n t k = pure l := by
  have hsp : ' ' ∉ t := by
    intro hm
    have := (ht.2 _ hm).2.2
    exact absurd this (by decide)
  have hnv : ¬(t.head? = some '_' ∧ t.getLast? = some '_') := by
    rintro ⟨h1, h2⟩
    simp [Syn.isVariableName, h1, h2, hsp] at hv
  unfold Parser.conceptKind at hk
  rw [if_neg hnv, hl] at hk
  have hk : ((View.mk c.snap c.delta).read id >>= fun m => match m.cct with
    | none => pure (.abst id)
    | some t => pure (.concrete id t)) = Except.ok k := hk
  rw [Except.bind_eq_ok] at hk
  obtain ⟨m, _, hk⟩ := hk
  cases hc : m.cct with
  | none =>
    rw [hc] at hk; cases hk
    exact ⟨_, ⟨t, .constant, rfl, by simp⟩, rfl⟩
  | some q =>
    rw [hc] at hk; cases hk
    cases q
    case existsSuchThat => exact ⟨_, ⟨t, .quantifier, rfl, by simp⟩, rfl⟩
    all_goals exact ⟨_, ⟨t, .constant, rfl, by simp⟩, rfl⟩

/-- How reading the command ends: with the pair of the two words. -/
theorem parse_forgetting {n : Nat} {x : Str} (hx : IsSymbol x) (vx : Syn.isVariableName x = false)
    {c : Ctx} {f i : CId}
    (hf : (View.mk c.snap c.delta).conceptFromLabel n (str% "forget") = .ok (some f))
    (hi : (View.mk c.snap c.delta).conceptFromLabel n x = .ok (some i)) :
    Ends (Parser.astFromExpression n (forgetting x)) c (fun r c' => c' = c ∧ ∃ F X, Plain f F ∧ Plain i X ∧
      r = .ok (.newPair F X)) := by
  unfold Parser.astFromExpression
  refine Ends.bind (Ends.reading fun ls hls => ?_)
  obtain ⟨kf, kx, rfl, h1, h2⟩ := lex_forgetting hx hls
  obtain ⟨F, pF, eF⟩ := leafOf_known ⟨by decide, by simp [SymbolChar]; decide⟩ (by decide) hf h1
  obtain ⟨X, pX, eX⟩ := leafOf_known hx vx hi h2
  have e : ((fun ls => do
      let t ← ofR (nest ls)
      let ts ← Parser.syntaxList n t
      Parser.astFromList n ts.length ts : List Lexeme → CM Syn) [⟨str% "forget", .concept kf⟩, ⟨[' '], .whitespace⟩,
        ⟨x, .concept kx⟩]) = (do
      let ts ← (do
        let l ← leafOf n (str% "forget") kf
        let rs ← (do
          let r ← leafOf n x kx
          return [r])
        return l :: rs)
      Parser.astFromList n ts.length ts) := rfl
  show Ends ((fun ls => do
      let t ← ofR (nest ls)
      let ts ← Parser.syntaxList n t
      Parser.astFromList n ts.length ts : List Lexeme → CM Syn) _) _ _
  rw [e, eF, eX]
  exact Ends.pure ⟨rfl, F, X, pF, pX, rfl⟩

/-- What the command `forget x` leaves. -/
def Forgot (c : Ctx) (i : Nat) (r : Except ZiaError Str) (c' : Ctx) : Prop :=
  c'.snap = c.snap ∧ ((∃ j, ReducesTo c.snap i j ∧ r = .ok [] ∧ ∃ id,
      c.delta.update (.reduce (.com i) (.remove (.com j))) = .ok (c'.delta, id)) ∨
    (∀ j, ¬ReducesTo c.snap i j) ∧ c'.delta = c.delta ∧ ∃ s, r = .error (.redundantReduction s))

theorem callForget_ends {c : Ctx} (hd : c.delta = Nested.default) (hp : c.pinned = false) {i : Nat} {X : Syn}
    (hX : Plain (.com i) X) : Ends (Context.callForget X) c (fun r c' =>
      Forgot c i (r.map fun _ => []) c' ∧ ∀ o, r = .ok o → o = some []) := by
  obtain ⟨sx, kx, rfl, hkx⟩ := hX
  unfold Context.callForget
  dsimp only [Syn.concept]
  refine Ends.bind (Ends.exclusive (fun _ => ?_) (fun h => by rw [hp] at h; cases h))
  show Ends _ _ _
  refine Ends.bind (Ends.ofE fun s _ => ?_)
  show Ends _ _ _
  unfold Updater.deleteReduction
  refine Ends.bind (Ends.bind (Ends.reading fun m hm => ?_))
  show Ends _ _ _
  rw [hd] at hm
  obtain ⟨k, ck, e, hk, rfl⟩ := rest_read_inv hm
  cases e
  cases hred : ck.reduction with
  | none =>
    have : (Mixed.ofCon ck).reduction = none := by
      show ck.reduction.map _ = none
      rw [hred]; rfl
    rw [this]
    refine Ends.throw ⟨⟨rfl, .inr ⟨?_, rfl, s, rfl⟩⟩, by simp⟩
    rintro j ⟨c1, h1, h2⟩
    rw [hk] at h1; cases h1
    rw [hred] at h2; cases h2
  | some j =>
    have : (Mixed.ofCon ck).reduction = some (.com j) := by
      show ck.reduction.map _ = _
      rw [hred]; rfl
    rw [this]
    refine Ends.bind (Ends.update fun d id h => ?_)
    refine Ends.pure ?_
    refine Ends.pure ⟨⟨rfl, .inl ⟨j, ⟨ck, hk, hred⟩, rfl, id, h⟩⟩, ?_⟩
    rintro o ⟨⟩
    rfl

/-- How the command `forget x` ends, for a word. -/
theorem forget_ends {n : Nat} {c : Ctx} (hd : c.delta = Nested.default) (hp : c.pinned = false)
    (hs : Nameable c.snap) (hf : CompFwd (look c.snap.concepts)) (hr : CompRev (look c.snap.concepts))
    {x : Str} (hx : IsSymbol x) {i : Nat} (wf : PlainWord c.snap (builtin .forget) (str% "forget"))
    (wx : PlainWord c.snap i x) (bf : IsBuiltIn c.snap (builtin .forget) .forget)
    (hc : PlainCache (· ∈ [CId.com (builtin .forget), .com i]) c.cache)
    (lf : (View.mk c.snap c.delta).conceptFromLabel n (str% "forget") = .ok (some (.com (builtin .forget))))
    (lx : (View.mk c.snap c.delta).conceptFromLabel n x = .ok (some (.com i))) :
    Ends (Context.command n (forgetting x)) c (Forgot c i) := by
  have hw : Displayed ⟨c.snap, c.delta⟩ (· ∈ [CId.com (builtin .forget), .com i]) := by
    rw [hd]
    refine words_displayed hs hf fun a ha => ?_
    simp only [List.mem_cons, List.not_mem_nil, or_false] at ha
    rcases ha with rfl | rfl
    exacts [⟨_, _, rfl, wf⟩, ⟨_, _, rfl, wx⟩]
  have cc : ∀ {id : CId} {t : Syn}, Plain id t → t.concept = some id := by
    rintro id t ⟨s, k, rfl, hk⟩; rfl
  unfold Context.command
  refine Ends.bind ((parse_forgetting hx wx.constant lf lx).mono ?_)
  rintro _ c2 ⟨e2, F, X, pF, pX, rfl⟩
  subst c2
  show Ends _ _ _
  refine Ends.bind (Ends.searching fun t ca ht => ?_)
  show Ends _ _ _
  cases n with
  | zero => cases ht
  | succ n =>
    obtain ⟨F', X', ca1, ca2, x1, x2, x3⟩ := Search.expand_pair (hu := rfl) (hx := rfl) ht
    obtain ⟨pF', o1⟩ := Search.expand_plain hw rfl (by simp) (env_mask _) (cc pF) hc x1
    obtain ⟨pX', o2⟩ := Search.expand_plain hw rfl (by simp) (env_mask _) (cc pX) o1 x2
    obtain ⟨s, o, rfl, hk, _⟩ := Search.combine_paired x3
    generalize (Syn.pairVars F' X').1 = f, (Syn.pairVars F' X').2 = b at *
    generalize some s = s at *
    have hcv : Parser.createVariables (.branch s o F' X' f b) = pure (.branch s o F' X' f b) := by
      simp only [Parser.createVariables, createVariables_plain pF', createVariables_plain pX', pure_bind]
    rw [hcv]
    refine Ends.bind (Ends.tryCatch (Ends.pure ?_))
    show Ends _ _ _
    unfold Context.call
    have hstr : Ends (Context.stringOf (.branch s o F' X' f b)) { c with cache := ca }
        (fun r c' => r = .ok none ∧ c' = { c with cache := ca }) := by
      unfold Context.stringOf
      cases o with
      | none => exact Ends.pure ⟨rfl, rfl⟩
      | some k =>
        obtain ⟨a, d, m, e1, e2, hm, hk⟩ := hk k rfl
        rw [cc pF'] at e1; cases e1
        rw [cc pX'] at e2; cases e2
        have hm : (View.mk c.snap c.delta).read (.com (builtin .forget)) = .ok m := hm
        rw [hd] at hm
        obtain ⟨w, cw, e, hcw, rfl⟩ := rest_read_inv hm
        cases e
        rw [ofCon_findAsHand] at hk
        cases hfh : cw.findAsHand i .left with
        | none => rw [hfh] at hk; cases hk
        | some q =>
          rw [hfh] at hk; cases hk
          obtain ⟨cq, h1, h2⟩ := (hr _ cw i q hcw).1 hfh
          dsimp only [Syn.concept]
          refine Ends.bind (Ends.reading fun m hm => ?_)
          have hm : (View.mk c.snap c.delta).read (.com q) = .ok m := hm
          rw [hd] at hm
          obtain ⟨w', cw', e, hcw', rfl⟩ := rest_read_inv hm
          cases e
          have : cw' = cq := by
            have h1 : c.snap.concepts[q]? = some cq := h1
            rw [hcw'] at h1; cases h1; rfl
          subst this
          refine Ends.pure ⟨?_, rfl⟩
          congr 1
          show cw'.string = none
          unfold Concept.string
          cases hsp : cw'.spec <;> simp [hsp, pairOf] at h2 ⊢
    refine Ends.bind (hstr.mono ?_)
    rintro _ _ ⟨rfl, rfl⟩
    show Ends _ _ _
    dsimp only [Syn.expansion]
    refine onError_ends ?_ (fun e c' h => ?_)
    · cases n with
      | zero => exact Ends.fault
      | succ n =>
        unfold Context.callPair
        refine Ends.bind (Ends.get ?_)
        refine Ends.bind (Ends.ofE fun q hq => ?_)
        have hcct : (View.mk c.snap c.delta).cct (.com (builtin .forget)) = .ok (some .forget) := by
          obtain ⟨ck, h1, h2⟩ := bf
          rw [hd]
          show (do return (← (View.mk c.snap Nested.default).read (.com _)).cct) = _
          rw [rest_read h1]
          exact congrArg Except.ok h2
        rw [cct_of_plain (cc pF') (c := { c with cache := ca }) hcct] at hq
        cases hq
        refine Ends.bind ((callForget_ends (c := { c with cache := ca }) hd hp pX').mono fun r c' h => ?_)
        cases r with
        | error e => exact h.1
        | ok o =>
          cases h.2 o rfl
          exact Ends.pure h.1
    · rcases h with ⟨_, ⟨_, _, h, _⟩ | ⟨_, _, s, h⟩⟩ <;> cases h
      simp

/-- What forgetting makes of the store. -/
theorem forgotten_store {c : Ctx} {d : Nested} {s' : Snap} {i j : Nat} {id : CId} (hs : RefsInv c.snap)
    (hd : c.delta = Nested.default)
    (hu : c.delta.update (.reduce (.com i) (.remove (.com j))) = .ok (d, id))
    (ha : c.snap.apply d = .ok s') : Forgotten c.snap s' i := by
  rw [hd] at hu
  obtain ⟨o, e, hid, hup⟩ := Nested.update_base hu
  have ho := Nested.update_order hu
  rw [e] at ha ho
  obtain ⟨g, g', h1, h2, rfl⟩ := apply_base ha
  have ho : o.order = [(id, .reduce (.com i) (.remove (.com j)))] := ho
  have hid : id = .com i := hid
  subst hid
  rw [ho] at h1
  have h1 : c.snap.applyOne (.com i, .reduce (.com i) (.remove (.com j))) = .ok g := by
    simp only [Snap.applyAll, Except.bind_eq_ok] at h1
    obtain ⟨a, b, d⟩ := h1
    cases d
    exact b
  obtain ⟨i', mc, red, hi, hsp, hsp', hlen⟩ := remove_specs hs (applyOne_step h1)
  cases hi
  have h2 := applyStrings_only h2
  have hcon : ({ g' with prev := [] } : Snap).concepts = g.concepts := by rw [h2]
  have hsame : specs { g' with prev := [] } = updS (specs c.snap) i (.abst mc none) := by
    rw [← hsp']
    funext m
    unfold specs look
    rw [hcon]
  have other : ∀ k, k ≠ i → specs { g' with prev := [] } k = specs c.snap k := by
    intro k hk
    rw [hsame]; simp [updS, hk]
  have at_i : specs { g' with prev := [] } i = some (.abst mc none) := by
    rw [hsame]; simp [updS]
  refine ⟨by rw [hcon, hlen], ?_, ?_, ?_, ?_, ?_⟩
  · intro m
    rw [reducesTo_specs, at_i]
    simp [redOf]
  · intro k m hk
    rw [reducesTo_specs, reducesTo_specs, other k hk]
  · intro k l r
    rw [composedOf_specs, composedOf_specs]
    by_cases hk : k = i
    · subst hk
      rw [at_i, hsp]
      cases mc <;> simp [pairOf]
    · rw [other k hk]
  · intro k t
    rw [isString_specs, isString_specs]
    by_cases hk : k = i
    · subst hk
      rw [at_i, hsp]; simp
    · rw [other k hk]
  · intro k t
    rw [isBuiltIn_specs, isBuiltIn_specs]
    by_cases hk : k = i
    · subst hk
      rw [at_i, hsp]; simp
    · rw [other k hk]

/-- Committing no change. -/
theorem apply_nothing {s s' : Snap} (hp : s.prev = []) (h : s.apply Nested.default = .ok s') : s' = s := by
  obtain ⟨g, g', h1, h2, rfl⟩ := apply_base h
  cases h1
  cases h2
  rw [← hp]

end Zia

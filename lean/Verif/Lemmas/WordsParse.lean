import Verif.Lemmas.WordsUpdate
import Verif.Lemmas.Lex

/-!
# Renaming and parsing
-/

set_option linter.unusedSectionVars false

namespace Zia

open Spec HashOrder

section

variable (w : Words)

/-! ## Lexemes -/

/-- A category without the partners of parentheses. -/
def Category.bare : Category → Category
  | .opening _ => .opening none
  | .closing _ => .closing none
  | k => k

/-- A lexeme without the partner of a parenthesis. -/
def Lexeme.bare (l : Lexeme) : Lexeme := ⟨l.text, l.category.bare⟩

theorem nestStep_bare (st : NestState) (l : Lexeme) : nestStep st l.bare = nestStep st l := by
  obtain ⟨t, k⟩ := l
  cases k <;> rfl

theorem nestLoop_bare (ls : List Lexeme) (st : NestState) :
    nestLoop st (ls.map Lexeme.bare) = nestLoop st ls := by
  induction ls generalizing st with
  | nil => rfl
  | cons l ls ih =>
    simp only [List.map_cons, nestLoop, nestStep_bare]
    cases nestStep st l with
    | error e => rfl
    | ok st' => exact ih st'

theorem nest_bare (ls : List Lexeme) : nest (ls.map Lexeme.bare) = nest ls := by
  simp only [nest, nestLoop_bare]

/-! ## Grouping -/

theorem ren_nst_syn (t : NST) : (ren w t).syn = ren w t.syn := by cases t <;> rfl

theorem ren_nst_parent (cs : List NST) (s : Str) (c : Option CId) :
    ren w (NST.parent cs s c) = .parent (ren w cs) (ren w s) c := by
  show NST.parent (renNSTs w cs) _ _ = _
  congr 1
  induction cs with
  | nil => rfl
  | cons t ts ih => show _ :: renNSTs w ts = _ :: _; rw [ih]; rfl

theorem ren_fromConceptKind (k : Kind) (s : Str) :
    NST.fromConceptKind k (ren w s) = ren w (NST.fromConceptKind k s) := rfl

theorem ren_nst_nest (t : NST) : (ren w t).nest = ren w t.nest := by
  simp only [NST.nest, ren_nst_parent, ren_nst_syn, ren_list_cons, ren_list_nil]
  congr 1
  rw [ren_snoc_sep w (by decide), ren_cons_sep w (by decide)]

theorem ren_appendNode (t x : NST) : (ren w t).appendNode (ren w x) = ren w (t.appendNode x) := by
  simp only [NST.appendNode, ren_nst_parent, ren_nst_syn, ren_append_sep w sep_space]
  congr 1
  cases t with
  | leaf l s c => rfl
  | parent cs s c =>
    rw [ren_nst_parent]
    simp

instance : Ren NestState := ⟨fun w s => ⟨s.map.map (fun p => (p.1, ren w p.2)), s.depth⟩⟩

theorem ren_mapRemove (m : List (Nat × NST)) (k : Nat) :
    mapRemove (ren w m) k = ren w (mapRemove m k) := by
  unfold mapRemove
  show (_, _) = (_, _)
  congr 1
  · induction m with
    | nil => rfl
    | cons p m ih =>
      rw [ren_list_cons, List.find?_cons, List.find?_cons]
      show Option.map _ (match p.1 == k with | true => _ | false => _) = _
      cases p.1 == k
      · exact ih
      · rfl
  · exact ren_filter w _ _ (fun _ => rfl) m

theorem ren_nestStep (st : NestState) (l : Lexeme) :
    nestStep (ren w st) (ren w l) = ren w (nestStep st l) := by
  obtain ⟨m, d⟩ := st
  obtain ⟨t, k⟩ := l
  show nestStep ⟨ren w m, d⟩ ⟨ren w t, k⟩ = _
  cases k with
  | whitespace => rfl
  | opening _ => rfl
  | concept k =>
    simp only [nestStep, ren_mapRemove, ren_fromConceptKind]
    obtain ⟨old, m'⟩ := mapRemove m d
    cases old with
    | none => rfl
    | some ns =>
      simp only [ren_pair, ren_some, ren_appendNode]
      rfl
  | closing _ =>
    simp only [nestStep, ren_mapRemove]
    obtain ⟨old, m'⟩ := mapRemove m d
    cases old with
    | none => rfl
    | some t =>
      simp only [ren_pair, ren_some, ren_mapRemove]
      by_cases hd : d = 0
      · rw [if_pos hd, if_pos hd]; rfl
      · rw [if_neg hd, if_neg hd]
        obtain ⟨old', m''⟩ := mapRemove m' (d - 1)
        cases old' with
        | none => simp only [ren_pair, ren_none, ren_nst_nest]; rfl
        | some ns => simp only [ren_pair, ren_some, ren_nst_nest, ren_appendNode]; rfl

theorem ren_nestLoop (ls : List Lexeme) (st : NestState) :
    nestLoop (ren w st) (ren w ls) = ren w (nestLoop st ls) := by
  induction ls generalizing st with
  | nil => rfl
  | cons l ls ih =>
    simp only [ren_list_cons, nestLoop, ren_nestStep]
    cases nestStep st l with
    | error e => rfl
    | ok st' => exact ih st'

theorem ren_nest (ls : List Lexeme) : nest (ren w ls) = ren w (nest ls) := by
  unfold nest
  have h := ren_nestLoop w ls ⟨[], 0⟩
  rw [show nestLoop ⟨[], 0⟩ (ren w ls) = _ from h]
  cases nestLoop ⟨[], 0⟩ ls with
  | error e => rfl
  | ok st =>
    obtain ⟨m, d⟩ := st
    show (if d ≠ 0 then _ else match (mapRemove (ren w m) 0).1 with | none => _ | some t => _) = 
      ren w (if d ≠ 0 then _ else match (mapRemove m 0).1 with | none => _ | some t => _)
    rw [ren_mapRemove]
    split
    · rfl
    · cases hx : (mapRemove m 0).1 with
      | none => rw [ren_fst, hx]; rfl
      | some t => rw [ren_fst, hx]; rfl

/-! ## Segments -/

theorem ren_spaces {t : Str} (h : ∀ c ∈ t, isWs c = true) : ren w t = t := by
  induction t with
  | nil => rfl
  | cons c t ih =>
    rw [ren_cons_sep w (sep_of_ws (h c (by simp))), ih (fun x hx => h x (by simp [hx]))]

theorem ren_hasClass {k : Cls} {t : Str} (h : HasClass k t) : HasClass k (ren w t) := by
  cases k with
  | opening => cases h; rfl
  | closing => cases h; rfl
  | space => exact ⟨fun e => h.1 ((ren_eq_nil w).1 e), by rw [ren_spaces w h.2]; exact h.2⟩
  | symbol =>
    refine ⟨fun e => h.1 ((ren_eq_nil w).1 e), fun c hc => ?_⟩
    have key := ren_any w (p := fun c => c == '(' || c == ')' || isWs c)
      (fun c hc => by
        simp only [Bool.or_eq_true] at hc
        rcases hc with (hc | hc) | hc
        · rw [eq_of_beq hc]; rfl
        · rw [eq_of_beq hc]; rfl
        · exact sep_of_ws hc) t
    have h0 : t.any (fun c => c == '(' || c == ')' || isWs c) = false := by
      rw [List.any_eq_false]
      intro x hx
      obtain ⟨h1, h2, h3⟩ := h.2 x hx
      simp [h1, h2, h3]
    rw [h0, List.any_eq_false] at key
    have := key c hc
    simp only [Bool.or_eq_true, beq_iff_eq, not_or] at this
    exact ⟨this.1.1, this.1.2, by simpa using this.2⟩

/-- Rename the pieces of a segmentation. -/
def renSegs (ps : List (Cls × Str)) : List (Cls × Str) := ps.map (fun p => (p.1, ren w p.2))

theorem renSegs_canonical {ps : List (Cls × Str)} (h : Canonical ps) : Canonical (renSegs w ps) := by
  match ps with
  | [] => exact h
  | [(k, t)] => exact ren_hasClass w h
  | (k, t) :: (k', t') :: rest =>
    exact ⟨ren_hasClass w h.1, h.2.1, renSegs_canonical h.2.2⟩

theorem ren_append_starts {a b : Str} {c : Char} (hb : b.head? = some c) (hc : isSep c = true) :
    ren w (a ++ b) = ren w a ++ ren w b := by
  cases b with
  | nil => cases hb
  | cons x b =>
    cases hb
    rw [ren_append_sep w hc, ren_cons_sep w hc]

theorem ren_append_seps {a b : Str} (ha : ∀ c ∈ a, isSep c = true) :
    ren w (a ++ b) = ren w a ++ ren w b := by
  induction a with
  | nil => rfl
  | cons c a ih =>
    have hc := ha c (by simp)
    rw [List.cons_append, ren_cons_sep w hc, ren_cons_sep w hc, ih (fun x hx => ha x (by simp [hx]))]
    rfl

theorem seps_of_class {k : Cls} {t : Str} (h : HasClass k t) (hk : k ≠ .symbol) : ∀ c ∈ t, isSep c = true := by
  cases k with
  | opening => cases h; intro c hc; simp at hc; subst hc; rfl
  | closing => cases h; intro c hc; simp at hc; subst hc; rfl
  | space => exact fun c hc => sep_of_ws (h.2 c hc)
  | symbol => exact absurd rfl hk

theorem textOf_renSegs {ps : List (Cls × Str)} (h : Canonical ps) :
    textOf (renSegs w ps) = ren w (textOf ps) := by
  match ps with
  | [] => rfl
  | [(k, t)] => simp [textOf, renSegs]
  | (k, t) :: (k', t') :: rest =>
    have ih := textOf_renSegs h.2.2
    have e : textOf ((k, t) :: (k', t') :: rest) = t ++ textOf ((k', t') :: rest) := rfl
    rw [e]
    show ren w t ++ textOf (renSegs w ((k', t') :: rest)) = _
    rw [ih]
    by_cases hk : k = .symbol
    · have hk' : k' ≠ .symbol := fun e => h.2.1 ⟨by rw [hk, e], .inr hk⟩
      have hc' : HasClass k' t' := by
        have := h.2.2
        cases rest with
        | nil => exact this
        | cons _ _ => exact this.1
      have hs := seps_of_class hc' hk'
      cases t' with
      | nil => cases k' with
        | opening => cases hc'
        | closing => cases hc'
        | space => exact absurd rfl hc'.1
        | symbol => exact absurd rfl hk'
      | cons x t' => exact (ren_append_starts w (c := x) rfl (hs x (by simp))).symm
    · exact (ren_append_seps w (seps_of_class h.1 hk)).symm

end

/-- Reading a renamed command gives the renamed lexemes, but for the partners of parentheses, which
are not used. -/
theorem ren_lex (w : Words) {kind kind' : Str → Except Fault Kind} (hk : ∀ s, kind' (ren w s) = kind s)
    {s : Str} {ls ls' : List Lexeme} (h : lex kind s = .ok ls) (h' : lex kind' (ren w s) = .ok ls') :
    nest ls' = ren w (nest ls) := by
  obtain ⟨st, I⟩ := lex_inv h
  obtain ⟨st', I'⟩ := lex_inv h'
  have e : segments ls' = renSegs w (segments ls) := by
    refine canonical_unique _ _ I'.canonical (renSegs_canonical w I.canonical) ?_
    rw [textOf_renSegs w I.canonical]
    have h1 : textOf (segments ls) = s := by
      simpa [textOf, segments, Function.comp_def] using I.text
    have h2 : textOf (segments ls') = ren w s := by
      simpa [textOf, segments, Function.comp_def] using I'.text
    rw [h1, h2]
  rw [← nest_bare ls', ← nest_bare ls, ← ren_nest]
  congr 1
  have W : ∀ l ∈ ls, ∀ k, l.category = .concept k → kind l.text = .ok k := fun l hl k hk' => (I.wf l hl).2 k hk'
  have W' : ∀ l ∈ ls', ∀ k, l.category = .concept k → kind' l.text = .ok k :=
    fun l hl k hk' => (I'.wf l hl).2 k hk'
  clear I I' h h'
  induction ls generalizing ls' with
  | nil =>
    cases ls' with
    | nil => rfl
    | cons _ _ => cases e
  | cons l ls ih =>
    cases ls' with
    | nil => cases e
    | cons l' ls' =>
      have e1 : (clsOf l'.category, l'.text) = (clsOf l.category, ren w l.text) := (List.cons.inj e).1
      have e2 : segments ls' = renSegs w (segments ls) := (List.cons.inj e).2
      simp only [List.map_cons, ren_list_cons]
      rw [ih e2 (fun l hl => W l (by simp [hl])) (fun l hl => W' l (by simp [hl]))]
      congr 1
      have hc : clsOf l'.category = clsOf l.category := congrArg Prod.fst e1
      have ht : l'.text = ren w l.text := congrArg Prod.snd e1
      have w1 := W l (by simp)
      have w2 := W' l' (by simp)
      obtain ⟨t, k⟩ := l
      obtain ⟨t', k'⟩ := l'
      cases ht
      show Lexeme.mk _ _ = Lexeme.mk _ _
      congr 1
      cases k <;> cases k' <;> try first | rfl | cases hc
      next k k' =>
        have a := w1 k rfl
        have b := w2 k' rfl
        dsimp only at a b
        have b' : kind' (ren w t) = .ok k' := b
        rw [hk, a] at b'
        cases b'
        rfl

namespace Parser

variable [HashOrder] {w : Words}

theorem ren_conceptKind (v : View) (n : Nat) (s : Str) :
    conceptKind (ren w v) n (ren w s) = conceptKind v n s := by
  unfold conceptKind
  simp only [ren_head w (show isSep '_' = true by decide), ren_last w (show isSep '_' = true by decide),
    ren_conceptFromLabel]
  split
  · rfl
  · cases v.conceptFromLabel n s with
    | error e => rfl
    | ok x => cases x with
      | none => rfl
      | some id =>
        show ((ren w v).read id >>= _) = (v.read id >>= _)
        have h := ren_read w v id
        rw [h]
        cases v.read id with
        | error e => rfl
        | ok m => 
          show (match (ren w m).cct with | none => _ | some t => _) = (match m.cct with | none => _ | some t => _)
          rw [ren_mixed_cct]

variable [Keyed]

open CM

theorem ren_scombine (n : Nat) (l r : Syn) :
    RenC w (searching (fun e => (search n).combine e l r))
      (searching (fun e => (search n).combine e (ren w l) (ren w r))) :=
  RenC.searching (fun e => Search.ren_combine (ren_search n) e l r)

theorem ren_stoAst (n : Nat) (c : CId) :
    RenC w (searching (fun e => (search n).toAst e c)) (searching (fun e => (search n).toAst e c)) :=
  RenC.searching (fun e => (ren_search n).toAst e c)

theorem ren_cct (t : Syn) : RenC w (do ofE (Search.cctOfAst (env (← get)) t))
    (do ofE (Search.cctOfAst (env (← get)) (ren w t))) :=
  RenC.get.bind (fun c => RenC.ofE (RenE.of_eq (Search.ren_cctOfAst (env c) t)))

theorem ren_astFromLeaf (n : Nat) (l : SLeaf) (s : Str) (c : Option CId) :
    RenC w (astFromLeaf n l s c) (astFromLeaf n l (ren w s) c) := by
  have fin : ∀ id : CId, RenC w (pure (Syn.leaf (some s) (some id) l) : CM Syn)
      (pure (Syn.leaf (some (ren w s)) (some id) l)) := fun id => RenC.pure rfl
  unfold astFromLeaf
  cases c with
  | some c => exact fin c
  | none =>
    refine RenC.exclusive.bind (fun _ => (Updater.ren_rconceptFromLabel n s).bind (fun x => ?_))
    cases x with
    | some c => exact fin c
    | none =>
      refine (Updater.ren_rconcreteId .label).bind (fun l => ?_)
      rw [ren_rigid w l]
      exact (Updater.ren_newLabelledConcept s none l).bind fin

theorem ren_astFromPair (n : Nat) (l r : Syn) :
    RenC w (astFromPair n l r) (astFromPair n (ren w l) (ren w r)) := by
  refine RenC.get.bind (fun c => (RenC.ofE (RenE.of_eq (Search.ren_cctOfAst (env c) r))).bind (fun x => ?_))
  rw [ren_rigid w x, Zia.ren_isLeafVariable]
  dsimp only
  split
  · refine (RenC.modify (fun c => ?_)).bind (fun _ => ren_scombine n l r)
    show Ctx.mk _ _ _ _ (setInsert (ren w c.bound) (ren w l).key) _ = Ctx.mk _ _ _ _ (ren w (setInsert c.bound l.key)) _
    rw [ren_key, ren_setInsert]; rfl
  · exact ren_scombine n l r

theorem ren_indicesOf (id : CId) (i : Nat) (ts : List Syn) : indicesOf id i (ren w ts) = indicesOf id i ts := by
  induction ts generalizing i with
  | nil => rfl
  | cons t ts ih => simp only [ren_list_cons, indicesOf, ren_concept, ih]

theorem ren_indicesWithout (i : Nat) (ts : List Syn) : indicesWithout i (ren w ts) = indicesWithout i ts := by
  induction ts generalizing i with
  | nil => rfl
  | cons t ts ih => simp only [ren_list_cons, indicesWithout, ren_concept, ih]

theorem ren_concepts (ts : List Syn) : (ren w ts).filterMap Syn.concept = ts.filterMap Syn.concept := by
  induction ts with
  | nil => rfl
  | cons t ts ih => simp only [ren_list_cons, List.filterMap_cons, ren_concept, ih]

theorem ren_precedenceRelated (v : View) (ids acc : List CId) (l : List (CId × CId)) :
    precedenceRelated (ren w v) ids acc l = precedenceRelated v ids acc l := by
  induction l generalizing acc with
  | nil => rfl
  | cons p l ih =>
    simp only [precedenceRelated]
    have h : (ren w v).read p.2 = ren w <$> v.read p.2 := ren_read w v p.2
    rw [h]
    cases v.read p.2 with
    | error e => rfl
    | ok m =>
      show precedenceRelated (ren w v) ids (setExtend _ ((((ren w m).iterHandOf .right).map Prod.fst).filter _)) l =
        precedenceRelated v ids (setExtend _ (((m.iterHandOf .right).map Prod.fst).filter _)) l
      rw [ren_mixed_iterHandOf, ih]

theorem ren_precedes (n : Nat) (a b : CId) : RenC w (precedes n a b) (precedes n a b) := by
  have S := ren_search (w := w) n
  refine RenC.searching (fun e => (Search.ren_concreteAst S e .precedes).bind (fun x => ?_))
  cases x with
  | none => exact RenS.fault _
  | some p =>
    refine (S.toAst e a).bind (fun x => (S.toAst e b).bind (fun y => (Search.ren_combine S e p y).bind (fun q =>
      (Search.ren_combine S e x q).bind (fun t => (S.recReduce e t none).bind (fun r => ?_)))))
    obtain ⟨nf, r⟩ := r
    exact RenS.lift (RenE.of_eq (Search.ren_cctOfAst e nf))

section

variable {ask : CId → CId → CM (Option CCT)} (ha : ∀ a b, RenC w (ask a b) (ask a b))

include ha

theorem ren_rankStep (a b : CId) : RenC w (rankStep ask a b) (rankStep ask a b) := by
  have unk : ∀ x, RenC w (rankStep.unknown x) (rankStep.unknown x) := by
    intro x
    unfold rankStep.unknown
    split <;> first | exact RenC.pure rfl | exact RenC.fault _
  refine (ha a b).bind (fun x => ?_)
  rw [ren_rigid]
  split
  · exact RenC.pure rfl
  · refine (ha b a).bind (fun x => ?_)
    rw [ren_rigid]
    split <;> first | exact RenC.pure rfl | exact RenC.fault _
  · exact (ha b a).bind (fun x => by rw [ren_rigid]; exact unk x)
  · exact (ha b a).bind (fun x => by rw [ren_rigid]; exact unk x)
  · exact RenC.fault _

theorem ren_rank (a : CId) (l : List CId) : RenC w (rank ask a l) (rank ask a l) := by
  induction l with
  | nil => exact RenC.pure rfl
  | cons b l ih =>
    refine (ren_rankStep ha a b).bind (fun x => ?_)
    cases x with
    | none => exact ih
    | some x => exact RenC.pure rfl

theorem ren_lowest (acc l : List CId) : RenC w (lowest ask acc l) (lowest ask acc l) := by
  induction l generalizing acc with
  | nil => exact RenC.pure (ren_rigid w acc).symm
  | cons c l ih =>
    refine (ren_rank ha c _).bind (fun x => ?_)
    cases x <;> exact ih _

theorem ren_lowestPrecedenceInfo (ts : List Syn) :
    RenC w (lowestPrecedenceInfo ask ts) (lowestPrecedenceInfo ask (ren w ts)) := by
  unfold lowestPrecedenceInfo
  simp only [ren_concepts, ren_indicesOf, ren_indicesWithout]
  refine (Updater.ren_rconcreteId .precedes).bind (fun x => ?_)
  cases x with
  | none => exact RenC.fault _
  | some p =>
    have hr : ∀ v : View, RenE w (do precedenceRelated v (ts.filterMap Syn.concept) [] ((← v.read p).iterHandOf .left))
        (do precedenceRelated (ren w v) (ts.filterMap Syn.concept) [] ((← (ren w v).read p).iterHandOf .left)) := by
      intro v
      refine (ren_read w v p).bind (fun m => ?_)
      rw [ren_mixed_iterHandOf, ren_precedenceRelated]
      exact RenE.of_eq rfl
    have hf : ∀ idx : List Nat, idx.filterMap ((ren w ts)[·]?) = ren w (idx.filterMap (ts[·]?)) := by
      intro idx
      induction idx with
      | nil => rfl
      | cons i idx ih =>
        rw [List.filterMap_cons, List.filterMap_cons, ren_getElem?, ih]
        cases ts[i]? <;> rfl
    refine (RenC.reading hr).bind (fun rel => ?_)
    rw [ren_rigid]
    refine (ren_lowest ha [] (order rel)).bind (fun low => ?_)
    simp only [ren_rigid, hf]
    split
    · exact RenC.pure (by rw [ren_pair, ren_rigid w (heap _)])
    · exact RenC.pure (by rw [ren_pair, ren_rigid w (heap _)])

end

theorem ren_commonAssoc (n : Nat) (a : Option Assoc) (ts : List Syn) :
    RenC w (commonAssoc n a ts) (commonAssoc n a (ren w ts)) := by
  induction ts generalizing a with
  | nil => exact RenC.pure (ren_rigid w a).symm
  | cons t ts ih =>
    refine (RenC.searching (fun e => (ren_search n).getAssoc e t)).bind (fun x => ?_)
    rw [ren_rigid]
    cases a with
    | none => exact ih _
    | some y =>
      dsimp only
      split
      · exact ih _
      · exact (RenC.ofE (ren_syn_display w t)).bind (fun s => RenC.throw rfl)

section

variable {parse : List Syn → CM Syn} (hp : ∀ ts, RenC w (parse ts) (parse (ren w ts)))

include hp

theorem ren_sliceAst (n : Nat) (slice : List Syn) (lp : Nat) (a : Assoc) :
    RenC w (sliceAst n parse slice lp a) (sliceAst n parse (ren w slice) lp a) := by
  cases a with
  | left =>
    unfold sliceAst
    dsimp only
    simp only [ren_length, ren_getElem?, ren_take]
    by_cases hlp : lp = slice.length - 1
    · rw [if_pos hlp, if_pos hlp]
      cases slice[slice.length - 1]? with
      | none => exact RenC.fault _
      | some e =>
        simp only [ren_some]
        by_cases h1 : slice.length = 1
        · rw [if_pos h1, if_pos h1]; exact RenC.pure rfl
        · rw [if_neg h1, if_neg h1]
          by_cases h3 : slice.length < 3
          · rw [if_pos h3, if_pos h3]; exact ren_scombine n e e
          · rw [if_neg h3, if_neg h3]
            exact (hp _).bind (fun r => ren_scombine n r e)
    · rw [if_neg hlp, if_neg hlp]; exact hp slice
  | right =>
    unfold sliceAst
    dsimp only
    by_cases hlp : lp = 0
    · rw [if_pos hlp, if_pos hlp]
      match slice with
      | [] => exact RenC.fault _
      | [x] => exact RenC.pure rfl
      | [x, r] => exact ren_scombine n x r
      | x :: y :: z :: rest =>
        simp only [ren_list_cons, List.getElem?_cons_zero, List.length_cons, List.drop_succ_cons, List.drop_zero,
          ren_length]
        rw [if_neg (by omega), if_neg (by omega)]
        exact (hp (y :: z :: rest)).bind (fun r => ren_scombine n x r)
    · rw [if_neg hlp, if_neg hlp]; exact hp slice

theorem ren_handler (n : Nat) (ts : List Syn) (st : Option (Syn × Nat)) (lp : Nat) (a : Assoc) :
    RenC w (handler n parse ts st lp a) (handler n parse (ren w ts) (ren w st) lp a) := by
  have hs : RenE w (a.sliceTokens ts (st.map Prod.snd) lp)
      (a.sliceTokens (ren w ts) ((ren w st).map Prod.snd) lp) := by
    have e : (ren w st).map Prod.snd = st.map Prod.snd := by cases st <;> rfl
    rw [e]
    have key : ∀ i j, RenE w (Assoc.slice ts i j) (Assoc.slice (ren w ts) i j) := by
      intro i j
      unfold Assoc.slice
      rw [ren_length]
      split <;> first | exact RenE.error _ | exact RenE.ok (by rw [← ren_take, ← ren_drop]) | exact RenE.ok (by rw [← ren_drop, ← ren_take])
    cases a with
    | left => exact key _ _
    | right =>
      unfold Assoc.sliceTokens
      dsimp only
      rw [ren_length]; exact key _ _
  refine (RenC.ofE hs).bind (fun slice => ?_)
  rw [ren_isEmpty]
  split
  · exact RenC.throw rfl
  · refine (ren_sliceAst hp n slice lp a).bind (fun t => ?_)
    cases st with
    | none => exact RenC.pure rfl
    | some p =>
      obtain ⟨e, m⟩ := p
      cases a with
      | left => exact (ren_scombine n e t).bind (fun x => RenC.pure rfl)
      | right => exact (ren_scombine n t e).bind (fun x => RenC.pure rfl)

theorem ren_rightLoop (n : Nat) (ts : List Syn) (st : Option (Syn × Nat)) (lps : List Nat) :
    RenC w (rightLoop n parse ts st lps) (rightLoop n parse (ren w ts) (ren w st) lps) := by
  induction lps generalizing st with
  | nil => exact RenC.pure rfl
  | cons lp lps ih =>
    unfold rightLoop
    have e : (ren w st).map Prod.snd = st.map Prod.snd := by cases st <;> rfl
    rw [e]
    split
    · exact ih st
    · exact (ren_handler hp n ts st lp .right).bind (fun x => ih (some x))

theorem ren_leftLoop (n : Nat) (ts : List Syn) (st : Option (Syn × Nat)) (lps : List Nat) :
    RenC w (leftLoop n parse ts st lps) (leftLoop n parse (ren w ts) (ren w st) lps) := by
  induction lps generalizing st with
  | nil => exact RenC.pure rfl
  | cons lp lps ih => exact (ren_handler hp n ts st lp .left).bind (fun x => ih (some x))

theorem ren_leftCase (n : Nat) (ts : List Syn) (lps : List Nat) :
    RenC w (leftCase n parse ts lps) (leftCase n parse (ren w ts) lps) := by
  refine (ren_leftLoop hp n ts none (heapIter lps)).bind (fun x => ?_)
  cases x with
  | none => exact RenC.throw rfl
  | some p => exact RenC.pure rfl

end

theorem ren_mapM_display (ts : List Syn) : RenE w (ts.mapM Syn.display) ((ren w ts).mapM Syn.display) := by
  induction ts with
  | nil => rfl
  | cons t ts ih =>
    rw [ren_list_cons, List.mapM_cons, List.mapM_cons]
    exact (ren_syn_display w t).bind (fun s => ih.bind (fun ss => RenE.pure rfl))

theorem ren_astFromList (n k : Nat) (ts : List Syn) :
    RenC w (astFromList n k ts) (astFromList n k (ren w ts)) := by
  unfold astFromList
  induction k generalizing ts with
  | zero =>
    match ts with
    | [] => exact RenC.fault _
    | [s] => exact RenC.pure rfl
    | [l, r] => exact RenC.pure (ren_newPair w l r)
    | _ :: _ :: _ :: _ => exact RenC.fault _
  | succ k ih =>
    match ts with
    | [] => exact RenC.fault _
    | [s] => exact RenC.pure rfl
    | [l, r] => exact RenC.pure (ren_newPair w l r)
    | x :: y :: z :: rest =>
      generalize hts : x :: y :: z :: rest = ts
      have L : ∀ ts : List Syn, (∃ x y z rest, ts = x :: y :: z :: rest) → ∀ ask left out,
          astFromListWith ask left out n (k + 1) ts = (do
            let (lpSyn, lps) ← lowestPrecedenceInfo ask ts
            if lps.isEmpty then throw (.lowestPrecedenceNotFound (← ofE (ts.mapM Syn.display)))
            else do
              match ← commonAssoc n none lpSyn with
              | some .right => do
                match ← rightLoop n (astFromListWith ask left out n k) ts none lps with
                | none => throw .ambiguousExpression
                | some (tail, 0) => return tail
                | some (tail, min) => do
                  let head ← astFromListWith ask left out n k (ts.take min)
                  searching (fun e => (search n).combine e head tail)
              | some .left => left (astFromListWith ask left out n k) ts lps
              | none => throw .ambiguousExpression) := by
        rintro ts ⟨x, y, z, rest, rfl⟩ ask left out
        rfl
      rw [L ts ⟨x, y, z, rest, hts.symm⟩, L (ren w ts) ⟨ren w x, ren w y, ren w z, ren w rest, by rw [← hts]; rfl⟩]
      refine (ren_lowestPrecedenceInfo (ren_precedes n) ts).bind (fun p => ?_)
      obtain ⟨lpSyn, lps⟩ := p
      rw [ren_pair, ren_rigid w lps]
      dsimp only
      split
      · exact (RenC.ofE (ren_mapM_display ts)).bind (fun ss => RenC.throw rfl)
      · refine (ren_commonAssoc n none lpSyn).bind (fun a => ?_)
        rcases a with _ | (_ | _)
        · exact RenC.throw rfl
        · exact ren_leftCase ih n ts lps
        · refine (ren_rightLoop ih n ts none lps).bind (fun x => ?_)
          rcases x with _ | ⟨tail, _ | min⟩
          · exact RenC.throw rfl
          · exact RenC.pure rfl
          · simp only [ren_some, ren_pair, ren_rigid w (min + 1), ren_take]
            exact (ih _).bind (fun head => ren_scombine n head tail)

mutual

theorem ren_astFromNested (n : Nat) (t : NST) : RenC w (astFromNested n t) (astFromNested n (ren w t)) := by
  match t with
  | .leaf l s c => exact ren_astFromLeaf n l s c
  | .parent cs s c =>
    rw [ren_nst_parent]
    unfold astFromNested
    refine (ren_astsFromNested n cs).bind (fun ts => ?_)
    match ts with
    | [] => exact ren_astFromList n _ _
    | [x] => exact ren_astFromList n _ [x]
    | [l, r] => exact ren_astFromPair n l r
    | x :: y :: z :: rest =>
      have := ren_astFromList (w := w) n (x :: y :: z :: rest).length (x :: y :: z :: rest)
      simp only [ren_list_cons, List.length_cons, ren_length] at this ⊢
      exact this

theorem ren_astsFromNested (n : Nat) (ts : List NST) :
    RenC w (astsFromNested n ts) (astsFromNested n (ren w ts)) := by
  match ts with
  | [] => exact RenC.pure rfl
  | t :: ts =>
    rw [ren_list_cons]
    unfold astsFromNested
    exact (ren_astFromNested n t).bind (fun x => (ren_astsFromNested n ts).bind (fun xs => RenC.pure rfl))

end

theorem ren_syntaxList (n : Nat) (t : NST) : RenC w (syntaxList n t) (syntaxList n (ren w t)) := by
  match t with
  | .leaf l s c => exact (ren_astFromLeaf n l s c).bind (fun x => RenC.pure rfl)
  | .parent cs s c => rw [ren_nst_parent]; exact ren_astsFromNested n cs

theorem ren_createVariables (t : Syn) : RenC w (createVariables t) (createVariables (ren w t)) := by
  induction t with
  | branch s c l r f b ihl ihr =>
    exact ihl.bind (fun l' => ihr.bind (fun r' => RenC.pure rfl))
  | leaf s c l =>
    cases l with
    | constant => exact RenC.pure rfl
    | quantifier => exact RenC.pure rfl
    | «variable» =>
      refine (RenC.ofE (ren_syn_display w _)).bind (fun name => RenC.get.bind (fun ca => ?_))
      rw [ren_ctx_vars, ren_get?, ren_rigid]
      cases ca.vars.get? name with
      | some id => exact RenC.pure rfl
      | none =>
        refine RenC.exclusive.bind (fun _ => RenC.get.bind (fun cb => ?_))
        refine (RenC.update ?_).bind (fun id => (RenC.modify (fun cc => ?_)).bind (fun _ => RenC.pure rfl))
        · rw [ren_ctx_bound, show (Syn.leaf (ren w s) c SLeaf.variable).key = ren w (Syn.leaf s c SLeaf.variable).key from rfl,
            ren_lcontains]
          split <;> rfl
        · show Ctx.mk _ _ _ (AMap.insert (ren w cc.vars) (ren w name) id) _ _ = Ctx.mk _ _ _ (ren w (cc.vars.insert name id)) _ _
          rw [← ren_insert]; rfl

/-- The symbols of a command can be looked up. -/
def Reads (n : Nat) (c : Ctx) (s : Str) : Prop := ∃ ls, lex (conceptKind ⟨c.snap, c.delta⟩ n) s = .ok ls

theorem ren_astFromExpression (n : Nat) (c : Ctx) (s : Str) (h : Reads n c s)
    (h' : Reads n (ren w c) (ren w s)) :
    RenE w (astFromExpression n s c) (astFromExpression n (ren w s) (ren w c)) := by
  obtain ⟨ls, h⟩ := h
  obtain ⟨ls', h'⟩ := h'
  have key := ren_lex w (fun t => ren_conceptKind ⟨c.snap, c.delta⟩ n t) h h'
  have fin : ∀ x : Except ZiaError NST, RenC w (do let t ← ofR x; let ts ← syntaxList n t; astFromList n ts.length ts)
      (do let t ← ofR (ren w x); let ts ← syntaxList n t; astFromList n ts.length ts) := by
    intro x
    refine (RenC.ofR rfl).bind (fun t => (ren_syntaxList n t).bind (fun ts => ?_))
    rw [ren_length]
    exact ren_astFromList n _ ts
  have := fin (nest ls) c
  rw [← key] at this
  have e1 : astFromExpression n s c = (do let t ← ofR (nest ls); let ts ← syntaxList n t; astFromList n ts.length ts : CM Syn) c := by
    unfold astFromExpression
    rw [CM.bind_apply, CM.reading_apply, h]; rfl
  have e2 : astFromExpression n (ren w s) (ren w c) = (do let t ← ofR (nest ls'); let ts ← syntaxList n t; astFromList n ts.length ts : CM Syn) (ren w c) := by
    unfold astFromExpression
    rw [CM.bind_apply, CM.reading_apply]
    have h'' : lex (conceptKind ⟨(ren w c).snap, (ren w c).delta⟩ n) (ren w s) = .ok ls' := h'
    rw [h'']; rfl
  rw [e1, e2]
  exact this

end Parser

end Zia

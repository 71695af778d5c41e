import Verif.Lemmas.Ranked
import Verif.Witness.Reachable

/-!
# Properties of reading a list of expressions as a tree
-/

namespace Zia.Props

open Spec Zia.Parser Witness

set_option maxRecDepth 100000

/-! ## C06: parsing keeps every symbol, in order -/

/-- C06 for lists in which no symbols of lowest precedence are left associative: the tree is over the
given expressions, once each, in the order written, whatever the precedences are. The first part says
that such a run is a run of the parser. Missing: left associative symbols, for which the claim is false
(`leaves_lost`, `left_drops_the_rest`). -/
theorem leaves_kept_partial [HashOrder] {n k : Nat} {ts : List Syn} {c c' : Ctx} {t : Syn}
    (h : ReadsRight n k ts c t c') :
    astFromList n k ts c = .ok (.ok t, c') ∧ Groups ts t :=
  ⟨noLeft_agree _ _ _ _ _ _ _ _ _ h, noLeft_groups _ _ _ _ _ _ _ h⟩

/-- `a b -> c d` in a new context. -/
def arrow : List Syn :=
  [tok (str% "a") none, tok (str% "b") none, tok (str% "->") (some (.com 8)),
    tok (str% "c") none, tok (str% "d") none]

/-- The tree of that list. -/
theorem arrow_parsed : (parsed boot noLeft arrow).toOption.map
    (fun r => r.toOption.map (·.map Syn.syntx)) = some (some (some (some (str% "(a b) -> c d")))) := by
  decide +kernel

open Insertion in
theorem parsed_some {c : Ctx} {left : (List Syn → CM Syn) → List Syn → List Nat → CM Syn}
    {ts : List Syn} {α : Type} {f : Syn → α} {x : α}
    (h : (parsed c left ts).toOption.map (fun r => r.toOption.map (·.map f)) =
      some (some (some x))) :
    ∃ t c', astFromListWith (precedes 60) left (CM.fault .diverge) 60 ts.length ts c = .ok (.ok t, c') ∧
      f t = x := by
  unfold parsed at h
  revert h
  cases astFromListWith (precedes 60) left (CM.fault .diverge) 60 ts.length ts c with
  | error e => intro h; cases h
  | ok p =>
    obtain ⟨r, c'⟩ := p
    cases r with
    | error e => intro h; cases h
    | ok t => intro h; cases h; exact ⟨t, c', rfl, rfl⟩

open Insertion in
/-- The hypothesis holds of `a b -> c d` in a new context. -/
example : ∃ t c', ReadsRight 60 arrow.length arrow boot t c' := by
  obtain ⟨t, c', h, _⟩ := parsed_some arrow_parsed
  exact ⟨t, c', h⟩

/-- `a + b` once `+` is left associative and of lowest precedence. -/
def sum : List Syn :=
  [tok (str% "a") none, tok (str% "+") (some (.com 82)), tok (str% "b") none]

open Insertion in
/-- `a + b` is read as `a`. -/
theorem sum_parsed : (parsed plus2 (leftCase 60) sum).toOption.map
    (fun r => r.toOption.map (·.map id)) = some (some (some (tok (str% "a") none))) := by
  decide +kernel

open Insertion in
/-- C06 is false: there is a reachable context in which three expressions are read as a tree over
fewer expressions. -/
theorem leaves_lost : ∃ (c c' : Ctx) (ts : List Syn) (t : Syn), Reachable c ∧
    astFromList 60 ts.length ts c = .ok (.ok t, c') ∧ ¬ Groups ts t := by
  obtain ⟨t, c', h, ht⟩ := parsed_some sum_parsed
  refine ⟨plus2, c', sum, t, plus2_reachable, h, fun hg => ?_⟩
  have ht : t = tok (str% "a") none := ht
  subst ht
  generalize hs : sum = ts at hg
  cases hg with
  | one => cases hs
  | join he _ _ => cases he

/-! ## C07: expressions group to the right by default -/

/-- C07: a list none of whose symbols takes part in a precedence relation, and for which no left
associativity is found, is read as `t1 (t2 (... tn))`. -/
theorem groups_to_the_right [HashOrder] {n k : Nat} {ts : List Syn} {c c' : Ctx} {t : Syn} {p : CId}
    (hp : View.concreteId ⟨c.snap, c.delta⟩ .precedes = .ok (some p))
    (hu : Unranked ⟨c.snap, c.delta⟩ p ts) (h : ReadsRight n k ts c t c') :
    astFromList n k ts c = .ok (.ok t, c') ∧ RightNested ts t := by
  refine ⟨noLeft_agree _ _ _ _ _ _ _ _ _ h, ?_⟩
  have hg := noLeft_groups _ _ _ _ _ _ _ h
  unfold ReadsRight at h
  match ts, k, h, hu with
  | [], k, h, _ => cases k <;> cases h
  | [x], _, _, _ => rw [Groups.single hg x rfl]; exact RightNested.one x
  | [x, y], k, h, _ =>
    have : t = .newPair x y := by cases k <;> (cases h; rfl)
    subst this
    exact RightNested.cons rfl (RightNested.one y)
  | x :: y :: z :: ts, 0, h, _ => cases h
  | x :: y :: z :: ts, k + 1, h, hu =>
    have hl : ∃ a c1, lowestPrecedenceInfo (precedes n) (x :: y :: z :: ts) c = .ok (.ok a, c1) := by
      rw [astFromListWith_succ] at h
      unfold listBody at h
      obtain ⟨a, c1, h1, _⟩ := cm_bind_ok h
      exact ⟨a, c1, h1⟩
    obtain ⟨⟨lpSyn, lps⟩, c1, hl⟩ := hl
    obtain ⟨pieces, trees, hc, h2, hr⟩ := noLeft_cut h hl
    have hpos := unranked_positions hp hu hl
    have hsing : ∀ s ∈ pieces, ∃ x, s = [x] := by
      refine singles (p := 0) hc.nonempty fun i _ hi => (hc.before i).mpr (.inr ((hpos i).mpr ?_))
      rw [hc.whole] at hi
      omega
    rw [← hc.whole, forall₂_singles h2 hsing]
    exact hr

/-- `true b c` in a new context. -/
def three : List Syn :=
  [tok (str% "true") (some (.com 14)), tok (str% "b") none, tok (str% "c") none]

/-- The tree of that list. -/
theorem three_parsed : (parsed boot noLeft three).toOption.map
    (fun r => r.toOption.map (·.map Syn.syntx)) = some (some (some (some (str% "true b c")))) := by
  decide +kernel

open Insertion in
/-- The hypotheses hold of `true b c` in a new context. -/
example : ∃ p t c', View.concreteId ⟨boot.snap, boot.delta⟩ .precedes = .ok (some p) ∧
    Unranked ⟨boot.snap, boot.delta⟩ p three ∧ ReadsRight 60 three.length three boot t c' := by
  obtain ⟨t, c', h, _⟩ := parsed_some three_parsed
  exact ⟨.com 38, t, c', by decide +kernel, unranked_of_check (by decide +kernel), h⟩

/-! ## C08: lower precedence operators bind looser -/

/-- C08: if what is found out about precedences agrees with a ranking of the symbols, and the symbols of
lowest precedence are right associative, then the list is cut exactly before the symbols of lowest
precedence, each of them is applied to the reading of all that follows it in its piece, what comes before
the first of them is read by itself, and the pieces are nested to the right. The readings of what is left
are of the same kind. So nothing but what stands before a symbol of higher precedence in the same piece,
and what follows it there, ends up beside it. The first part says that such a run is a run of the
parser. -/
theorem read_by_precedence [HashOrder] {ρ : CId → Nat} {n k : Nat} {ts : List Syn} {c c' : Ctx}
    {t : Syn} {p : CId} (hp : View.concreteId ⟨c.snap, c.delta⟩ .precedes = .ok (some p))
    (h : ReadsRanked ρ n k ts c t c') :
    astFromList n k ts c = .ok (.ok t, c') ∧ Reads (Lowest ⟨c.snap, c.delta⟩ p ρ) ts t :=
  ⟨noLeft_agree _ _ _ _ _ _ _ _ _ (readsRanked_right h),
    (reads_from hp (guarded_from ρ n) n k ts c rfl t c' h).1⟩

/-- `let a -> b := c -> d` in a new context. -/
def definition : List Syn :=
  [tok (str% "let") (some (.com 11)), tok (str% "a") none, tok (str% "->") (some (.com 8)),
    tok (str% "b") none, tok (str% ":=") (some (.com 5)), tok (str% "c") none,
    tok (str% "->") (some (.com 8)), tok (str% "d") none]

/-- The ranks of `let`, `:=` and `->`. -/
def ranks (i : CId) : Nat := if i = .com 8 then 2 else if i = .com 5 then 1 else 0

open Insertion in
/-- That list is read in agreement with those ranks. -/
theorem definition_ranked : (astFromListWith (guarded ranks 60) noLeft (CM.fault .diverge) 60
    definition.length definition boot).toOption.map (fun r => r.1.toOption.isSome) = some true := by
  decide +kernel

open Insertion in
/-- The hypotheses hold of `let a -> b := c -> d` in a new context, with three levels of precedence. -/
example : ∃ p t c', View.concreteId ⟨boot.snap, boot.delta⟩ .precedes = .ok (some p) ∧
    ReadsRanked ranks 60 definition.length definition boot t c' := by
  have h := definition_ranked
  unfold ReadsRanked
  revert h
  cases astFromListWith (guarded ranks 60) noLeft (CM.fault .diverge) 60 definition.length definition
    boot with
  | error e => intro h; cases h
  | ok q =>
    obtain ⟨r, c'⟩ := q
    cases r with
    | error e => intro h; cases h
    | ok t => intro _; exact ⟨.com 38, t, c', by decide +kernel, rfl⟩

/-- C08 whether or not the precedences are consistent: the list is cut exactly before each of the symbols
that the parser finds to be of lowest precedence, each piece is read by itself, and the pieces are joined
from the right. -/
theorem cut_at_found_lowest [HashOrder] {n k : Nat} {ts : List Syn} {c c' c1 : Ctx} {t : Syn}
    {lpSyn : List Syn} {lps : List Nat} (h3 : 3 ≤ ts.length) (h : ReadsRight n k ts c t c')
    (hl : lowestPrecedenceInfo (precedes n) ts c = .ok (.ok (lpSyn, lps), c1)) :
    ∃ pieces trees, CutAt lps ts pieces ∧ List.Forall₂ Groups pieces trees ∧
      RightNested trees t := by
  unfold ReadsRight at h
  match ts, k, h3, h, hl with
  | x :: y :: z :: ts, 0, _, h, _ => cases h
  | x :: y :: z :: ts, k + 1, _, h, hl => exact noLeft_cut h hl

/-- C08: every occurrence of a symbol is cut at, or none. -/
theorem occurrences_cut_alike [HashOrder] {n : Nat} {ts : List Syn} {c c' : Ctx} {lpSyn : List Syn}
    {lps : List Nat} (hl : lowestPrecedenceInfo (precedes n) ts c = .ok (.ok (lpSyn, lps), c'))
    {i j : Nat} {t u : Syn} {id : CId} (hi : i ∈ lps) (ht : ts[i]? = some t)
    (htc : t.concept = some id) (hu : ts[j]? = some u) (huc : u.concept = some id) : j ∈ lps :=
  lowest_closed _ ts c _ c' hl i hi j t u id ht htc hu huc

open Insertion in
/-- The positions of lowest precedence in `a b -> c d`. -/
theorem arrow_lowest : (lowestPrecedenceInfo (precedes 60) arrow boot).toOption.map
    (fun p => p.1.toOption.map Prod.snd) = some (some [2]) := by
  decide +kernel

open Insertion in
/-- The hypotheses hold of `a b -> c d` in a new context. -/
example : ∃ t c' lpSyn lps c1, 3 ≤ arrow.length ∧ ReadsRight 60 arrow.length arrow boot t c' ∧
    lowestPrecedenceInfo (precedes 60) arrow boot = .ok (.ok (lpSyn, lps), c1) ∧ lps = [2] := by
  obtain ⟨t, c', h, _⟩ := parsed_some arrow_parsed
  have ha := arrow_lowest
  revert ha
  cases hr : lowestPrecedenceInfo (precedes 60) arrow boot with
  | error e => intro ha; cases ha
  | ok p =>
    obtain ⟨r, c1⟩ := p
    cases r with
    | error e => intro ha; cases ha
    | ok a =>
      obtain ⟨lpSyn, lps⟩ := a
      intro ha
      cases ha
      exact ⟨t, c', lpSyn, _, c1, by decide, h, rfl, rfl⟩

/-! ## C09: left associative operators group to the left -/

/-- C09 is false for every list: if the symbols of lowest precedence are left associative, then the
list is read as a tree only if there is one of them, and the tree is that of what stands before it. The
symbol and what follows are dropped. -/
theorem left_drops_the_rest [HashOrder] {n k : Nat} {ts : List Syn} {c c' c1 c2 : Ctx} {t : Syn}
    {lpSyn : List Syn} {lps : List Nat} (h3 : 3 ≤ ts.length)
    (hl : lowestPrecedenceInfo (precedes n) ts c = .ok (.ok (lpSyn, lps), c1))
    (ha : commonAssoc n none lpSyn c1 = .ok (.ok (some .left), c2))
    (h : astFromList n (k + 1) ts c = .ok (.ok t, c')) :
    ∃ p, lps = [p] ∧ p < ts.length ∧ astFromList n k (ts.take p) c2 = .ok (.ok t, c') := by
  unfold astFromList at h
  obtain ⟨hlt, hs⟩ := lowestPrecedenceInfo_positions _ ts _ _ _ hl
  have hb : listBody (precedes n) (leftCase n) n (astFromListWith (precedes n) (leftCase n) (CM.fault .diverge) n k) ts c =
      .ok (.ok t, c') := by
    match ts, h3, h with
    | x :: y :: z :: ts, _, h => rw [astFromListWith_succ] at h; exact h
  unfold listBody at hb
  obtain ⟨a, c3, h1, hb⟩ := cm_bind_ok hb
  rw [hl] at h1
  cases h1
  simp only at hb
  split at hb
  · obtain ⟨_, _, _, hb⟩ := cm_bind_ok hb
    cases hb
  · obtain ⟨a, c4, h2, hb⟩ := cm_bind_ok hb
    rw [ha] at h2
    cases h2
    obtain ⟨p, rfl, _, h5⟩ := leftCase_ok hs hb
    exact ⟨p, rfl, hlt p List.mem_cons_self, h5⟩

/-- `a + b + c` once `+` is left associative. -/
def sum3 : List Syn :=
  [tok (str% "a") none, tok (str% "+") (some (.com 82)), tok (str% "b") none,
    tok (str% "+") (some (.com 82)), tok (str% "c") none]

open Insertion in
/-- C09 is false: there is a reachable context with a left associative operator in which
`a + b + c` crashes the parser. -/
theorem left_crashes : Reachable plus2 ∧
    astFromList 60 sum3.length sum3 plus2 = .error (.panic .sliceOutOfRange) :=
  ⟨plus2_reachable, by decide +kernel⟩

open Insertion in
/-- The position and associativity of `+` in `a + b`. -/
theorem sum_lowest : ((lowestPrecedenceInfo (precedes 60) sum >>= fun x => do
    return (x.2, ← commonAssoc 60 none x.1)) plus2).toOption.map (fun p => p.1.toOption) =
      some (some ([1], some .left)) := by
  decide +kernel

open Insertion in
/-- The hypotheses hold of `a + b` in that context. -/
example : ∃ lpSyn lps c1 c2 t c', 3 ≤ sum.length ∧
    lowestPrecedenceInfo (precedes 60) sum plus2 = .ok (.ok (lpSyn, lps), c1) ∧
    commonAssoc 60 none lpSyn c1 = .ok (.ok (some .left), c2) ∧
    astFromList 60 3 sum plus2 = .ok (.ok t, c') := by
  obtain ⟨t, c', h, _⟩ := parsed_some sum_parsed
  have ha := sum_lowest
  revert ha
  cases hr : (lowestPrecedenceInfo (precedes 60) sum >>= fun x => do
    return (x.2, ← commonAssoc 60 none x.1)) plus2 with
  | error e => intro ha; cases ha
  | ok p =>
    obtain ⟨r, c1⟩ := p
    cases r with
    | error e => intro ha; cases ha
    | ok a =>
      intro ha
      obtain ⟨⟨lpSyn, lps⟩, c3, h1, h2⟩ := cm_bind_ok hr
      obtain ⟨o, c4, h3, h4⟩ := cm_bind_ok h2
      cases h4
      cases ha
      exact ⟨lpSyn, _, c3, _, t, c', by decide, h1, h3, h⟩

/-! ## C10: parsing always ends -/

/-- C10: the recursion of the list parser is on shorter lists only. Once the bound on its depth is the
length of the list, what is done when the bound is exceeded makes no difference, and a greater bound
makes none either. -/
theorem parsing_ends [HashOrder] (n : Nat) (out out' : CM Syn) (k : Nat) (ts : List Syn) (h : ts.length ≤ k) :
    astFromListWith (precedes n) (leftCase n) out n k ts = astFromListWith (precedes n) (leftCase n) out' n ts.length ts :=
  parse_out _ n out out' k ts.length ts h (Nat.le_refl _)

/-- C10 for the parser itself, with the bound it is called with. -/
theorem parsing_bound [HashOrder] (n k : Nat) (ts : List Syn) (h : ts.length ≤ k) :
    astFromList n k ts = astFromList n ts.length ts :=
  parse_out _ n _ _ k ts.length ts h (Nat.le_refl _)

open Insertion in
/-- A lower bound does make a difference. -/
example : ∃ c, astFromList 60 0 three c ≠ astFromList 60 three.length three c := by
  refine ⟨boot, ?_⟩
  obtain ⟨t, c', h, _⟩ := parsed_some three_parsed
  rw [show astFromList 60 three.length three boot = .ok (.ok t, c') from
    noLeft_agree _ _ _ _ _ _ _ _ _ h]
  intro h
  cases h

end Zia.Props

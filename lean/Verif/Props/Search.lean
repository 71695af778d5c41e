import Verif.Lemmas.Compare
import Verif.Lemmas.Match
import Verif.Witness.Search
import Verif.Lemmas.Check

/-!
# Properties of reducing, comparing and matching
-/

namespace Zia.Props

open Spec Relation

variable {e : Env}

set_option maxRecDepth 100000

/-- The value behind an equation about a part of a result. -/
theorem of_part {α β : Type} {x : Except Fault (α × Cache)} {f : α × Cache → β} {b : β}
    (h : x.toOption.map f = some b) : ∃ a ca, x = .ok (a, ca) ∧ f (a, ca) = b := by
  cases x with
  | error f => cases h
  | ok p =>
    simp only [Except.toOption, Option.map_some, Option.some.injEq] at h
    exact ⟨p.1, p.2, rfl, h⟩

/-! ## C34: normal forms -/

/-- C34: when repeated reduction ends, its result was reached by single steps, and the last of its
steps found nothing to reduce. -/
theorem normal_forms_irreducible [HashOrder] {n : Nat} {t t' : Syn} {r r' : Option Reason} {ca ca' : Cache}
    (h : (search n).recReduce e t r ca = .ok ((t', r'), ca')) :
    ∃ ca1, ReflTransGen (Reduces e) (t, ca) (t', ca1) ∧ Stuck e (t', ca1) ca' :=
  recReduce_chain n h

/-- C34: conversely, repeated reduction ends as soon as some chain of single steps ends, and with its
last expression; so there is at most one normal form. -/
theorem normal_forms_found [HashOrder] {x y : Syn × Cache} {ca : Cache} (h : ReflTransGen (Reduces e) x y)
    (hs : Stuck e y ca) (r : Option Reason) :
    ∃ n r', (search n).recReduce e x.1 r x.2 = .ok ((y.1, r'), ca) :=
  recReduce_of_chain h hs r

/-- C34, partial: a second run changes nothing, neither the expression nor what is remembered. Missing:
expressions with variables, whose reductions are not remembered, so that the second run looks at the
stored concepts again, with more remembered about other expressions. -/
theorem second_run_partial [HashOrder] {n : Nat} {t t' : Syn} {r r' : Option Reason} {ca ca' : Cache}
    (h : (search n).recReduce e t r ca = .ok ((t', r'), ca')) (hf : ca.frames ≠ [])
    (hv : t'.isVariable = false) (m : Nat) (s : Option Reason) :
    (search (m + 2)).recReduce e t' s ca' = .ok ((t', s), ca') := by
  obtain ⟨ca1, hc, k, hs⟩ := recReduce_chain n h
  have hl : ∀ x y : Syn × Cache, Reduces e x y → y.2.frames.length = x.2.frames.length := by
    rintro x y ⟨j, reason, hj⟩
    exact ((search_frames j).reduce (d := 0) _ _ _ _ _ hj).1
  have hlen : ca1.frames.length = ca.frames.length := by
    clear hs h
    generalize hx : (t, ca) = x at hc
    generalize hy : (t', ca1) = y at hc
    have : y.2.frames.length = x.2.frames.length := by
      clear hx hy
      induction hc with
      | refl => rfl
      | tail _ hst ih => rw [hl _ _ hst, ih]
    rw [← hx, ← hy] at this
    exact this
  have hf1 : ca1.frames ≠ [] := by
    intro hn
    rw [hn] at hlen
    exact hf (List.eq_nil_of_length_eq_zero hlen.symm)
  have := reduce_none_again hs hv hf1 m
  change (search (m + 1)).recReduceF e t' s ca' = _
  unfold Search.recReduceF
  rw [SM.bind_ok]
  exact ⟨_, _, this, rfl⟩

open Insertion in
example : ∃ t' r' ca', (search 60).recReduce (CM.env Witness.chain2) Witness.tokA none Cache.empty =
    .ok ((t', r'), ca') ∧ t'.key = Witness.tokC.key ∧ t'.key ≠ Witness.tokA.key ∧
    Cache.empty.frames ≠ [] := by
  obtain ⟨⟨t', r'⟩, ca', h, hk⟩ := of_part Witness.chain_ends
  exact ⟨t', r', ca', h, hk, by rw [hk]; decide +kernel, by simp [Cache.empty]⟩

/-! ## C33: the truth of a reduction -/

/-- C33: the truth of `l -> r` is `true` iff reducing `l` one or more times reaches `r` and reducing
`r` never reaches `l`; it is `false` iff they are the same expression, or reducing `r` reaches `l` and
reducing `l` does not reach `r`; it is undetermined iff neither reaches the other. -/
theorem truth_of_reduction [HashOrder] {n : Nat} {l r : Syn} {ca ca' : Cache} {o : Option (Bool × Reason)}
    (h : (search n).reductionTruth e l r ca = .ok (o, ca')) :
    (o.map Prod.fst = some true ↔ l.key ≠ r.key ∧
      ∃ ca1, Reaches e r.key (l, ca) ca1 ∧ Misses e l.key (r, ca1) ca') ∧
    (o.map Prod.fst = some false ↔ l.key = r.key ∨
      l.key ≠ r.key ∧ ∃ ca1, Misses e r.key (l, ca) ca1 ∧ Reaches e l.key (r, ca1) ca') ∧
    (o = none ↔ l.key ≠ r.key ∧
      ∃ ca1, Misses e r.key (l, ca) ca1 ∧ Misses e l.key (r, ca1) ca') := by
  have evid := fun {l r : Syn} {ca ca' : Cache} {o : Option Reason} => @evidence_spec _ e n l r ca ca' o
  unfold Search.reductionTruth at h
  split at h
  · rename_i hk
    obtain ⟨rfl, rfl⟩ := SM.pure_ok.1 h
    simp [hk]
  · rename_i hk
    simp only [SM.bind_ok] at h
    obtain ⟨o1, ca1, h1, o2, ca2, h2, h⟩ := h
    have e1 := evid h1
    have e2 := evid h2
    -- a run of the first evidence fixes its result and the memory after it
    have det : ∀ {x : Cache}, Reaches e r.key (l, ca) x → o1.isSome = true ∧ x = ca1 := by
      intro x hx
      obtain ⟨m, o, hm⟩ := hx.evidence
      have := ((search_le (Nat.le_max_left n m)).evidence _ _ _ _).ok h1
      have h' := ((search_le (Nat.le_max_right n m)).evidence _ _ _ _).ok hm
      rw [this] at h'
      cases h'
      exact ⟨rfl, rfl⟩
    have det' : ∀ {x : Cache}, Misses e r.key (l, ca) x → o1 = none ∧ x = ca1 := by
      intro x hx
      obtain ⟨m, hm⟩ := hx.evidence
      have := ((search_le (Nat.le_max_left n m)).evidence _ _ _ _).ok h1
      have h' := ((search_le (Nat.le_max_right n m)).evidence _ _ _ _).ok hm
      rw [this] at h'
      cases h'
      exact ⟨rfl, rfl⟩
    cases o1 with
    | some r1 =>
      cases o2 with
      | some r2 => exact (SM.fault_ok.1 h).elim
      | none =>
        obtain ⟨rfl, rfl⟩ := SM.pure_ok.1 h
        refine ⟨⟨fun _ => ⟨hk, ca1, e1, e2⟩, fun _ => rfl⟩, ?_, ?_⟩
        · refine ⟨fun h => by simp at h, ?_⟩
          rintro (h | ⟨_, x, hx, _⟩)
          · exact absurd h hk
          · exact absurd (det' hx).1 (by simp)
        · refine ⟨fun h => by simp at h, ?_⟩
          rintro ⟨_, x, hx, _⟩
          exact absurd (det' hx).1 (by simp)
    | none =>
      cases o2 with
      | some r2 =>
        obtain ⟨rfl, rfl⟩ := SM.pure_ok.1 h
        refine ⟨?_, ⟨fun _ => .inr ⟨hk, ca1, e1, e2⟩, fun _ => rfl⟩, ?_⟩
        · refine ⟨fun h => by simp at h, ?_⟩
          rintro ⟨_, x, hx, _⟩
          exact absurd (det hx).1 (by simp)
        · refine ⟨fun h => by simp at h, ?_⟩
          rintro ⟨_, x, hx, hm⟩
          rw [(det' hx).2] at hm
          exact (e2.not_misses hm).elim
      | none =>
        obtain ⟨rfl, rfl⟩ := SM.pure_ok.1 h
        refine ⟨?_, ?_, ⟨fun _ => ⟨hk, ca1, e1, e2⟩, fun _ => rfl⟩⟩
        · refine ⟨fun h => by simp at h, ?_⟩
          rintro ⟨_, x, hx, _⟩
          exact absurd (det hx).1 (by simp)
        · refine ⟨fun h => by simp at h, ?_⟩
          rintro (h | ⟨_, x, hx, hm⟩)
          · exact absurd h hk
          · rw [(det' hx).2] at hm
            exact (hm.not_misses e2).elim

/-- C33: when two different expressions reduce to each other, asking crashes. -/
theorem mutual_reduction_crashes [HashOrder] {l r : Syn} {ca ca1 ca2 : Cache} (hk : l.key ≠ r.key)
    (h1 : Reaches e r.key (l, ca) ca1) (h2 : Reaches e l.key (r, ca1) ca2) :
    ∃ n, (search n).reductionTruth e l r ca = .error (.panic .mutualReduction) := by
  obtain ⟨n, o, h1⟩ := h1.evidence
  obtain ⟨m, o', h2⟩ := h2.evidence
  have h1 := ((search_le (Nat.le_max_left n m)).evidence _ _ _ _).ok h1
  have h2 := ((search_le (Nat.le_max_right n m)).evidence _ _ _ _).ok h2
  refine ⟨max n m, ?_⟩
  unfold Search.reductionTruth
  rw [if_neg hk]
  show Except.bind ((search (max n m)).evidence e l r ca) _ = _
  rw [h1]
  show Except.bind ((search (max n m)).evidence e r l ca1) _ = _
  rw [h2]
  rfl

/-- C33: an expression `l -> r` is reduced to `true` or to `false` by the truth of the reduction. -/
theorem reduction_answer [HashOrder] {n : Nat} {l op r s : Syn} {reason : Reason} {ca ca' : Cache}
    (hop : Search.cctOfAst e op = .ok (some .reduction))
    (h : (search n).reduceByRight e l op r ca = .ok (some (s, reason), ca')) :
    ∃ b r' ca1, (search n).reductionTruth e l r ca = .ok (some (b, r'), ca1) ∧
      Names e (if b then .tru else .fls) s := by
  unfold Search.reduceByRight at h
  simp only [SM.bind_ok, SM.lift_ok] at h
  obtain ⟨k, _, ⟨hk, rfl⟩, h⟩ := h
  rw [hop] at hk
  cases hk
  simp only [SM.bind_ok] at h
  obtain ⟨o, ca1, h1, h⟩ := h
  cases o with
  | none => cases h
  | some p =>
    obtain ⟨b, r'⟩ := p
    simp only [SM.bind_ok] at h
    obtain ⟨t, ca2, h2, h⟩ := h
    obtain ⟨ht, rfl⟩ := SM.pure_ok.1 h
    cases t with
    | none => cases ht
    | some t =>
      cases ht
      exact ⟨b, _, ca1, h1, concreteAst_names h2⟩

open Insertion in
example : ∃ o ca', (search 60).reductionTruth (CM.env Witness.chain2) Witness.tokA Witness.tokC
    Cache.empty = .ok (o, ca') ∧ o.map Prod.fst = some true :=
  of_part Witness.chain_true

open Insertion in
example : ∃ o ca', (search 60).reductionTruth (CM.env Witness.chain2) Witness.tokC Witness.tokA
    Cache.empty = .ok (o, ca') ∧ o.map Prod.fst = some false :=
  of_part Witness.chain_false

/-! ## C32: comparing -/

/-- C32: the answer of a comparison is that of equality for the same expression, that of ignorance when
there is no concept of `>`, and otherwise what the truth of `a > b` and of `b > a` say. -/
theorem comparison_answer [HashOrder] {n : Nat} {a b : Syn} {c : Cmp} {r : CmpReason} {ca ca' : Cache}
    (h : (search n).compare e a b ca = .ok ((c, r), ca')) :
    (a.key = b.key ∧ c = .equalTo) ∨
    (a.key ≠ b.key ∧ e.view.concreteId .greaterThan = .ok none ∧ c = .incomparable) ∨
    (a.key ≠ b.key ∧ ∃ ab ba x y ca1 red ca2 red', Asks e a b ab ∧ Asks e b a ba ∧
      Judged e ab [] ca1 x red ca2 ∧ Judged e ba red ca2 y red' ca' ∧ Known x y c) :=
  compare_spec h

/-- C32: what the two truths say has a mirror image, and is never two things. -/
theorem comparison_mirror (x y : Option Bool) (c : Cmp) :
    (Known x y c ↔ Known y x (mirror c)) ∧ (∀ c', Known x y c → Known x y c' → c = c') ∧
    mirror (mirror c) = c := by
  refine ⟨?_, ?_, ?_⟩
  · cases c <;> simp [Known, mirror, and_comm]
  · intro c' h h'
    rcases x with _ | _ | _ <;> rcases y with _ | _ | _ <;> cases c <;> cases c' <;>
      simp_all [Known]
  · cases c <;> rfl

/-- C32: two comparisons, of `a` with `b` and of `b` with `a`, have mirror-image answers, unless one of
the questions `a > b` and `b > a` was judged differently in the two. -/
theorem comparisons_mirrored [HashOrder] {n m : Nat} {a b : Syn} {c c' : Cmp} {r r' : CmpReason}
    {ca ca1 ca' ca1' : Cache} (h : (search n).compare e a b ca = .ok ((c, r), ca1))
    (h' : (search m).compare e b a ca' = .ok ((c', r'), ca1')) :
    c' = mirror c ∨ ∃ ab ba ab' ba' x y x' y' c1 red c2 red' c1' red1 c2' red1',
      Asks e a b ab ∧ Asks e b a ba ∧ Asks e b a ba' ∧ Asks e a b ab' ∧
      Judged e ab [] c1 x red c2 ∧ Judged e ba red c2 y red' ca1 ∧
      Judged e ba' [] c1' y' red1 c2' ∧ Judged e ab' red1 c2' x' red1' ca1' ∧
      ¬ (x = x' ∧ y = y') := by
  rcases compare_spec h with ⟨hk, rfl⟩ | ⟨hk, hg, rfl⟩ |
    ⟨hk, ab, ba, x, y, c1, red, c2, red', q1, q2, j1, j2, kn⟩
  · rcases compare_spec h' with ⟨_, rfl⟩ | ⟨hk', _⟩ | ⟨hk', _⟩
    · exact .inl rfl
    · exact absurd hk.symm hk'
    · exact absurd hk.symm hk'
  · rcases compare_spec h' with ⟨hk', _⟩ | ⟨_, _, rfl⟩ |
      ⟨hk', ab, ba, x, y, c1, red, c2, red', ⟨gt, gb, ⟨id, i, ci, ci', hid, _⟩, _⟩, _⟩
    · exact absurd hk'.symm hk
    · exact .inl rfl
    · rw [hg] at hid
      cases hid
  · rcases compare_spec h' with ⟨hk', _⟩ | ⟨_, hg, rfl⟩ |
      ⟨hk', ba', ab', y', x', c1', red1, c2', red1', q1', q2', j1', j2', kn'⟩
    · exact absurd hk'.symm hk
    · obtain ⟨gt, gb, ⟨id, i, ci, ci', hid, _⟩, _⟩ := q1
      rw [hg] at hid
      cases hid
    · by_cases ha : x = x' ∧ y = y'
      · obtain ⟨rfl, rfl⟩ := ha
        exact .inl ((comparison_mirror _ _ _).2.1 _ kn' ((comparison_mirror _ _ _).1.1 kn))
      · exact .inr ⟨ab, ba, ab', ba', x, y, x', y', c1, red, c2, red', c1', red1, c2', red1',
          q1, q2, q1', q2', j1, j2, j1', j2', ha⟩

/-- C32: `a > b` is reduced to `true` only when `a` is strictly greater, and to `false` only when it is
equal, less, or less or equal. -/
theorem comparison_reduction [HashOrder] {n : Nat} {l op r s : Syn} {reason : Reason} {ca ca' : Cache}
    (hop : Search.cctOfAst e op = .ok (some .greaterThan))
    (h : (search n).reduceByRight e l op r ca = .ok (some (s, reason), ca')) :
    ∃ c cr ca1, (search n).compare e l r ca = .ok ((c, cr), ca1) ∧
      (c = .greaterThan ∧ Names e .tru s ∨
        (c = .equalTo ∨ c = .lessThan ∨ c = .lessOrEqual) ∧ Names e .fls s) := by
  unfold Search.reduceByRight at h
  simp only [SM.bind_ok, SM.lift_ok] at h
  obtain ⟨k, _, ⟨hk, rfl⟩, h⟩ := h
  rw [hop] at hk
  cases hk
  simp only [SM.bind_ok] at h
  obtain ⟨⟨c, cr⟩, ca1, h1, h⟩ := h
  refine ⟨c, cr, ca1, h1, ?_⟩
  cases c <;> simp only [SM.bind_ok, SM.pure_ok] at h <;> obtain ⟨t, ca2, h2, h3, rfl⟩ := h
  · cases t with
    | none => cases h3
    | some t => cases h3; exact .inl ⟨rfl, concreteAst_names h2⟩
  · cases t with
    | none => cases h3
    | some t => cases h3; exact .inr ⟨.inr (.inl rfl), concreteAst_names h2⟩
  · obtain ⟨rfl, _⟩ := h2
    cases h3
  · cases t with
    | none => cases h3
    | some t => cases h3; exact .inr ⟨.inl rfl, concreteAst_names h2⟩
  · obtain ⟨rfl, _⟩ := h2
    cases h3
  · cases t with
    | none => cases h3
    | some t => cases h3; exact .inr ⟨.inr (.inr rfl), concreteAst_names h2⟩

/-- C32: the only other outcome of the table: when `a > b` and `b > a` are both true, comparing
crashes. -/
theorem comparison_crash [HashOrder] (x y : Option CCT) :
    (∃ c, Search.cmpTable x y = .ok c ∧ Known (truthOf x) (truthOf y) c) ∨
      (truthOf x = some true ∧ truthOf y = some true ∧
        Search.cmpTable x y = .error (.panic .compareBoth)) := by
  cases h : Search.cmpTable x y with
  | ok c => exact .inl ⟨c, rfl, (cmpTable_ok x y c).1 h⟩
  | error f =>
    obtain ⟨rfl, hx, hy⟩ := (cmpTable_fault x y f).1 h
    exact .inr ⟨hx, hy, rfl⟩

open Insertion in
example : ∃ p ca', (search 60).compare (CM.env Witness.great1) Witness.smallA Witness.bigB
    Cache.empty = .ok (p, ca') ∧ p.1 = .lessThan :=
  of_part Witness.small_less

open Insertion in
example : ∃ p ca', (search 60).compare (CM.env Witness.great1) Witness.bigB Witness.smallA
    Cache.empty = .ok (p, ca') ∧ p.1 = mirror .lessThan :=
  of_part Witness.big_greater

/-! ## C35: matching -/

/-- C35: an expression that matches a stored rule pattern is an instance of it under the matching; each
variable stands for one expression, and only variables of the pattern are given a meaning. -/
theorem match_is_instance [HashOrder] {t : Syn} {g : CId} {m : Mask}
    (h : Search.checkGeneralisation e t g = .ok (some m)) :
    InstanceOf e m t g ∧ m.WF ∧ ∀ k u, m.get? k = some u → VariableIn e k g := by
  obtain ⟨_, w, i, v⟩ := checkGeneralisation_sound t h
  exact ⟨i, w, v⟩

/-- C35: conversely every instance of a general concept is matched. -/
theorem instances_match [HashOrder] {t : Syn} {g : CId} {m : Mask} {o : Option Mask} (hg : Generic e g)
    (hi : InstanceOf e m t g) (h : Search.checkGeneralisation e t g = .ok o) : ∃ m', o = some m' := by
  obtain ⟨m', rfl, _⟩ := checkGeneralisation_complete t hg hi h
  exact ⟨m', rfl⟩

/-- The expression `false and foo`. -/
def falseAndFoo : Syn :=
  .newPair (Witness.tok (str% "false") (some (.com 17)))
    (.newPair (Witness.tok (str% "and") (some (.com 44))) (Witness.tok (str% "foo") none))

example : Search.checkGeneralisation (CM.env boot) falseAndFoo (.com 52) =
    .ok (some [(.com 50, Witness.tok (str% "foo") none)]) := by
  decide +kernel

/-! ## C43: answers are determined -/

/-- C43: more room for recursion never changes an outcome: an answer stays the same answer with the
same context, and a crash the same crash. -/
theorem outcome_stable [HashOrder] {n m : Nat} (hnm : n ≤ m) (c : Ctx) (s : Str) :
    (∀ y, Context.execute n c s = .ok y → Context.execute m c s = .ok y) ∧
    ∀ p, Context.execute n c s = .error (.panic p) → Context.execute m c s = .error (.panic p) := by
  rcases Context.execute_below hnm c s with h | h
  · exact ⟨fun y hy => (by rw [h] at hy; cases hy), fun p hp => (by rw [h] at hp; cases hp)⟩
  · rw [h]
    exact ⟨fun _ h => h, fun _ h => h⟩

/-- C43: a list of commands has at most one list of answers and one final context. -/
theorem answers_determined [HashOrder] {n m : Nat} {c : Ctx} {ss : List Str} {x y : List Str × Ctx}
    (hx : Context.run n c ss = .ok x) (hy : Context.run m c ss = .ok y) : x = y := by
  rcases Nat.le_total n m with h | h
  · have := (Context.run_below h c ss).ok hx
    rw [hy] at this; cases this; rfl
  · have := (Context.run_below h c ss).ok hy
    rw [hx] at this; cases this; rfl

open Insertion in
/-- C43: there is one new context, if hash tables are visited in the order of insertion. -/
theorem new_determined {n : Nat} {c : Ctx} (h : Context.new n = .ok c) : c = boot := by
  rcases Nat.le_total n 60 with hl | hl
  · have := (Context.new_below hl).ok h
    rw [new_eq] at this; cases this; rfl
  · have := (Context.new_below hl).ok new_eq
    rw [h] at this; cases this; rfl

theorem run_cons [HashOrder] {n : Nat} {c c1 c2 : Ctx} {s r : Str} {ss rs : List Str}
    (h : Context.execute n c s = .ok (r, c1)) (h' : Context.run n c1 ss = .ok (rs, c2)) :
    Context.run n c (s :: ss) = .ok (r :: rs, c2) := by
  simp only [Context.run, Except.bind_eq_ok, Except.pure_eq_ok, Prod.exists]
  exact ⟨r, c1, h, rs, c2, h', rfl⟩

open Insertion in
example : Context.run 60 boot [str% "let a -> b", str% "let b -> c"] =
    .ok ([[], []], Witness.chain2) :=
  run_cons Witness.chain1_eq (run_cons Witness.chain2_eq rfl)

end Zia.Props

import Verif.Spec.Parse
import Verif.Lemmas.Monad
import Verif.Lemmas.SM
import Verif.Lemmas.HashOrder
import Mathlib.Data.List.Forall2

/-!
# Lemmas about the list parser
-/

namespace Zia

open CM Zia.Parser Spec HashOrder

set_option linter.unusedSectionVars false

variable [HashOrder]

/-! ## Trees over lists -/

theorem Groups.ne_nil {ts : List Syn} {t : Syn} (h : Groups ts t) : ts ≠ [] := by
  induction h with
  | one => simp
  | join _ _ _ ih _ => intro e; exact ih (List.append_eq_nil_iff.mp e).1

theorem Groups.single {ts : List Syn} {t : Syn} (h : Groups ts t) : ∀ x, ts = [x] → t = x := by
  cases h with
  | one => intro x e; cases e; rfl
  | @join ls rs l r t _ hl hr =>
    intro x e
    obtain ⟨h1, h2⟩ | ⟨h1, h2⟩ := List.append_eq_singleton_iff.mp e
    · exact absurd h1 (Groups.ne_nil hl)
    · exact absurd h2 (Groups.ne_nil hr)

theorem RightNested.ne_nil {ts : List Syn} {t : Syn} (h : RightNested ts t) : ts ≠ [] := by
  cases h <;> simp

/-- Readings of the pieces, joined from the right, are a reading of the whole. -/
theorem Groups.of_spine {trees : List Syn} {t : Syn} (h : RightNested trees t) :
    ∀ {pieces : List (List Syn)}, List.Forall₂ Groups pieces trees → Groups pieces.flatten t := by
  induction h with
  | one t =>
    intro pieces hp
    cases hp with
    | cons h1 h2 => cases h2; simpa using h1
  | cons he _ ih =>
    intro pieces hp
    cases hp with
    | cons h1 h2 => rw [List.flatten_cons]; exact Groups.join he h1 (ih h2)

/-! ## The pieces of the parser -/

theorem join_expansion {S : Search} {e : Env} {l r t : Syn} {ca ca' : Cache}
    (h : S.join e l r ca = .ok (t, ca')) : t.expansion = some (l, r) := by
  simp only [Search.join, SM.bind_ok, SM.pure_ok] at h
  obtain ⟨s, ca1, _, rfl, _⟩ := h
  rfl

theorem combine_expansion {S : Search} {e : Env} {l r t : Syn} {ca ca' : Cache}
    (h : S.combine e l r ca = .ok (t, ca')) : t.expansion = some (l, r) := by
  simp only [Search.combine, SM.bind_ok, SM.lift_ok] at h
  obtain ⟨o, ca1, _, h⟩ := h
  cases o with
  | none => exact join_expansion h
  | some c =>
    simp only [SM.bind_ok, SM.lift_ok] at h
    obtain ⟨u, ca2, h1, h, _⟩ := h
    have hu := join_expansion h1
    cases u with
    | leaf => cases hu
    | branch s o l' r' f b =>
      cases hu
      simp only [View.bindConceptToSyntax, Except.bind_eq_ok] at h
      obtain ⟨cc, _, h⟩ := h
      split at h
      · cases h
      · cases h; rfl

/-! ## What successful runs return -/

/-- Every value returned by a successful run satisfies `Q`. -/
def Gives {α : Type} (m : CM α) (Q : α → Prop) : Prop :=
  ∀ c a c', m c = .ok (.ok a, c') → Q a

namespace Gives

variable {α β : Type} {Q : β → Prop}

theorem bind {P : α → Prop} {m : CM α} {f : α → CM β} (h : Gives m P)
    (hf : ∀ a, P a → Gives (f a) Q) : Gives (m >>= f) Q := by
  intro c b c' e
  rw [bind_apply, Except.bind_eq_ok] at e
  obtain ⟨⟨r, c1⟩, e1, e2⟩ := e
  cases r with
  | error x => cases e2
  | ok a => exact hf a (h c a c1 e1) c1 b c' e2

theorem any (m : CM β) : Gives m (fun _ => True) := fun _ _ _ _ => trivial

theorem pure {b : β} (h : Q b) : Gives (Pure.pure b) Q := by
  intro c b c' e; cases e; exact h

theorem throw {e : ZiaError} : Gives (MonadExcept.throw e : CM β) Q := by
  intro c b c' e; cases e

theorem fault {f : Fault} : Gives (CM.fault f : CM β) Q := by
  intro c b c' e; cases e

theorem mono {P : β → Prop} {m : CM β} (h : Gives m P) (hPQ : ∀ b, P b → Q b) : Gives m Q :=
  fun c b c' e => hPQ b (h c b c' e)

theorem ofE {x : Except Fault β} (h : ∀ b, x = .ok b → Q b) : Gives (CM.ofE x) Q :=
  fun c b c' e => Ends.ofE (Q := fun r _ => ∀ b, r = .ok b → Q b)
    (fun b hb b' hb' => by cases hb'; exact h b hb) _ c' e b rfl

theorem combine {n : Nat} {l r : Syn} :
    Gives (searching fun e => (search n).combine e l r)
      (fun t => t.expansion = some (l, r)) :=
  fun c _ c' e => Ends.searching (c := c)
    (Q := fun x _ => ∀ b : Syn, x = .ok b → b.expansion = some (l, r))
    (fun _ _ h b hb => by cases hb; exact combine_expansion h) _ c' e _ rfl

end Gives

/-- What is asked of a relation between lists and their trees so that the right associative loop
establishes it for each piece. -/
structure Reading (G : List Syn → Syn → Prop) : Prop where
  one : ∀ t, G [t] t
  cons : ∀ {a r t rs}, t.expansion = some (a, r) → rs ≠ [] → G rs r → G (a :: rs) t

theorem Groups.reading : Reading Groups where
  one := Groups.one
  cons he _ h := Groups.join (ls := [_]) he (Groups.one _) h

theorem sliceAst_right {G : List Syn → Syn → Prop} (hG : Reading G) {n : Nat}
    {parse : List Syn → CM Syn} (hp : ∀ l, Gives (parse l) (G l)) (slice : List Syn) (lp : Nat) :
    Gives (sliceAst n parse slice lp .right) (G slice) := by
  unfold sliceAst
  simp only
  split
  · split
    · exact Gives.fault
    · rename_i e he
      obtain ⟨rs, rfl⟩ : ∃ rs, slice = e :: rs := by
        cases slice with
        | nil => cases he
        | cons x xs => cases he; exact ⟨xs, rfl⟩
      split
      · rename_i h1
        have : rs = [] := by simpa using h1
        subst this
        exact Gives.pure (hG.one e)
      · rename_i h1
        have hne : rs ≠ [] := by rintro rfl; exact h1 rfl
        split
        · rename_i h
          cases h
          exact Gives.bind (P := fun r => G _ r) (Gives.pure (hG.one _)) fun r hr =>
            Gives.combine.mono fun t ht => hG.cons ht hne hr
        · exact Gives.bind (P := fun r => G rs r) (hp _) fun r hr =>
            Gives.combine.mono fun t ht => hG.cons ht hne hr
  · exact hp _

/-- The state of the right associative loop: the pieces handled so far and their tree. -/
def Split (G : List Syn → Syn → Prop) (ts : List Syn) (p : Nat) (e : Syn) (done : List Nat) : Prop :=
  p ≤ ts.length ∧ ∃ pieces trees, pieces.flatten = ts.drop p ∧ (∀ s ∈ pieces, s ≠ []) ∧
    List.Forall₂ G pieces trees ∧ RightNested trees e ∧ starts p pieces = done

/-- `Split` for the optional state. -/
def Split? (G : List Syn → Syn → Prop) (ts : List Syn) : Option (Syn × Nat) → List Nat → Prop
  | none, done => done = []
  | some (e, p), done => Split G ts p e done

theorem slice_ok {ts l : List Syn} {i j : Nat} (h : Assoc.slice ts i j = .ok l) :
    i ≤ j ∧ j ≤ ts.length ∧ l = (ts.take j).drop i := by
  unfold Assoc.slice at h
  split at h
  · rename_i hc; cases h; exact ⟨hc.1, hc.2, rfl⟩
  · cases h

theorem drop_split {ts : List Syn} {i j : Nat} (h : i ≤ j) :
    ts.drop i = (ts.take j).drop i ++ ts.drop j := by
  conv_lhs => rw [← List.take_append_drop j ts]
  rw [List.drop_append]
  have hl : (ts.take j).length ≤ j := by rw [List.length_take]; exact Nat.min_le_left _ _
  by_cases hj : j ≤ ts.length
  · have : (ts.take j).length = j := by rw [List.length_take]; omega
    rw [this, Nat.sub_eq_zero_of_le h, List.drop_zero]
  · rw [List.drop_eq_nil_of_le (by omega : ts.length ≤ j)]; simp

theorem handler_right {G : List Syn → Syn → Prop} (hG : Reading G) {n : Nat}
    {parse : List Syn → CM Syn} (hp : ∀ l, Gives (parse l) (G l)) (ts : List Syn)
    (st : Option (Syn × Nat)) (done : List Nat) (lp : Nat) (hst : Split? G ts st done) :
    Gives (handler n parse ts st lp .right) (fun x => x.2 = lp ∧ Split G ts lp x.1 (lp :: done)) := by
  unfold handler
  refine Gives.bind (Gives.ofE fun _ h => h) fun slice hs => ?_
  obtain ⟨h1, h2, hsl⟩ := slice_ok (show Assoc.slice ts lp _ = .ok slice from hs)
  split
  · exact Gives.throw
  · rename_i hne
    have hne : slice ≠ [] := by rintro rfl; exact hne rfl
    refine Gives.bind (sliceAst_right hG hp slice lp) fun t ht => ?_
    cases st with
    | none =>
      cases hst
      refine Gives.pure ⟨rfl, by simp only [Option.map_none, Option.getD_none] at h1; omega,
        [slice], [t], ?_, ?_, ?_, RightNested.one t, rfl⟩
      · rw [hsl]; simp
      · simpa using hne
      · exact .cons ht .nil
    | some ep =>
      obtain ⟨e, p⟩ := ep
      obtain ⟨hpl, pieces, trees, hf, hn, hG2, hr, hd⟩ := hst
      simp only [Option.map_some, Option.getD_some] at h1 h2 hsl
      refine Gives.bind Gives.combine fun t' ht' => Gives.pure ⟨rfl, by omega,
        slice :: pieces, t :: trees, ?_, ?_, .cons ht hG2, RightNested.cons ht' hr, ?_⟩
      · rw [List.flatten_cons, hf, hsl, ← drop_split h1]
      · intro s hs
        rcases List.mem_cons.mp hs with rfl | hs
        · exact hne
        · exact hn s hs
      · rw [starts, ← hd, hsl]
        have : ((ts.take p).drop lp).length = p - lp := by
          rw [List.length_drop, List.length_take]; omega
        rw [this]
        have : lp + (p - lp) = p := by omega
        rw [this]

theorem rightLoop_split {G : List Syn → Syn → Prop} (hG : Reading G) {n : Nat}
    {parse : List Syn → CM Syn} (hp : ∀ l, Gives (parse l) (G l)) (ts : List Syn) (lps : List Nat) :
    ∀ (st : Option (Syn × Nat)) (done : List Nat), Split? G ts st done →
      Gives (rightLoop n parse ts st lps)
        (fun st' => ∃ done', Split? G ts st' done' ∧ ∀ i, i ∈ done' ↔ i ∈ done ∨ i ∈ lps) := by
  induction lps with
  | nil =>
    intro st done h
    unfold rightLoop
    exact Gives.pure ⟨done, h, by simp⟩
  | cons lp rest ih =>
    intro st done h
    unfold rightLoop
    split
    · rename_i heq
      refine (ih st done h).mono ?_
      rintro st' ⟨done', h', hm⟩
      refine ⟨done', h', fun i => ?_⟩
      rw [hm, List.mem_cons]
      have : lp ∈ done := by
        cases st with
        | none => cases heq
        | some ep =>
          obtain ⟨e, p⟩ := ep
          cases heq
          obtain ⟨_, pieces, trees, _, _, h2, hr, hd⟩ := h
          cases h2 with
          | nil => exact absurd rfl (RightNested.ne_nil hr)
          | cons => rw [← hd]; exact List.mem_cons_self
      constructor
      · rintro (h | h)
        · exact .inl h
        · exact .inr (.inr h)
      · rintro (h | rfl | h)
        · exact .inl h
        · exact .inl this
        · exact .inr h
    · refine Gives.bind (handler_right hG hp ts st done lp h) ?_
      rintro ⟨e, p⟩ ⟨hp', hs⟩
      cases hp'
      refine (ih (some (e, p)) (p :: done) hs).mono ?_
      rintro st' ⟨done', h', hm⟩
      refine ⟨done', h', fun i => ?_⟩
      rw [hm]
      simp only [List.mem_cons]
      tauto

/-- The right associative case as a whole. -/
theorem right_case {G : List Syn → Syn → Prop} (hG : Reading G) {n : Nat}
    {parse : List Syn → CM Syn} (hp : ∀ l, Gives (parse l) (G l)) (ts : List Syn) (lps : List Nat) :
    Gives (do
        match ← rightLoop n parse ts none lps with
        | none => throw .ambiguousExpression
        | some (tail, 0) => return tail
        | some (tail, min) => do
          let head ← parse (ts.take min)
          searching (fun e => (search n).combine e head tail))
      (fun t => ∃ pieces trees, CutAt lps ts pieces ∧ List.Forall₂ G pieces trees ∧
        RightNested trees t) := by
  refine Gives.bind (rightLoop_split hG hp ts lps none [] rfl) ?_
  rintro st ⟨done, hs, hm⟩
  cases st with
  | none => exact Gives.throw
  | some ep =>
    obtain ⟨e, p⟩ := ep
    obtain ⟨hpl, pieces, trees, hf, hn, hG2, hr, hd⟩ := hs
    cases p with
    | zero =>
      refine Gives.pure ⟨pieces, trees, ⟨by simpa using hf, hn, fun i => ?_⟩, hG2, hr⟩
      rw [hd, hm]
      simp only [List.not_mem_nil, false_or]
      have : 0 ∈ done := by
        cases hG2 with
        | nil => exact absurd rfl (RightNested.ne_nil hr)
        | cons => rw [← hd]; exact List.mem_cons_self
      constructor
      · exact .inr
      · rintro (rfl | h)
        · simpa using (hm 0).mp this
        · exact h
    | succ p =>
      refine Gives.bind (hp _) fun head hh => Gives.combine.mono fun t ht =>
        ⟨ts.take (p + 1) :: pieces, head :: trees, ⟨?_, ?_, fun i => ?_⟩, .cons hh hG2,
          RightNested.cons ht hr⟩
      · rw [List.flatten_cons, hf, List.take_append_drop]
      · intro s hs
        rcases List.mem_cons.mp hs with rfl | hs
        · intro h
          have := congrArg List.length h
          rw [List.length_take, List.length_nil] at this
          omega
        · exact hn s hs
      · rw [starts, List.length_take, Nat.min_eq_left hpl, Nat.zero_add, hd, List.mem_cons, hm]
        simp

/-! ## Positions -/

theorem mem_insertDesc (x y : Nat) (l : List Nat) : y ∈ insertDesc x l ↔ y = x ∨ y ∈ l := by
  induction l with
  | nil => simp [insertDesc]
  | cons z zs ih =>
    unfold insertDesc
    split
    · simp
    · simp only [List.mem_cons, ih]; tauto

theorem mem_heap (y : Nat) (l : List Nat) : y ∈ heap l ↔ y ∈ l := by
  unfold heap
  induction l with
  | nil => simp
  | cons x xs ih => rw [List.foldr_cons, mem_insertDesc, ih, List.mem_cons]

theorem insertDesc_sorted (x : Nat) (l : List Nat) (h : l.Pairwise (· ≥ ·)) :
    (insertDesc x l).Pairwise (· ≥ ·) := by
  induction l with
  | nil => simp [insertDesc]
  | cons z zs ih =>
    unfold insertDesc
    rw [List.pairwise_cons] at h
    split
    · rename_i hz
      rw [List.pairwise_cons, List.pairwise_cons]
      refine ⟨fun y hy => ?_, h⟩
      rcases List.mem_cons.mp hy with rfl | hy
      · exact hz
      · exact Nat.le_trans (h.1 y hy) hz
    · rename_i hz
      rw [List.pairwise_cons]
      refine ⟨fun y hy => ?_, ih h.2⟩
      rcases (mem_insertDesc _ _ _).mp hy with rfl | hy
      · exact Nat.le_of_not_le hz
      · exact h.1 y hy

theorem heap_sorted (l : List Nat) : (heap l).Pairwise (· ≥ ·) := by
  unfold heap
  induction l with
  | nil => simp
  | cons x xs ih => rw [List.foldr_cons]; exact insertDesc_sorted x _ ih

theorem mem_indicesOf (id : CId) (ts : List Syn) : ∀ k i, i ∈ indicesOf id k ts ↔
    ∃ j t, i = k + j ∧ ts[j]? = some t ∧ t.concept = some id := by
  induction ts with
  | nil => intro k i; simp [indicesOf]
  | cons x xs ih =>
    intro k i
    have key : (∃ j t, i = k + j ∧ (x :: xs)[j]? = some t ∧ t.concept = some id) ↔
        (i = k ∧ x.concept = some id) ∨
          ∃ j t, i = k + 1 + j ∧ xs[j]? = some t ∧ t.concept = some id := by
      constructor
      · rintro ⟨j, t, rfl, h, hc⟩
        cases j with
        | zero => cases h; exact .inl ⟨rfl, hc⟩
        | succ j => exact .inr ⟨j, t, by omega, h, hc⟩
      · rintro (⟨rfl, h⟩ | ⟨j, t, rfl, h, hc⟩)
        · exact ⟨0, x, rfl, rfl, h⟩
        · exact ⟨j + 1, t, by omega, h, hc⟩
    rw [key]
    unfold indicesOf
    split
    · rename_i h
      rw [List.mem_cons, ih]
      simp [h]
    · rename_i h
      rw [ih]
      simp [h]

theorem mem_indicesWithout (ts : List Syn) : ∀ k i, i ∈ indicesWithout k ts ↔
    ∃ j t, i = k + j ∧ ts[j]? = some t ∧ t.concept = none := by
  induction ts with
  | nil => intro k i; simp [indicesWithout]
  | cons x xs ih =>
    intro k i
    have key : (∃ j t, i = k + j ∧ (x :: xs)[j]? = some t ∧ t.concept = none) ↔
        (i = k ∧ x.concept = none) ∨
          ∃ j t, i = k + 1 + j ∧ xs[j]? = some t ∧ t.concept = none := by
      constructor
      · rintro ⟨j, t, rfl, h, hc⟩
        cases j with
        | zero => cases h; exact .inl ⟨rfl, hc⟩
        | succ j => exact .inr ⟨j, t, by omega, h, hc⟩
      · rintro (⟨rfl, h⟩ | ⟨j, t, rfl, h, hc⟩)
        · exact ⟨0, x, rfl, rfl, h⟩
        · exact ⟨j + 1, t, by omega, h, hc⟩
    rw [key]
    unfold indicesWithout
    cases hx : x.concept with
    | none =>
      simp only [Option.isNone_none, if_true, List.mem_cons, ih]
      simp
    | some c =>
      simp only [Option.isNone_some, Bool.false_eq_true, if_false, ih]
      simp

theorem lt_of_getElem? {ts : List Syn} {j : Nat} {t : Syn} (h : ts[j]? = some t) :
    j < ts.length := by
  rcases Nat.lt_or_ge j ts.length with h' | h'
  · exact h'
  · rw [List.getElem?_eq_none h'] at h; cases h

theorem lowestPrecedenceInfo_positions (ask : CId → CId → CM (Option CCT)) (ts : List Syn) :
    Gives (lowestPrecedenceInfo ask ts)
      (fun x => (∀ i ∈ x.2, i < ts.length) ∧ x.2.Pairwise (· ≥ ·)) := by
  have hidx : ∀ (l : List CId) (i : Nat), i ∈ l.flatMap (fun i => order (indicesOf i 0 ts)) →
      i < ts.length := by
    intro l i hi
    obtain ⟨id, _, hi⟩ := List.mem_flatMap.mp hi
    obtain ⟨j, t, rfl, hj, _⟩ := (mem_indicesOf _ _ _ _).mp (mem_order.mp hi)
    rw [Nat.zero_add]; exact lt_of_getElem? hj
  unfold lowestPrecedenceInfo
  refine Gives.bind (Gives.any _) fun o _ => ?_
  cases o with
  | none => exact Gives.fault
  | some p =>
    refine Gives.bind (Gives.any _) fun rel _ => Gives.bind (Gives.any _) fun low _ => ?_
    split
    · refine Gives.pure ⟨fun i hi => ?_, heap_sorted _⟩
      rcases List.mem_append.mp ((mem_heap _ _).mp hi) with hi | hi
      · obtain ⟨j, t, rfl, hj, _⟩ := (mem_indicesWithout _ _ _).mp hi
        rw [Nat.zero_add]; exact lt_of_getElem? hj
      · exact hidx _ i hi
    · exact Gives.pure ⟨fun i hi => hidx _ i ((mem_heap _ _).mp hi), heap_sorted _⟩

/-! ## Recursion on shorter lists -/

theorem bind_congr_gives {α β : Type} {m : CM α} {P : α → Prop} (h : Gives m P) {f g : α → CM β}
    (hfg : ∀ a, P a → f a = g a) : m >>= f = m >>= g := by
  funext c
  rw [bind_apply, bind_apply]
  cases e : m c with
  | error x => rfl
  | ok p =>
    obtain ⟨r, c1⟩ := p
    cases r with
    | error x => rfl
    | ok a => show f a c1 = g a c1; rw [hfg a (h c a c1 e)]

theorem handler_congr {n : Nat} {p1 p2 : List Syn → CM Syn} {ts : List Syn}
    (h : ∀ l, l.length < ts.length → p1 l = p2 l) (st : Option (Syn × Nat)) (lp : Nat)
    (hlp : lp < ts.length) (a : Assoc) : handler n p1 ts st lp a = handler n p2 ts st lp a := by
  unfold handler
  refine bind_congr_gives (Gives.ofE fun _ h => h) fun slice hs => ?_
  split
  · rfl
  · rename_i hne
    have hne : 0 < slice.length := by
      cases slice with
      | nil => exact absurd rfl hne
      | cons => simp
    have : sliceAst n p1 slice lp a = sliceAst n p2 slice lp a := by
      cases a with
      | right =>
        obtain ⟨h1, h2, hsl⟩ := slice_ok (show Assoc.slice ts lp _ = .ok slice from hs)
        have hl : slice.length ≤ ts.length - lp := by
          rw [hsl, List.length_drop, List.length_take]; omega
        have e1 : p1 (slice.drop 1) = p2 (slice.drop 1) :=
          h _ (by rw [List.length_drop]; omega)
        unfold sliceAst
        simp only
        split
        · rw [e1]
        · exact h _ (by omega)
      | left =>
        obtain ⟨h1, h2, hsl⟩ := slice_ok (show Assoc.slice ts _ lp = .ok slice from hs)
        have hl : slice.length ≤ lp := by
          rw [hsl, List.length_drop, List.length_take]; omega
        unfold sliceAst
        simp only
        rw [if_neg (by omega), if_neg (by omega)]
        exact h _ (by omega)
    rw [this]

theorem rightLoop_congr {n : Nat} {p1 p2 : List Syn → CM Syn} {ts : List Syn}
    (h : ∀ l, l.length < ts.length → p1 l = p2 l) (lps : List Nat)
    (hlp : ∀ i ∈ lps, i < ts.length) : ∀ st,
    rightLoop n p1 ts st lps = rightLoop n p2 ts st lps := by
  induction lps with
  | nil => intro st; rfl
  | cons lp rest ih =>
    intro st
    unfold rightLoop
    rw [handler_congr h st lp (hlp lp List.mem_cons_self) .right,
      ih (fun i hi => hlp i (List.mem_cons_of_mem _ hi))]
    split
    · rfl
    · congr 1
      funext x
      exact ih (fun i hi => hlp i (List.mem_cons_of_mem _ hi)) _

theorem leftLoop_congr {n : Nat} {p1 p2 : List Syn → CM Syn} {ts : List Syn}
    (h : ∀ l, l.length < ts.length → p1 l = p2 l) (lps : List Nat)
    (hlp : ∀ i ∈ lps, i < ts.length) : ∀ st,
    leftLoop n p1 ts st lps = leftLoop n p2 ts st lps := by
  induction lps with
  | nil => intro st; rfl
  | cons lp rest ih =>
    intro st
    unfold leftLoop
    rw [handler_congr h st lp (hlp lp List.mem_cons_self) .left]
    congr 1
    funext x
    exact ih (fun i hi => hlp i (List.mem_cons_of_mem _ hi)) _

theorem mem_heapIter {lps : List Nat} {i : Nat} : i ∈ heapIter lps ↔ i ∈ lps := by
  cases lps with
  | nil => exact Iff.rfl
  | cons x xs => rw [heapIter, List.mem_cons, List.mem_cons, mem_order]

theorem leftCase_congr {n : Nat} {p1 p2 : List Syn → CM Syn} {ts : List Syn}
    (h : ∀ l, l.length < ts.length → p1 l = p2 l) (lps : List Nat)
    (hlp : ∀ i ∈ lps, i < ts.length) : leftCase n p1 ts lps = leftCase n p2 ts lps := by
  unfold leftCase
  rw [leftLoop_congr h (heapIter lps) (fun i hi => hlp i (mem_heapIter.mp hi))]

theorem rightLoop_min (n : Nat) (parse : List Syn → CM Syn) (ts : List Syn) (lps : List Nat) :
    Gives (rightLoop n parse ts none lps) (fun st => ∀ x, st = some x → x.2 ∈ lps) := by
  refine (rightLoop_split (G := fun _ _ => True) ⟨fun _ => trivial, fun _ _ _ => trivial⟩
    (fun l c a c' _ => trivial) ts lps none [] rfl).mono ?_
  rintro st ⟨done, hs, hm⟩ ⟨e, p⟩ rfl
  obtain ⟨_, pieces, trees, _, _, h2, hr, hd⟩ := hs
  have : p ∈ done := by
    cases h2 with
    | nil => exact absurd rfl (RightNested.ne_nil hr)
    | cons => rw [← hd]; exact List.mem_cons_self
  simpa using (hm p).mp this

/-- The body of `astFromListWith` for lists of three or more expressions. -/
def listBody (ask : CId → CId → CM (Option CCT)) (left : (List Syn → CM Syn) → List Syn → List Nat → CM Syn) (n : Nat)
    (parse : List Syn → CM Syn) (ts : List Syn) : CM Syn := do
  let (lpSyn, lps) ← lowestPrecedenceInfo ask ts
  if lps.isEmpty then throw (.lowestPrecedenceNotFound (← ofE (ts.mapM Syn.display)))
  else do
    match ← commonAssoc n none lpSyn with
    | some .right => do
      match ← rightLoop n parse ts none lps with
      | none => throw .ambiguousExpression
      | some (tail, 0) => return tail
      | some (tail, min) => do
        let head ← parse (ts.take min)
        searching (fun e => (search n).combine e head tail)
    | some .left => left parse ts lps
    | none => throw .ambiguousExpression

theorem astFromListWith_succ (ask : CId → CId → CM (Option CCT)) (left : (List Syn → CM Syn) → List Syn → List Nat → CM Syn)
    (out : CM Syn) (n k : Nat) (x y z : Syn) (ts : List Syn) :
    astFromListWith ask left out n (k + 1) (x :: y :: z :: ts) =
      listBody ask left n (astFromListWith ask left out n k) (x :: y :: z :: ts) := by
  rw [astFromListWith]
  · rfl
  · simp
  · simp
  · simp

theorem listBody_congr {ask : CId → CId → CM (Option CCT)} {n : Nat} {p1 p2 : List Syn → CM Syn} {ts : List Syn}
    (h : ∀ l, l.length < ts.length → p1 l = p2 l) :
    listBody ask (leftCase n) n p1 ts = listBody ask (leftCase n) n p2 ts := by
  unfold listBody
  refine bind_congr_gives (lowestPrecedenceInfo_positions ask ts) ?_
  rintro ⟨lpSyn, lps⟩ ⟨hlt, _⟩
  simp only
  split
  · rfl
  · congr 1
    funext a
    cases a with
    | none => rfl
    | some a =>
      cases a with
      | left => exact leftCase_congr h lps hlt
      | right =>
        simp only
        rw [rightLoop_congr h lps hlt]
        refine bind_congr_gives (rightLoop_min n p2 ts lps) fun st hst => ?_
        cases st with
        | none => rfl
        | some ep =>
          obtain ⟨e, p⟩ := ep
          cases p with
          | zero => rfl
          | succ p =>
            have : p + 1 < ts.length := hlt _ (hst _ rfl)
            simp only
            rw [h (ts.take (p + 1)) (by rw [List.length_take]; omega)]

theorem parse_out (ask : CId → CId → CM (Option CCT)) (n : Nat) (out out' : CM Syn) : ∀ (k k' : Nat) (ts : List Syn),
    ts.length ≤ k → ts.length ≤ k' →
      astFromListWith ask (leftCase n) out n k ts = astFromListWith ask (leftCase n) out' n k' ts := by
  intro k
  induction k with
  | zero =>
    intro k' ts h _
    have : ts = [] := List.length_eq_zero_iff.mp (by omega)
    subst this
    cases k' <;> rfl
  | succ k ih =>
    intro k' ts h h'
    match ts, h, h' with
    | [], _, _ => cases k' <;> rfl
    | [_], _, _ => cases k' <;> rfl
    | [_, _], _, _ => cases k' <;> rfl
    | x :: y :: z :: ts, h, h' =>
      cases k' with
      | zero => simp at h'
      | succ k' =>
        rw [astFromListWith_succ, astFromListWith_succ]
        refine listBody_congr fun l hl => ih k' l ?_ ?_
        · omega
        · omega

/-! ## Runs that meet no left associative symbol -/

/-- Where the first succeeds, the second does the same. -/
def SameOk {α : Type} (m m' : CM α) : Prop :=
  ∀ c a c', m c = .ok (.ok a, c') → m' c = .ok (.ok a, c')

theorem SameOk.rfl {α : Type} {m : CM α} : SameOk m m := fun _ _ _ h => h

theorem SameOk.bind {α β : Type} {m m' : CM α} {f f' : α → CM β} (h : SameOk m m')
    (hf : ∀ a, SameOk (f a) (f' a)) : SameOk (m >>= f) (m' >>= f') := by
  intro c b c' e
  rw [bind_apply, Except.bind_eq_ok] at e
  obtain ⟨⟨r, c1⟩, e1, e2⟩ := e
  cases r with
  | error x => cases e2
  | ok a =>
    rw [bind_apply, h c a c1 e1]
    exact hf a c1 b c' e2

theorem SameOk.throw {α : Type} {e : ZiaError} {m : CM α} :
    SameOk (MonadExcept.throw e : CM α) m := by
  intro c a c' h; cases h

theorem sliceAst_agree {n : Nat} {p1 p2 : List Syn → CM Syn} (h : ∀ l, SameOk (p1 l) (p2 l))
    (slice : List Syn) (lp : Nat) (a : Assoc) :
    SameOk (sliceAst n p1 slice lp a) (sliceAst n p2 slice lp a) := by
  unfold sliceAst
  cases a <;> simp only <;> (repeat' split) <;>
    first
      | exact SameOk.rfl
      | exact h _
      | exact SameOk.bind (h _) fun _ => SameOk.rfl

theorem handler_agree {n : Nat} {p1 p2 : List Syn → CM Syn} (h : ∀ l, SameOk (p1 l) (p2 l))
    (ts : List Syn) (st : Option (Syn × Nat)) (lp : Nat) (a : Assoc) :
    SameOk (handler n p1 ts st lp a) (handler n p2 ts st lp a) := by
  unfold handler
  refine SameOk.bind SameOk.rfl fun slice => ?_
  split
  · exact SameOk.rfl
  · exact SameOk.bind (sliceAst_agree h _ _ _) fun _ => SameOk.rfl

theorem rightLoop_agree {n : Nat} {p1 p2 : List Syn → CM Syn} (h : ∀ l, SameOk (p1 l) (p2 l))
    (ts : List Syn) (lps : List Nat) : ∀ st,
    SameOk (rightLoop n p1 ts st lps) (rightLoop n p2 ts st lps) := by
  induction lps with
  | nil => intro st; exact SameOk.rfl
  | cons lp rest ih =>
    intro st
    unfold rightLoop
    split
    · exact ih st
    · exact SameOk.bind (handler_agree h _ _ _ _) fun _ => ih _

theorem noLeft_agree (ask : CId → CId → CM (Option CCT))
    (left : (List Syn → CM Syn) → List Syn → List Nat → CM Syn) (out : CM Syn)
    (n k : Nat) (ts : List Syn) :
    SameOk (astFromListWith ask noLeft out n k ts) (astFromListWith ask left out n k ts) := by
  induction k generalizing ts with
  | zero => match ts with
    | [] => exact SameOk.rfl
    | [_] => exact SameOk.rfl
    | [_, _] => exact SameOk.rfl
    | _ :: _ :: _ :: _ => exact SameOk.rfl
  | succ k ih => match ts with
    | [] => exact SameOk.rfl
    | [_] => exact SameOk.rfl
    | [_, _] => exact SameOk.rfl
    | x :: y :: z :: ts =>
      rw [astFromListWith_succ, astFromListWith_succ]
      unfold listBody
      refine SameOk.bind SameOk.rfl fun p => ?_
      simp only
      split
      · exact SameOk.rfl
      · refine SameOk.bind SameOk.rfl fun a => ?_
        cases a with
        | none => exact SameOk.rfl
        | some a =>
          cases a with
          | left => exact SameOk.throw
          | right =>
            refine SameOk.bind (rightLoop_agree ih _ _ _) fun st => ?_
            cases st with
            | none => exact SameOk.rfl
            | some ep =>
              obtain ⟨e, p⟩ := ep
              cases p with
              | zero => exact SameOk.rfl
              | succ p => exact SameOk.bind (ih _) fun _ => SameOk.rfl

theorem newPair_groups (l r : Syn) : Groups [l, r] (.newPair l r) :=
  Groups.join (ls := [l]) (rs := [r]) rfl (Groups.one l) (Groups.one r)

theorem noLeft_groups (ask : CId → CId → CM (Option CCT)) (n k : Nat) (ts : List Syn) :
    Gives (astFromListWith ask noLeft (fault .diverge) n k ts) (Groups ts) := by
  induction k generalizing ts with
  | zero => match ts with
    | [] => exact Gives.fault
    | [_] => exact Gives.pure (Groups.one _)
    | [l, r] => exact Gives.pure (newPair_groups l r)
    | _ :: _ :: _ :: _ => exact Gives.fault
  | succ k ih => match ts with
    | [] => exact Gives.fault
    | [_] => exact Gives.pure (Groups.one _)
    | [l, r] => exact Gives.pure (newPair_groups l r)
    | x :: y :: z :: ts =>
      rw [astFromListWith_succ]
      unfold listBody
      refine Gives.bind (Gives.any _) fun p _ => ?_
      simp only
      split
      · exact Gives.bind (Gives.any _) fun _ _ => Gives.throw
      · refine Gives.bind (Gives.any _) fun a _ => ?_
        cases a with
        | none => exact Gives.throw
        | some a =>
          cases a with
          | left => exact Gives.throw
          | right =>
            refine (right_case Groups.reading ih _ _).mono ?_
            rintro t ⟨pieces, trees, hc, h2, hr⟩
            rw [← hc.whole]
            exact Groups.of_spine hr h2

/-! ## The lists of lowest precedence -/

theorem reading_gives {β : Type} {f : View → Except Fault β} {c c' : Ctx} {b : β}
    (h : reading f c = .ok (.ok b, c')) : f ⟨c.snap, c.delta⟩ = .ok b ∧ c' = c := by
  rw [reading_apply] at h
  simp only [CM.ofE, Except.bind_eq_ok, Except.pure_eq_ok] at h
  obtain ⟨a, ha, h⟩ := h
  cases h; exact ⟨ha, rfl⟩

theorem cm_bind_ok {α β : Type} {m : CM α} {f : α → CM β} {c c' : Ctx} {b : β}
    (h : (m >>= f) c = .ok (.ok b, c')) : ∃ a c1, m c = .ok (.ok a, c1) ∧ f a c1 = .ok (.ok b, c') := by
  rw [bind_apply, Except.bind_eq_ok] at h
  obtain ⟨⟨r, c1⟩, e1, e2⟩ := h
  cases r with
  | error x => cases e2
  | ok a => exact ⟨a, c1, e1, e2⟩

theorem precedenceRelated_nil {v : View} {ids : List CId} : ∀ {l : List (CId × CId)},
    (∀ yc ∈ l, yc.1 ∉ ids ∧ ∃ m' : Mixed, v.read yc.2 = .ok m' ∧
      ∀ xc ∈ m'.iterHandOf .right, xc.1 ∉ ids) → precedenceRelated v ids [] l = .ok [] := by
  intro l
  induction l with
  | nil => intro _; rfl
  | cons yc rest ih =>
    intro h
    obtain ⟨y, comp⟩ := yc
    obtain ⟨h1, m', hm, h2⟩ := h (y, comp) List.mem_cons_self
    unfold precedenceRelated
    have e1 : ids.contains y = false := by
      cases hc : ids.contains y
      · rfl
      · exact absurd (List.contains_iff_mem.mp hc) h1
    have e2 : ((m'.iterHandOf .right).map Prod.fst).filter ids.contains = [] := by
      rw [List.filter_eq_nil_iff]
      intro x hx hc
      obtain ⟨xc, hxc, rfl⟩ := List.mem_map.mp hx
      exact h2 xc hxc (List.contains_iff_mem.mp hc)
    simp only [e1, Bool.false_eq_true, if_false]
    rw [show v.read comp = .ok m' from hm]
    show precedenceRelated v ids (setExtend [] (((m'.iterHandOf .right).map Prod.fst).filter
      ids.contains)) rest = _
    rw [e2]
    exact ih fun yc hyc => h yc (List.mem_cons_of_mem _ hyc)

/-- With no precedence in force, every position has lowest precedence. -/
theorem unranked_positions {ask : CId → CId → CM (Option CCT)} {ts : List Syn} {c c1 : Ctx} {p : CId} {lpSyn : List Syn}
    {lps : List Nat} (hp : View.concreteId ⟨c.snap, c.delta⟩ .precedes = .ok (some p))
    (hu : Unranked ⟨c.snap, c.delta⟩ p ts)
    (h : lowestPrecedenceInfo ask ts c = .ok (.ok (lpSyn, lps), c1)) :
    ∀ i, i ∈ lps ↔ i < ts.length := by
  unfold lowestPrecedenceInfo at h
  simp only at h
  obtain ⟨o, c2, h1, h⟩ := cm_bind_ok h
  obtain ⟨h1, rfl⟩ := reading_gives h1
  rw [hp] at h1
  cases h1
  simp only at h
  obtain ⟨rel, c3, h2, h⟩ := cm_bind_ok h
  obtain ⟨h2, rfl⟩ := reading_gives h2
  obtain ⟨m, hm, hr⟩ := hu
  have hrel : rel = [] := by
    rw [hm] at h2
    have : precedenceRelated ⟨c3.snap, c3.delta⟩ (ts.filterMap Syn.concept) []
        (m.iterHandOf .left) = .ok [] := by
      refine precedenceRelated_nil fun yc hyc => ?_
      obtain ⟨h3, m', hm', h4⟩ := hr yc hyc
      refine ⟨fun hin => ?_, m', hm', fun xc hxc hin => ?_⟩
      · obtain ⟨t, ht, hc⟩ := List.mem_filterMap.mp hin
        exact h3 t ht hc
      · obtain ⟨t, ht, hc⟩ := List.mem_filterMap.mp hin
        exact h4 xc hxc t ht hc
    have h2' : precedenceRelated ⟨c3.snap, c3.delta⟩ (ts.filterMap Syn.concept) []
        (m.iterHandOf .left) = .ok rel := h2
    rw [this] at h2'
    cases h2'; rfl
  subst hrel
  obtain ⟨low, c4, h3, h⟩ := cm_bind_ok h
  have hlow : low = [] := by
    rw [order_nil] at h3
    unfold lowest at h3
    cases h3; rfl
  subst hlow
  simp only [List.isEmpty_nil, if_true] at h
  cases h
  intro i
  rw [mem_heap, List.mem_append, mem_indicesWithout, List.mem_flatMap]
  constructor
  · rintro (⟨j, t, rfl, hj, _⟩ | ⟨id, _, hi⟩)
    · rw [Nat.zero_add]; exact lt_of_getElem? hj
    · obtain ⟨j, t, rfl, hj, _⟩ := (mem_indicesOf _ _ _ _).mp (mem_order.mp hi)
      rw [Nat.zero_add]; exact lt_of_getElem? hj
  · intro hi
    have ht : ts[i]? = some ts[i] := List.getElem?_eq_getElem hi
    cases hc : ts[i].concept with
    | none => exact .inl ⟨i, _, (Nat.zero_add i).symm, ht, hc⟩
    | some id =>
      refine .inr ⟨id, ?_, mem_order.mpr
        ((mem_indicesOf _ _ _ _).mpr ⟨i, _, (Nat.zero_add i).symm, ht, hc⟩)⟩
      rw [List.mem_filter]
      exact ⟨List.mem_filterMap.mpr ⟨_, List.getElem_mem hi, hc⟩, by simp⟩

theorem starts_ge : ∀ {pieces : List (List Syn)} {p i : Nat}, i ∈ starts p pieces → p ≤ i := by
  intro pieces
  induction pieces with
  | nil => intro p i h; cases h
  | cons s ss ih =>
    intro p i h
    rcases List.mem_cons.mp h with rfl | h
    · exact Nat.le_refl _
    · have := ih h; omega

/-- Cutting at every position gives pieces of one expression each. -/
theorem singles : ∀ {pieces : List (List Syn)} {p : Nat}, (∀ s ∈ pieces, s ≠ []) →
    (∀ i, p ≤ i → i < p + pieces.flatten.length → i ∈ starts p pieces) →
    ∀ s ∈ pieces, ∃ x, s = [x] := by
  intro pieces
  induction pieces with
  | nil => intro p _ _ s hs; cases hs
  | cons s ss ih =>
    intro p hne h s' hs'
    have hs := hne s List.mem_cons_self
    match s, hs with
    | [x], _ =>
      rcases List.mem_cons.mp hs' with rfl | hs'
      · exact ⟨x, rfl⟩
      · refine ih (p := p + 1) (fun s hs => hne s (List.mem_cons_of_mem _ hs)) ?_ s' hs'
        intro i h1 h2
        have := h i (by omega) (by
          simp only [List.flatten_cons, List.length_append, List.length_cons, List.length_nil]
          omega)
        rcases List.mem_cons.mp this with rfl | h3
        · omega
        · exact h3
    | x :: y :: rest, _ =>
      exfalso
      have := h (p + 1) (by omega) (by
          simp only [List.flatten_cons, List.length_append, List.length_cons]
          omega)
      rcases List.mem_cons.mp this with h3 | h3
      · omega
      · have := starts_ge h3
        simp only [List.length_cons] at this
        omega

theorem forall₂_singles {pieces : List (List Syn)} {trees : List Syn}
    (h : List.Forall₂ Groups pieces trees) (hs : ∀ s ∈ pieces, ∃ x, s = [x]) :
    pieces.flatten = trees := by
  induction h with
  | nil => rfl
  | cons h1 _ ih =>
    obtain ⟨x, rfl⟩ := hs _ List.mem_cons_self
    rw [List.flatten_cons, ih fun s hs' => hs s (List.mem_cons_of_mem _ hs'),
      Groups.single h1 x rfl]
    rfl

/-- What a list of three or more expressions is cut into. -/
theorem noLeft_cut {ask : CId → CId → CM (Option CCT)} {n k : Nat} {x y z : Syn} {ts : List Syn} {c c' c1 : Ctx} {t : Syn}
    {lpSyn : List Syn} {lps : List Nat}
    (h : astFromListWith ask noLeft (fault .diverge) n (k + 1) (x :: y :: z :: ts) c =
      .ok (.ok t, c'))
    (hl : lowestPrecedenceInfo ask (x :: y :: z :: ts) c = .ok (.ok (lpSyn, lps), c1)) :
    ∃ pieces trees, CutAt lps (x :: y :: z :: ts) pieces ∧ List.Forall₂ Groups pieces trees ∧
      RightNested trees t := by
  rw [astFromListWith_succ] at h
  unfold listBody at h
  obtain ⟨p, c2, h1, h⟩ := cm_bind_ok h
  rw [hl] at h1
  cases h1
  simp only at h
  split at h
  · obtain ⟨_, _, _, h⟩ := cm_bind_ok h
    cases h
  · obtain ⟨a, c3, _, h⟩ := cm_bind_ok h
    cases a with
    | none => cases h
    | some a =>
      cases a with
      | left => cases h
      | right => exact right_case Groups.reading (noLeft_groups ask n k) _ _ _ _ _ h

/-! ## Left associativity -/

/-- The left associative case succeeds only for one symbol, and then returns the tree of what is
before it. -/
theorem leftCase_ok {n : Nat} {parse : List Syn → CM Syn} {ts : List Syn} {lps : List Nat}
    (hs : lps.Pairwise (· ≥ ·)) {c c' : Ctx} {t : Syn}
    (h : leftCase n parse ts lps c = .ok (.ok t, c')) :
    ∃ p, lps = [p] ∧ p ≤ ts.length ∧ parse (ts.take p) c = .ok (.ok t, c') := by
  have hh : ∀ st lp x (c c' : Ctx), handler n parse ts st lp .left c = .ok (.ok x, c') →
      (st.map Prod.snd).getD 0 < lp ∧ lp ≤ ts.length ∧ x.2 = lp ∧
        (st = none → parse (ts.take lp) c = .ok (.ok x.1, c')) := by
    intro st lp x c c' hc
    unfold handler at hc
    obtain ⟨slice, c1, h0, h⟩ := cm_bind_ok hc
    clear hc
    have h1 : (Assoc.left.sliceTokens ts (st.map Prod.snd) lp) = .ok slice ∧ c1 = c := by
      simp only [CM.ofE, Except.bind_eq_ok, Except.pure_eq_ok] at h0
      obtain ⟨a, ha, h⟩ := h0
      cases h; exact ⟨ha, rfl⟩
    clear h0
    obtain ⟨h1, rfl⟩ := h1
    obtain ⟨h2, h3, hsl⟩ := slice_ok (show Assoc.slice ts _ lp = .ok slice from h1)
    split at h
    · cases h
    · rename_i hne
      have hne : 0 < slice.length := by
        cases slice with
        | nil => exact absurd rfl hne
        | cons => simp
      have hl : slice.length = lp - (st.map Prod.snd).getD 0 := by
        rw [hsl, List.length_drop, List.length_take]; omega
      obtain ⟨t, c2, h4, h⟩ := cm_bind_ok h
      refine ⟨by omega, h3, ?_, ?_⟩
      · cases st with
        | none => cases h; rfl
        | some ep =>
          obtain ⟨u, c3, _, h⟩ := cm_bind_ok h
          cases h; rfl
      · rintro rfl
        cases h
        unfold sliceAst at h4
        simp only at h4
        rw [if_neg (by omega)] at h4
        rw [hsl] at h4
        simpa using h4
  unfold leftCase at h
  obtain ⟨st, c1, h1, h⟩ := cm_bind_ok h
  match lps, hs, h1 with
  | [], _, h1 =>
    rw [heapIter] at h1
    unfold leftLoop at h1
    cases h1
    cases h
  | [p], _, h1 =>
    rw [heapIter, order_nil] at h1
    unfold leftLoop at h1
    obtain ⟨x, c2, h2, h1⟩ := cm_bind_ok h1
    unfold leftLoop at h1
    cases h1
    cases h
    obtain ⟨_, h3, _, h4⟩ := hh _ _ _ _ _ h2
    exact ⟨p, rfl, h3, h4 rfl⟩
  | p :: q :: rest, hs, h1 =>
    exfalso
    rw [heapIter] at h1
    unfold leftLoop at h1
    obtain ⟨x, c2, h2, h1⟩ := cm_bind_ok h1
    obtain ⟨q', rest', ho⟩ := List.exists_cons_of_ne_nil (l := order (q :: rest))
      (fun e => by cases order_eq_nil.mp e)
    rw [ho] at h1
    unfold leftLoop at h1
    obtain ⟨y, c3, h3, _⟩ := cm_bind_ok h1
    obtain ⟨_, _, hx, _⟩ := hh _ _ _ _ _ h2
    obtain ⟨hy, _, _, _⟩ := hh _ _ _ _ _ h3
    have hpq : q' ≤ p := (List.pairwise_cons.mp hs).1 q'
      (mem_order.mp (by rw [ho]; exact List.mem_cons_self))
    simp only [Option.map_some, Option.getD_some] at hy
    omega

/-! ## Checking that a list is unranked -/

/-- `Unranked` as a computation. -/
def unrankedCheck (v : View) (p : CId) (ts : List Syn) : Bool :=
  match v.read p with
  | .error _ => false
  | .ok m => (m.iterHandOf .left).all fun yc => ts.all (fun t => t.concept ≠ some yc.1) &&
    match v.read yc.2 with
    | .error _ => false
    | .ok m' => (m'.iterHandOf .right).all fun xc => ts.all (fun t => t.concept ≠ some xc.1)

theorem unranked_of_check {v : View} {p : CId} {ts : List Syn} (h : unrankedCheck v p ts = true) :
    Unranked v p ts := by
  unfold unrankedCheck at h
  split at h
  · cases h
  · rename_i m hm
    refine ⟨m, hm, fun yc hyc => ?_⟩
    have h1 := List.all_eq_true.mp h yc hyc
    rw [Bool.and_eq_true] at h1
    obtain ⟨h1, h2⟩ := h1
    refine ⟨fun t ht => by simpa using List.all_eq_true.mp h1 t ht, ?_⟩
    split at h2
    · cases h2
    · rename_i m' hm'
      exact ⟨m', hm', fun xc hxc t ht => by
        simpa using List.all_eq_true.mp (List.all_eq_true.mp h2 xc hxc) t ht⟩

/-- Occurrences of one symbol are treated alike. -/
theorem lowest_closed (ask : CId → CId → CM (Option CCT)) (ts : List Syn) :
    Gives (lowestPrecedenceInfo ask ts) (fun x => ∀ i ∈ x.2, ∀ j t u id, ts[i]? = some t →
      t.concept = some id → ts[j]? = some u → u.concept = some id → j ∈ x.2) := by
  have hidx : ∀ (l : List CId) (i j : Nat) t u id, i ∈ l.flatMap (fun i => order (indicesOf i 0 ts)) →
      ts[i]? = some t → t.concept = some id → ts[j]? = some u → u.concept = some id →
      j ∈ l.flatMap (fun i => order (indicesOf i 0 ts)) := by
    intro l i j t u id hi ht htc hu huc
    obtain ⟨id', hid', hi⟩ := List.mem_flatMap.mp hi
    obtain ⟨j', t', hj', hj, hc⟩ := (mem_indicesOf _ _ _ _).mp (mem_order.mp hi)
    rw [Nat.zero_add] at hj'
    subst hj'
    rw [hj] at ht
    cases ht
    rw [htc] at hc
    cases hc
    exact List.mem_flatMap.mpr ⟨id, hid', mem_order.mpr ((mem_indicesOf _ _ _ _).mpr
      ⟨j, u, (Nat.zero_add j).symm, hu, huc⟩)⟩
  unfold lowestPrecedenceInfo
  refine Gives.bind (Gives.any _) fun o _ => ?_
  cases o with
  | none => exact Gives.fault
  | some p =>
    refine Gives.bind (Gives.any _) fun rel _ => Gives.bind (Gives.any _) fun low _ => ?_
    split
    · refine Gives.pure fun i hi j t u id ht htc hu huc => ?_
      rw [mem_heap, List.mem_append] at hi ⊢
      rcases hi with hi | hi
      · obtain ⟨j', t', hj', hj, hc⟩ := (mem_indicesWithout _ _ _).mp hi
        rw [Nat.zero_add] at hj'
        subst hj'
        rw [hj] at ht
        cases ht
        rw [htc] at hc
        cases hc
      · exact .inr (hidx _ i j t u id hi ht htc hu huc)
    · refine Gives.pure fun i hi j t u id ht htc hu huc => ?_
      rw [mem_heap] at hi ⊢
      exact hidx _ i j t u id hi ht htc hu huc

end Zia

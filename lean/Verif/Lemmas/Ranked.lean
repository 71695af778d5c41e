import Verif.Lemmas.Parse

/-!
# Reading lists by precedence
-/

namespace Zia

open CM Zia.Parser Spec HashOrder

set_option linter.unusedSectionVars false

variable [HashOrder]

/-! ## Runs from contexts with a property -/

/-- Every successful run that starts in a context satisfying `I` returns a value satisfying `Q` and ends
in a context satisfying `I`. -/
def From {α : Type} (I : Ctx → Prop) (m : CM α) (Q : α → Prop) : Prop :=
  ∀ c, I c → ∀ a c', m c = .ok (.ok a, c') → Q a ∧ I c'

namespace From

variable {α β : Type} {I : Ctx → Prop} {Q : β → Prop}

theorem bind {P : α → Prop} {m : CM α} {f : α → CM β} (h : From I m P)
    (hf : ∀ a, P a → From I (f a) Q) : From I (m >>= f) Q := by
  intro c hc b c' e
  obtain ⟨a, c1, e1, e2⟩ := cm_bind_ok e
  obtain ⟨ha, hc1⟩ := h c hc a c1 e1
  exact hf a ha c1 hc1 b c' e2

theorem pure {b : β} (h : Q b) : From I (Pure.pure b) Q := by
  intro c hc b c' e; cases e; exact ⟨h, hc⟩

theorem throw {e : ZiaError} : From I (MonadExcept.throw e : CM β) Q := by
  intro c hc b c' e; cases e

theorem fault {f : Fault} : From I (CM.fault f : CM β) Q := by
  intro c hc b c' e; cases e

theorem mono {P : β → Prop} {m : CM β} (h : From I m P) (hPQ : ∀ b, P b → Q b) : From I m Q :=
  fun c hc b c' e => ⟨hPQ b (h c hc b c' e).1, (h c hc b c' e).2⟩

theorem ofE {x : Except Fault β} (h : ∀ b, x = .ok b → Q b) : From I (CM.ofE x) Q := by
  intro c hc b c' e
  simp only [CM.ofE, Except.bind_eq_ok, Except.pure_eq_ok] at e
  obtain ⟨a, ha, e⟩ := e
  cases e
  exact ⟨h _ ha, hc⟩

theorem and {P : β → Prop} {m : CM β} (h : From I m P) (hg : Gives m Q) :
    From I m (fun b => P b ∧ Q b) :=
  fun c hc b c' e => ⟨⟨(h c hc b c' e).1, hg c b c' e⟩, (h c hc b c' e).2⟩

end From

/-- The context has the given store. -/
def Has (v : View) (c : Ctx) : Prop := (⟨c.snap, c.delta⟩ : View) = v

section

variable {v : View} {β : Type}

theorem From.searching (f : Env → SM β) : From (Has v) (CM.searching f) (fun _ => True) := by
  intro c hc b c' e
  simp only [CM.searching, Except.bind_eq_ok, Except.pure_eq_ok] at e
  obtain ⟨⟨a, ca⟩, _, e⟩ := e
  cases e
  exact ⟨trivial, hc⟩

theorem From.combine {n : Nat} {l r : Syn} :
    From (Has v) (CM.searching fun e => (search n).combine e l r)
      (fun t => t.expansion = some (l, r)) :=
  ((From.searching _).and Gives.combine).mono fun _ h => h.2

theorem From.reading {f : View → Except Fault β} : From (Has v) (CM.reading f) (fun b => f v = .ok b) := by
  intro c hc b c' e
  obtain ⟨h, rfl⟩ := reading_gives e
  rw [show (⟨c'.snap, c'.delta⟩ : View) = v from hc] at h
  exact ⟨h, hc⟩

/-! ## Which symbols are lowest -/

theorem guarded_agrees (ρ : CId → Nat) (n : Nat) (a b : CId) :
    SameOk (guarded ρ n a b) (precedes n a b) := by
  intro c r c' h
  unfold guarded at h
  obtain ⟨r', c1, h1, h⟩ := cm_bind_ok h
  split at h
  · cases h; exact h1
  · cases h

theorem guarded_from (ρ : CId → Nat) (n : Nat) (a b : CId) :
    From (Has v) (guarded ρ n a b) (fun r => r = some .tru ↔ ρ b < ρ a) := by
  unfold guarded
  refine From.bind (From.searching _) fun r _ => ?_
  split
  · rename_i h; exact From.pure h
  · exact From.throw

/-- Answers that agree with ranks. -/
def Honest (v : View) (ρ : CId → Nat) (ask : CId → CId → CM (Option CCT)) : Prop :=
  ∀ a b, From (Has v) (ask a b) (fun r => r = some .tru ↔ ρ b < ρ a)

variable {ρ : CId → Nat} {ask : CId → CId → CM (Option CCT)}

theorem rankStep_from (h : Honest v ρ ask) (c l : CId) : From (Has v) (rankStep ask c l)
    (fun r => match r with
      | some .skip => ρ l < ρ c
      | some .replace => ρ c < ρ l
      | some .add => ρ c = ρ l
      | none => ρ c = ρ l) := by
  unfold rankStep
  refine From.bind (h c l) fun r hr => ?_
  have key : ∀ r', r ≠ some .tru → (r' = some CCT.tru ↔ ρ c < ρ l) → r' ≠ some .tru → ρ c = ρ l := by
    intro r' h1 h2 h3
    have h1 : ¬ ρ l < ρ c := fun h => h1 (hr.mpr h)
    have h3 : ¬ ρ c < ρ l := fun h => h3 (h2.mpr h)
    omega
  have un : r ≠ some .tru → From (Has v) (ask l c >>= rankStep.unknown)
      (fun r => match r with
      | some .skip => ρ l < ρ c
      | some .replace => ρ c < ρ l
      | some .add => ρ c = ρ l
      | none => ρ c = ρ l) := by
    intro hne
    refine From.bind (h l c) fun r' hr' => ?_
    unfold rankStep.unknown
    split
    · exact From.pure (hr'.mp rfl)
    · exact From.pure (key _ hne hr' (by simp))
    · exact From.pure (key _ hne hr' (by simp))
    · exact From.pure (key _ hne hr' (by simp))
    · exact From.fault
  split
  · exact From.pure (hr.mp rfl)
  · refine From.bind (h l c) fun r' hr' => ?_
    split
    · exact From.pure (hr'.mp rfl)
    · exact From.pure (key _ (by simp) hr' (by simp))
    · exact From.pure (key _ (by simp) hr' (by simp))
    · exact From.pure (key _ (by simp) hr' (by simp))
    · exact From.fault
  · exact un (by simp)
  · exact un (by simp)
  · exact From.fault

theorem rank_from (h : Honest v ρ ask) (c : CId) (ls : List CId) : From (Has v) (rank ask c ls)
    (fun r => match r with
      | .skip => ∃ l ∈ ls, ρ l < ρ c
      | .replace => ∃ l ∈ ls, ρ c < ρ l
      | .add => ls = [] ∨ ∃ l ∈ ls, ρ c = ρ l) := by
  induction ls with
  | nil => unfold rank; exact From.pure (.inl rfl)
  | cons l ls ih =>
    unfold rank
    refine From.bind (rankStep_from h c l) fun r hr => ?_
    cases r with
    | none =>
      refine ih.mono fun r hr' => ?_
      cases r with
      | skip => obtain ⟨l', h1, h2⟩ := hr'; exact ⟨l', List.mem_cons_of_mem _ h1, h2⟩
      | replace => obtain ⟨l', h1, h2⟩ := hr'; exact ⟨l', List.mem_cons_of_mem _ h1, h2⟩
      | add => exact .inr ⟨l, List.mem_cons_self, hr⟩
    | some x =>
      refine From.pure ?_
      cases x with
      | skip => exact ⟨l, List.mem_cons_self, hr⟩
      | replace => exact ⟨l, List.mem_cons_self, hr⟩
      | add => exact .inr ⟨l, List.mem_cons_self, hr⟩

/-- The concepts of lowest precedence are those of least rank. -/
theorem lowest_from (h : Honest v ρ ask) (cs : List CId) : ∀ acc : List CId,
    (∀ a ∈ acc, ∀ b ∈ acc, ρ a = ρ b) → From (Has v) (lowest ask acc cs)
      (fun low => ∀ id, id ∈ low ↔ (id ∈ acc ∨ id ∈ cs) ∧ ∀ id', id' ∈ acc ∨ id' ∈ cs → ρ id ≤ ρ id') := by
  induction cs with
  | nil =>
    intro acc hacc
    unfold lowest
    refine From.pure fun id => ?_
    simp only [List.not_mem_nil, or_false]
    exact ⟨fun h => ⟨h, fun id' h' => Nat.le_of_eq (hacc _ h _ h')⟩, fun h => h.1⟩
  | cons c cs ih =>
    intro acc hacc
    unfold lowest
    refine From.bind (rank_from h c (order acc)) fun r hr => ?_
    cases r with
    | skip =>
      obtain ⟨l, hl, hlt⟩ := hr
      rw [mem_order] at hl
      refine (ih acc hacc).mono fun low hlow id => ?_
      rw [hlow]
      constructor
      · rintro ⟨h1, h2⟩
        refine ⟨by simp only [List.mem_cons]; tauto, fun id' h' => ?_⟩
        rcases h' with h' | h'
        · exact h2 _ (.inl h')
        · rcases List.mem_cons.mp h' with rfl | h'
          · exact Nat.le_trans (h2 l (.inl hl)) (Nat.le_of_lt hlt)
          · exact h2 _ (.inr h')
      · rintro ⟨h1, h2⟩
        refine ⟨?_, fun id' h' => h2 id' (by simp only [List.mem_cons]; tauto)⟩
        rcases h1 with h1 | h1
        · exact .inl h1
        · rcases List.mem_cons.mp h1 with rfl | h1
          · exact absurd (h2 l (.inl hl)) (by omega)
          · exact .inr h1
    | replace =>
      obtain ⟨l, hl, hlt⟩ := hr
      rw [mem_order] at hl
      refine (ih [c] (by simp)).mono fun low hlow id => ?_
      rw [hlow]
      simp only [List.mem_cons, List.not_mem_nil, or_false]
      constructor
      · rintro ⟨h1, h2⟩
        refine ⟨.inr h1, fun id' h' => ?_⟩
        rcases h' with h' | h'
        · have := hacc _ hl _ h'
          have := h2 c (.inl rfl)
          omega
        · exact h2 _ h'
      · rintro ⟨h1, h2⟩
        refine ⟨?_, fun id' h' => h2 id' (.inr h')⟩
        rcases h1 with h1 | h1
        · have := hacc _ hl _ h1
          have := h2 c (.inr (.inl rfl))
          omega
        · exact h1
    | add =>
      have heq : ∀ a ∈ acc, ρ a = ρ c := by
        intro a ha
        rcases hr with hr | ⟨l, hl, hlt⟩
        · rw [order_eq_nil] at hr; subst hr; cases ha
        · rw [mem_order] at hl
          rw [hlt]; exact hacc _ ha _ hl
      refine (ih (setInsert acc c) ?_).mono fun low hlow id => ?_
      · intro a ha b hb
        rw [mem_setInsert] at ha hb
        rcases ha with ha | rfl <;> rcases hb with hb | rfl
        · exact hacc _ ha _ hb
        · exact heq _ ha
        · exact (heq _ hb).symm
        · rfl
      · rw [hlow]
        simp only [mem_setInsert, List.mem_cons]
        constructor
        · rintro ⟨h1, h2⟩
          exact ⟨by tauto, fun id' h' => h2 id' (by tauto)⟩
        · rintro ⟨h1, h2⟩
          exact ⟨by tauto, fun id' h' => h2 id' (by tauto)⟩

theorem commonAssoc_from (n : Nat) : ∀ (a : Option Assoc) (l : List Syn),
    From (Has v) (commonAssoc n a l) (fun _ => True) := by
  intro a l
  induction l generalizing a with
  | nil => unfold commonAssoc; exact From.pure trivial
  | cons t ts ih =>
    unfold commonAssoc
    refine From.bind (From.searching _) fun x _ => ?_
    split
    · exact ih _
    · split
      · exact ih _
      · exact From.bind (From.ofE (Q := fun _ => True) fun _ _ => trivial) fun _ _ => From.throw

/-! ## Which positions are lowest -/

theorem mem_precedenceRelated {ids : List CId} : ∀ {l : List (CId × CId)} {acc rel : List CId},
    precedenceRelated v ids acc l = .ok rel → ∀ id, id ∈ rel ↔ id ∈ acc ∨ id ∈ ids ∧
      ∃ yc ∈ l, id = yc.1 ∨ ∃ m' : Mixed, v.read yc.2 = .ok m' ∧
        ∃ xc ∈ m'.iterHandOf .right, id = xc.1 := by
  intro l
  induction l with
  | nil => intro acc rel h id; cases h; simp
  | cons yc rest ih =>
    obtain ⟨y, comp⟩ := yc
    intro acc rel h0 id
    unfold precedenceRelated at h0
    simp only [Except.bind_eq_ok] at h0
    obtain ⟨m, hm, h0⟩ := h0
    rw [ih h0, mem_setExtend, List.mem_filter]
    have h1 : id ∈ (if ids.contains y then setInsert acc y else acc) ↔ id ∈ acc ∨ id ∈ ids ∧ id = y := by
      split
      · rename_i hc
        rw [List.contains_iff_mem] at hc
        rw [mem_setInsert]
        constructor
        · rintro (h | rfl)
          · exact .inl h
          · exact .inr ⟨hc, rfl⟩
        · rintro (h | ⟨_, rfl⟩)
          · exact .inl h
          · exact .inr rfl
      · rename_i hc
        rw [List.contains_iff_mem] at hc
        constructor
        · exact .inl
        · rintro (h | ⟨h, rfl⟩)
          · exact h
          · exact absurd h hc
    rw [h1]
    clear h0 h1
    constructor
    · rintro (((h | ⟨h, rfl⟩) | ⟨h, hc⟩) | ⟨h, yc, hyc, h'⟩)
      · exact .inl h
      · exact .inr ⟨h, (id, comp), List.mem_cons_self, .inl rfl⟩
      · obtain ⟨xc, hxc, rfl⟩ := List.mem_map.mp h
        exact .inr ⟨List.contains_iff_mem.mp hc, (y, comp), List.mem_cons_self,
          .inr ⟨m, hm, xc, hxc, rfl⟩⟩
      · exact .inr ⟨h, yc, List.mem_cons_of_mem _ hyc, h'⟩
    · rintro (h | ⟨h, yc, hyc, h'⟩)
      · exact .inl (.inl (.inl h))
      · rcases List.mem_cons.mp hyc with rfl | hyc
        · rcases h' with rfl | ⟨m', hm', xc, hxc, rfl⟩
          · exact .inl (.inl (.inr ⟨h, rfl⟩))
          · rw [hm] at hm'
            cases hm'
            exact .inl (.inr ⟨List.mem_map.mpr ⟨xc, hxc, rfl⟩, List.contains_iff_mem.mpr h⟩)
        · exact .inr ⟨h, yc, hyc, h'⟩

theorem exists_min (ρ : CId → Nat) : ∀ {l : List CId} {x : CId}, x ∈ l →
    ∃ a ∈ l, ∀ b ∈ l, ρ a ≤ ρ b := by
  intro l
  induction l with
  | nil => intro x h; cases h
  | cons x xs ih =>
    intro _ _
    cases xs with
    | nil => exact ⟨x, by simp, by simp⟩
    | cons y ys =>
      obtain ⟨a, ha, hmin⟩ := ih List.mem_cons_self
      rcases Nat.le_total (ρ x) (ρ a) with hle | hle
      · refine ⟨x, List.mem_cons_self, fun b hb => ?_⟩
        rcases List.mem_cons.mp hb with rfl | hb
        · exact Nat.le_refl _
        · exact Nat.le_trans hle (hmin b hb)
      · refine ⟨a, List.mem_cons_of_mem _ ha, fun b hb => ?_⟩
        rcases List.mem_cons.mp hb with rfl | hb
        · exact hle
        · exact hmin b hb

theorem positions_from {p : CId} (hp : v.concreteId .precedes = .ok (some p)) (h : Honest v ρ ask)
    (ts : List Syn) : From (Has v) (lowestPrecedenceInfo ask ts)
      (fun x => ∀ i, i ∈ x.2 ↔ ∃ t, ts[i]? = some t ∧ Lowest v p ρ ts t) := by
  unfold lowestPrecedenceInfo
  refine From.bind From.reading fun o ho => ?_
  rw [hp] at ho
  cases ho
  refine From.bind From.reading fun rel hrel0 => ?_
  simp only [Except.bind_eq_ok] at hrel0
  obtain ⟨m, hm, hrel0⟩ := hrel0
  have hrel : ∀ id, id ∈ rel ↔ id ∈ ts.filterMap Syn.concept ∧ Ranked v p id := by
    intro id
    rw [mem_precedenceRelated hrel0]
    simp only [List.not_mem_nil, false_or]
    refine and_congr_right fun _ => ?_
    constructor
    · intro h; exact ⟨m, hm, h⟩
    · rintro ⟨m', hm', h⟩
      rw [hm] at hm'
      cases hm'
      exact h
  refine From.bind (lowest_from h (order rel) [] (by simp)) fun low hlow => ?_
  have hlow : ∀ id, id ∈ low ↔ id ∈ rel ∧ ∀ id' ∈ rel, ρ id ≤ ρ id' := by
    intro id
    rw [hlow]
    simp only [List.not_mem_nil, false_or, mem_order]
  have hin : ∀ u ∈ ts, ∀ id, u.concept = some id → (id ∈ rel ↔ Ranked v p id) := by
    intro u hu id hid
    rw [hrel]
    exact ⟨fun h => h.2, fun h => ⟨List.mem_filterMap.mpr ⟨u, hu, hid⟩, h⟩⟩
  split
  · rename_i hemp
    have hemp : low = [] := by simpa using hemp
    have hnone : rel = [] := by
      refine List.eq_nil_iff_forall_not_mem.mpr fun id hid => ?_
      obtain ⟨a, ha, hmin⟩ := exists_min ρ hid
      have := (hlow a).mpr ⟨ha, hmin⟩
      rw [hemp] at this
      cases this
    have hall : ∀ u ∈ ts, ∀ id', u.concept = some id' → ¬ Ranked v p id' := by
      intro u hu id' hid' hr
      have := (hin u hu id' hid').mpr hr
      rw [hnone] at this
      cases this
    refine From.pure fun i => ?_
    subst hnone
    rw [mem_heap, List.mem_append, mem_indicesWithout, List.mem_flatMap]
    constructor
    · rintro (⟨j, t, rfl, hj, _⟩ | ⟨id, _, hi⟩)
      · rw [Nat.zero_add]; exact ⟨t, hj, .inr hall⟩
      · obtain ⟨j, t, rfl, hj, _⟩ := (mem_indicesOf _ _ _ _).mp (mem_order.mp hi)
        rw [Nat.zero_add]; exact ⟨t, hj, .inr hall⟩
    · rintro ⟨t, ht, _⟩
      cases hc : t.concept with
      | none => exact .inl ⟨i, _, (Nat.zero_add i).symm, ht, hc⟩
      | some id =>
        refine .inr ⟨id, ?_, mem_order.mpr
          ((mem_indicesOf _ _ _ _).mpr ⟨i, _, (Nat.zero_add i).symm, ht, hc⟩)⟩
        rw [List.mem_filter]
        exact ⟨List.mem_filterMap.mpr ⟨_, List.mem_of_getElem? ht, hc⟩, by simp⟩
  · rename_i hemp
    obtain ⟨a, ha⟩ : ∃ a, a ∈ low := List.exists_mem_of_ne_nil _ (by simpa using hemp)
    refine From.pure fun i => ?_
    rw [mem_heap, List.mem_flatMap]
    constructor
    · rintro ⟨id, hid, hi⟩
      obtain ⟨j, t, rfl, hj, hc⟩ := (mem_indicesOf _ _ _ _).mp (mem_order.mp hi)
      obtain ⟨h1, h2⟩ := (hlow id).mp (mem_order.mp hid)
      rw [Nat.zero_add]
      refine ⟨t, hj, .inl ⟨id, hc, ((hrel id).mp h1).2, fun u hu id' hid' hr => ?_⟩⟩
      exact h2 id' ((hin u hu id' hid').mpr hr)
    · rintro ⟨t, ht, hl⟩
      rcases hl with ⟨id, hc, hr, hmin⟩ | hnone
      · refine ⟨id, mem_order.mpr ((hlow id).mpr ⟨?_, fun id' h' => ?_⟩), mem_order.mpr
          ((mem_indicesOf _ _ _ _).mpr ⟨i, t, (Nat.zero_add i).symm, ht, hc⟩)⟩
        · exact (hin t (List.mem_of_getElem? ht) id hc).mpr hr
        · obtain ⟨h1, h2⟩ := (hrel id').mp h'
          obtain ⟨u, hu, huc⟩ := List.mem_filterMap.mp h1
          exact hmin u hu id' huc h2
      · exfalso
        obtain ⟨h1, h2⟩ := (hrel a).mp ((hlow a).mp ha).1
        obtain ⟨u, hu, huc⟩ := List.mem_filterMap.mp h1
        exact hnone u hu a huc h2

/-! ## The right associative case -/

/-- What a piece is read as: by the list parser, or, if it starts with an expression of lowest
precedence, as that applied to the reading of the rest. -/
def Slice (now : Syn → Prop) (G : List Syn → Syn → Prop) (s : List Syn) (t : Syn) : Prop :=
  G s t ∨ ∃ x rs r, s = x :: rs ∧ now x ∧ t.expansion = some (x, r) ∧ G rs r

variable {G : List Syn → Syn → Prop} {now : Syn → Prop}

theorem sliceAst_from (hG : ∀ t, G [t] t) {n : Nat} {parse : List Syn → CM Syn}
    (hp : ∀ l, From (Has v) (parse l) (G l)) (slice : List Syn) (lp : Nat)
    (hnow : ∀ x, slice[0]? = some x → now x) :
    From (Has v) (sliceAst n parse slice lp .right) (Slice now G slice) := by
  unfold sliceAst
  simp only
  split
  · split
    · exact From.fault
    · rename_i e he
      obtain ⟨rs, rfl⟩ : ∃ rs, slice = e :: rs := by
        cases slice with
        | nil => cases he
        | cons x xs => cases he; exact ⟨xs, rfl⟩
      split
      · rename_i h1
        have : rs = [] := by simpa using h1
        subst this
        exact From.pure (.inl (hG e))
      · split
        · rename_i h
          cases h
          exact From.bind (P := fun r => G _ r) (From.pure (hG _)) fun r hr =>
            From.combine.mono fun t ht => .inr ⟨_, _, r, rfl, hnow _ rfl, ht, hr⟩
        · exact From.bind (P := fun r => G rs r) (hp _) fun r hr =>
            From.combine.mono fun t ht => .inr ⟨_, _, r, rfl, hnow _ rfl, ht, hr⟩
  · exact (hp _).mono fun t ht => .inl ht

theorem handler_from (hG : ∀ t, G [t] t) {n : Nat} {parse : List Syn → CM Syn}
    (hp : ∀ l, From (Has v) (parse l) (G l)) (ts : List Syn)
    (st : Option (Syn × Nat)) (done : List Nat) (lp : Nat) (hnow : ∀ x, ts[lp]? = some x → now x)
    (hst : Split? (Slice now G) ts st done) :
    From (Has v) (handler n parse ts st lp .right)
      (fun x => x.2 = lp ∧ Split (Slice now G) ts lp x.1 (lp :: done)) := by
  unfold handler
  refine From.bind (From.ofE fun _ h => h) fun slice hs => ?_
  obtain ⟨h1, h2, hsl⟩ := slice_ok (show Assoc.slice ts lp _ = .ok slice from hs)
  split
  · exact From.throw
  · rename_i hne
    have hne : slice ≠ [] := by rintro rfl; exact hne rfl
    have hhead : ∀ x, slice[0]? = some x → now x := by
      intro x hx
      refine hnow x ?_
      rw [hsl, List.getElem?_drop, Nat.add_zero, List.getElem?_take] at hx
      split at hx
      · exact hx
      · cases hx
    refine From.bind (sliceAst_from hG hp slice lp hhead) fun t ht => ?_
    cases st with
    | none =>
      cases hst
      refine From.pure ⟨rfl, by simp only [Option.map_none, Option.getD_none] at h1; omega,
        [slice], [t], ?_, ?_, ?_, RightNested.one t, rfl⟩
      · rw [hsl]; simp
      · simpa using hne
      · exact .cons ht .nil
    | some ep =>
      obtain ⟨e, p⟩ := ep
      obtain ⟨hpl, pieces, trees, hf, hn, hG2, hr, hd⟩ := hst
      simp only [Option.map_some, Option.getD_some] at h1 h2 hsl
      refine From.bind From.combine fun t' ht' => From.pure ⟨rfl, by omega,
        slice :: pieces, t :: trees, ?_, ?_, .cons ht hG2, RightNested.cons ht' hr, ?_⟩
      · rw [List.flatten_cons, hf, hsl, ← drop_split h1]
      · intro s hs
        rcases List.mem_cons.mp hs with rfl | hs
        · exact hne
        · exact hn s hs
      · rw [starts, ← hd, hsl]
        have : ((ts.take p).drop lp).length = p - lp := by
          rw [List.length_drop, List.length_take]; omega
        rw [this]
        have : lp + (p - lp) = p := by omega
        rw [this]

theorem rightLoop_from (hG : ∀ t, G [t] t) {n : Nat} {parse : List Syn → CM Syn}
    (hp : ∀ l, From (Has v) (parse l) (G l)) (ts : List Syn) (lps : List Nat)
    (hnow : ∀ i ∈ lps, ∀ x, ts[i]? = some x → now x) :
    ∀ (st : Option (Syn × Nat)) (done : List Nat), Split? (Slice now G) ts st done →
      From (Has v) (rightLoop n parse ts st lps)
        (fun st' => ∃ done', Split? (Slice now G) ts st' done' ∧
          ∀ i, i ∈ done' ↔ i ∈ done ∨ i ∈ lps) := by
  induction lps with
  | nil =>
    intro st done h
    unfold rightLoop
    exact From.pure ⟨done, h, by simp⟩
  | cons lp rest ih =>
    have ih := ih fun i hi => hnow i (List.mem_cons_of_mem _ hi)
    intro st done h
    unfold rightLoop
    split
    · rename_i heq
      refine (ih st done h).mono ?_
      rintro st' ⟨done', h', hm⟩
      refine ⟨done', h', fun i => ?_⟩
      rw [hm, List.mem_cons]
      have : lp ∈ done := by
        cases st with
        | none => cases heq
        | some ep =>
          obtain ⟨e, p⟩ := ep
          cases heq
          obtain ⟨_, pieces, trees, _, _, h2, hr, hd⟩ := h
          cases h2 with
          | nil => exact absurd rfl (RightNested.ne_nil hr)
          | cons => rw [← hd]; exact List.mem_cons_self
      constructor
      · rintro (h | h)
        · exact .inl h
        · exact .inr (.inr h)
      · rintro (h | rfl | h)
        · exact .inl h
        · exact .inl this
        · exact .inr h
    · refine From.bind (handler_from hG hp ts st done lp (hnow lp List.mem_cons_self) h) ?_
      rintro ⟨e, p⟩ ⟨hp', hs⟩
      cases hp'
      refine (ih (some (e, p)) (p :: done) hs).mono ?_
      rintro st' ⟨done', h', hm⟩
      refine ⟨done', h', fun i => ?_⟩
      rw [hm]
      simp only [List.mem_cons]
      tauto

/-- The right associative case as a whole. -/
theorem right_from (hG : ∀ t, G [t] t) {n : Nat} {parse : List Syn → CM Syn}
    (hp : ∀ l, From (Has v) (parse l) (G l)) (ts : List Syn) (lps : List Nat)
    (hnow : ∀ i ∈ lps, ∀ x, ts[i]? = some x → now x) :
    From (Has v) (do
        match ← rightLoop n parse ts none lps with
        | none => throw .ambiguousExpression
        | some (tail, 0) => return tail
        | some (tail, min) => do
          let head ← parse (ts.take min)
          searching (fun e => (search n).combine e head tail))
      (fun t => ∃ pieces trees, CutAt lps ts pieces ∧ List.Forall₂ (Slice now G) pieces trees ∧
        RightNested trees t) := by
  refine From.bind (rightLoop_from hG hp ts lps hnow none [] rfl) ?_
  rintro st ⟨done, hs, hm⟩
  cases st with
  | none => exact From.throw
  | some ep =>
    obtain ⟨e, p⟩ := ep
    obtain ⟨hpl, pieces, trees, hf, hn, hG2, hr, hd⟩ := hs
    cases p with
    | zero =>
      refine From.pure ⟨pieces, trees, ⟨by simpa using hf, hn, fun i => ?_⟩, hG2, hr⟩
      rw [hd, hm]
      simp only [List.not_mem_nil, false_or]
      have : 0 ∈ done := by
        cases hG2 with
        | nil => exact absurd rfl (RightNested.ne_nil hr)
        | cons => rw [← hd]; exact List.mem_cons_self
      constructor
      · exact .inr
      · rintro (rfl | h)
        · simpa using (hm 0).mp this
        · exact h
    | succ p =>
      refine From.bind (hp _) fun head hh => From.combine.mono fun t ht =>
        ⟨ts.take (p + 1) :: pieces, head :: trees, ⟨?_, ?_, fun i => ?_⟩, .cons (.inl hh) hG2,
          RightNested.cons ht hr⟩
      · rw [List.flatten_cons, hf, List.take_append_drop]
      · intro s hs
        rcases List.mem_cons.mp hs with rfl | hs
        · intro h
          have := congrArg List.length h
          rw [List.length_take, List.length_nil] at this
          omega
        · exact hn s hs
      · rw [starts, List.length_take, Nat.min_eq_left hpl, Nat.zero_add, hd, List.mem_cons, hm]
        simp

/-! ## From pieces to readings -/

/-- No expression of lowest precedence is inside a piece. -/
theorem inside_piece : ∀ {pieces : List (List Syn)} {p : Nat}, (∀ s ∈ pieces, s ≠ []) →
    ∀ x rs, x :: rs ∈ pieces → ∀ y ∈ rs, ∃ q, p ≤ q ∧ pieces.flatten[q - p]? = some y ∧
      q ∉ starts p pieces := by
  intro pieces
  induction pieces with
  | nil => intro p _ x rs h; cases h
  | cons s ss ih =>
    intro p hne x rs hm y hy
    rcases List.mem_cons.mp hm with rfl | hm
    · obtain ⟨i, hi⟩ := List.mem_iff_getElem?.mp hy
      have hlt : i < rs.length := by
        rcases Nat.lt_or_ge i rs.length with h | h
        · exact h
        · rw [List.getElem?_eq_none h] at hi; cases hi
      refine ⟨p + (i + 1), by omega, ?_, fun h => ?_⟩
      · rw [List.flatten_cons, show p + (i + 1) - p = i + 1 by omega, List.cons_append,
          List.getElem?_cons_succ, List.getElem?_append_left hlt]
        exact hi
      · rw [starts] at h
        rcases List.mem_cons.mp h with h | h
        · omega
        · have := starts_ge h
          rw [List.length_cons] at this
          omega
    · obtain ⟨q, h1, h2, h3⟩ := ih (p := p + s.length)
        (fun s hs => hne s (List.mem_cons_of_mem _ hs)) x rs hm y hy
      have hs := List.length_pos_iff.mpr (hne s List.mem_cons_self)
      refine ⟨q, by omega, ?_, fun h => ?_⟩
      · rw [List.flatten_cons, List.getElem?_append_right (by omega),
          show q - p - s.length = q - (p + s.length) by omega]
        exact h2
      · rw [starts] at h
        rcases List.mem_cons.mp h with h | h
        · omega
        · exact h3 h

theorem starts_single {pieces : List (List Syn)} (hne : ∀ s ∈ pieces, s ≠ [])
    (h : ∀ i ∈ starts 0 pieces, i = 0) {x : Syn} {xs : List Syn} (hf : pieces.flatten = x :: xs) :
    pieces = [x :: xs] := by
  match pieces, hne, h, hf with
  | [], _, _, hf => cases hf
  | [s], _, _, hf => rw [List.flatten_cons, List.flatten_nil, List.append_nil] at hf; rw [hf]
  | s :: s' :: ss, hne, h, _ =>
    exfalso
    have h1 := h (0 + s.length) (by rw [starts, starts]; simp)
    have := List.length_pos_iff.mpr (hne s List.mem_cons_self)
    omega

/-- A list whose only expression of lowest precedence is the first is read as that applied to the
reading of the rest. -/
theorem Reads.head {low : List Syn → Syn → Prop} {x : Syn} {rs : List Syn} {t : Syn}
    (h : Reads low (x :: rs) t) (h1 : ∀ y ∈ rs, ¬ low (x :: rs) y) (h2 : low (x :: rs) x) :
    (rs = [] ∧ t = x) ∨ ∃ r, t.expansion = some (x, r) ∧ Reads low rs r := by
  cases h with
  | one => exact .inl ⟨rfl, rfl⟩
  | two he => exact .inr ⟨_, he, Reads.one _⟩
  | @cut _ ps pieces trees _ hlen hps hc hp hr =>
    have : pieces = [x :: rs] := by
      refine starts_single hc.nonempty (fun i hi => ?_) hc.whole
      rcases (hc.before i).mp hi with h | h
      · exact h
      · obtain ⟨y, hy, hl⟩ := (hps i).mp h
        cases i with
        | zero => rfl
        | succ i => exact absurd hl (h1 y (List.mem_of_getElem? hy))
    subst this
    cases hp with
    | alone => simp at hlen
    | headed _ he hrs hn =>
      cases hn
      cases hr with
      | one => exact .inr ⟨_, he, hrs⟩
      | cons _ h => cases h
    | before h => exact absurd h2 h

theorem lowest_sub {p : CId} {ts s : List Syn} (hs : ∀ u ∈ s, u ∈ ts) {x : Syn}
    (h : Lowest v p ρ ts x) : Lowest v p ρ s x := by
  rcases h with ⟨id, h1, h2, h3⟩ | h
  · exact .inl ⟨id, h1, h2, fun u hu => h3 u (hs u hu)⟩
  · exact .inr fun u hu => h u (hs u hu)

theorem lowest_sup {p : CId} {ts s : List Syn} {x y : Syn} (hx : x ∈ s)
    (h : Lowest v p ρ ts x) (hy : Lowest v p ρ s y) : Lowest v p ρ ts y := by
  rcases h with ⟨id, h1, h2, h3⟩ | h
  · rcases hy with ⟨id', h4, h5, h6⟩ | hy
    · refine .inl ⟨id', h4, h5, fun u hu id2 hid2 hr => ?_⟩
      exact Nat.le_trans (h6 x hx id h1 h2) (h3 u hu id2 hid2 hr)
    · exact absurd h2 (hy x hx id h1)
  · exact .inr h

theorem pieces_of_slices {p : CId} {ts : List Syn} {ps : List Nat}
    (hps : ∀ i, i ∈ ps ↔ ∃ x, ts[i]? = some x ∧ Lowest v p ρ ts x) {pieces : List (List Syn)}
    (hc : CutAt ps ts pieces) : ∀ {done rest : List (List Syn)} {trees : List Syn},
    pieces = done ++ rest →
    List.Forall₂ (Slice (Lowest v p ρ ts) (Reads (Lowest v p ρ))) rest trees →
    Pieces (Lowest v p ρ) (Lowest v p ρ ts) rest trees := by
  intro done rest
  induction rest generalizing done with
  | nil => intro trees _ h; cases h; exact Pieces.nil
  | cons s ss ih =>
    intro trees he h
    cases h with
    | @cons _ t _ trees hst hrest =>
      have ih := ih (done := done ++ [s]) (by simp [he]) hrest
      have hmem : s ∈ pieces := by rw [he]; simp
      cases s with
      | nil => exact absurd rfl (hc.nonempty _ hmem)
      | cons x rs =>
        have hsub : ∀ u ∈ x :: rs, u ∈ ts := by
          intro u hu
          rw [← hc.whole]
          exact List.mem_flatten.mpr ⟨_, hmem, hu⟩
        have hin : ∀ y ∈ rs, ¬ Lowest v p ρ ts y := by
          intro y hy hl
          obtain ⟨q, _, h2, h3⟩ := inside_piece (p := 0) hc.nonempty x rs hmem y hy
          rw [hc.whole, Nat.sub_zero] at h2
          exact h3 ((hc.before q).mpr (.inr ((hps q).mpr ⟨y, h2, hl⟩)))
        by_cases hx : Lowest v p ρ ts x
        · rcases hst with hst | ⟨x', rs', r, hxr, _, he', hr⟩
          · rcases Reads.head hst (fun y hy hl => hin y hy (lowest_sup List.mem_cons_self hx hl))
              (lowest_sub hsub hx) with ⟨rfl, rfl⟩ | ⟨r, he', hr⟩
            · exact Pieces.alone hx ih
            · exact Pieces.headed hx he' hr ih
          · cases hxr
            exact Pieces.headed hx he' hr ih
        · rcases hst with hst | ⟨x', rs', r, hxr, hx', _, _⟩
          · exact Pieces.before hx hst ih
          · cases hxr
            exact absurd hx' hx

/-- Lists are read by precedence. -/
theorem reads_from {p : CId} (hp : v.concreteId .precedes = .ok (some p)) (h : Honest v ρ ask)
    (n k : Nat) (ts : List Syn) : From (Has v) (astFromListWith ask noLeft (CM.fault .diverge) n k ts)
      (Reads (Lowest v p ρ) ts) := by
  induction k generalizing ts with
  | zero => match ts with
    | [] => exact From.fault
    | [_] => exact From.pure (Reads.one _)
    | [l, r] => exact From.pure (Reads.two rfl)
    | _ :: _ :: _ :: _ => exact From.fault
  | succ k ih => match ts with
    | [] => exact From.fault
    | [_] => exact From.pure (Reads.one _)
    | [l, r] => exact From.pure (Reads.two rfl)
    | x :: y :: z :: ts =>
      rw [astFromListWith_succ]
      unfold listBody
      refine From.bind (positions_from hp h _) fun q hq => ?_
      obtain ⟨lpSyn, lps⟩ := q
      simp only at hq ⊢
      split
      · exact From.bind (From.ofE (Q := fun _ => True) fun _ _ => trivial) fun _ _ => From.throw
      · refine From.bind (commonAssoc_from n _ lpSyn) fun a _ => ?_
        cases a with
        | none => exact From.throw
        | some a =>
          cases a with
          | left => exact From.throw
          | right =>
            refine (right_from (now := Lowest v p ρ (x :: y :: z :: ts)) Reads.one ih _ lps
              fun i hi x' hx' => ?_).mono ?_
            · obtain ⟨x2, h1, h2⟩ := (hq i).mp hi
              rw [hx'] at h1
              cases h1
              exact h2
            · rintro t ⟨pieces, trees, hc, h2, hr⟩
              exact Reads.cut (by simp) hq hc (pieces_of_slices hq hc (done := []) rfl h2) hr

end

/-! ## Honest runs are runs of the parser -/

section

variable {a1 a2 : CId → CId → CM (Option CCT)}

theorem rankStep_same (h : ∀ a b, SameOk (a1 a b) (a2 a b)) (c l : CId) :
    SameOk (rankStep a1 c l) (rankStep a2 c l) := by
  unfold rankStep
  refine SameOk.bind (h c l) fun r => ?_
  split
  · exact SameOk.rfl
  · exact SameOk.bind (h l c) fun _ => SameOk.rfl
  · exact SameOk.bind (h l c) fun _ => SameOk.rfl
  · exact SameOk.bind (h l c) fun _ => SameOk.rfl
  · exact SameOk.rfl

theorem rank_same (h : ∀ a b, SameOk (a1 a b) (a2 a b)) (c : CId) (ls : List CId) :
    SameOk (rank a1 c ls) (rank a2 c ls) := by
  induction ls with
  | nil => exact SameOk.rfl
  | cons l ls ih =>
    unfold rank
    refine SameOk.bind (rankStep_same h c l) fun r => ?_
    cases r with
    | none => exact ih
    | some x => exact SameOk.rfl

theorem lowest_same (h : ∀ a b, SameOk (a1 a b) (a2 a b)) (cs : List CId) : ∀ acc,
    SameOk (lowest a1 acc cs) (lowest a2 acc cs) := by
  induction cs with
  | nil => intro acc; exact SameOk.rfl
  | cons c cs ih =>
    intro acc
    unfold lowest
    refine SameOk.bind (rank_same h c _) fun r => ?_
    cases r <;> exact ih _

theorem lowestPrecedenceInfo_same (h : ∀ a b, SameOk (a1 a b) (a2 a b)) (ts : List Syn) :
    SameOk (lowestPrecedenceInfo a1 ts) (lowestPrecedenceInfo a2 ts) := by
  unfold lowestPrecedenceInfo
  refine SameOk.bind SameOk.rfl fun o => ?_
  cases o with
  | none => exact SameOk.rfl
  | some p =>
    exact SameOk.bind SameOk.rfl fun rel => SameOk.bind (lowest_same h _ _) fun low => SameOk.rfl

theorem astFromListWith_same (h : ∀ a b, SameOk (a1 a b) (a2 a b)) (n k : Nat) (ts : List Syn) :
    SameOk (astFromListWith a1 noLeft (CM.fault .diverge) n k ts)
      (astFromListWith a2 noLeft (CM.fault .diverge) n k ts) := by
  induction k generalizing ts with
  | zero => match ts with
    | [] => simp only [astFromListWith]; exact SameOk.rfl
    | [_] => simp only [astFromListWith]; exact SameOk.rfl
    | [_, _] => simp only [astFromListWith]; exact SameOk.rfl
    | _ :: _ :: _ :: _ => simp only [astFromListWith]; exact SameOk.rfl
  | succ k ih => match ts with
    | [] => simp only [astFromListWith]; exact SameOk.rfl
    | [_] => simp only [astFromListWith]; exact SameOk.rfl
    | [_, _] => simp only [astFromListWith]; exact SameOk.rfl
    | x :: y :: z :: ts =>
      rw [astFromListWith_succ, astFromListWith_succ]
      unfold listBody
      refine SameOk.bind (lowestPrecedenceInfo_same h _) fun p => ?_
      simp only
      split
      · exact SameOk.rfl
      · refine SameOk.bind SameOk.rfl fun a => ?_
        cases a with
        | none => exact SameOk.rfl
        | some a =>
          cases a with
          | left => exact SameOk.throw
          | right =>
            refine SameOk.bind (rightLoop_agree ih _ _ _) fun st => ?_
            cases st with
            | none =>
              simp only
              exact SameOk.rfl
            | some ep =>
              obtain ⟨e, p⟩ := ep
              cases p with
              | zero =>
                simp only
                exact SameOk.rfl
              | succ p =>
                simp only
                exact SameOk.bind (ih _) fun _ => SameOk.rfl

theorem readsRanked_right {ρ : CId → Nat} {n k : Nat} {ts : List Syn} {c c' : Ctx} {t : Syn}
    (h : ReadsRanked ρ n k ts c t c') : ReadsRight n k ts c t c' :=
  astFromListWith_same (guarded_agrees ρ n) n k ts c t c' h

end

end Zia

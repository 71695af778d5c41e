import Verif.Lemmas.Speech
import Verif.Lemmas.InfixTell

/-!
# Reading the commands of a session about words
-/

namespace Zia
open CM Spec Relation
set_option linter.unusedSectionVars false

/-- The changes that are pending while a command is carried out, and the store they make. -/
structure Pends [HashOrder] (c : Ctx) {g : Snap} (W : Stand g) : Prop where
  settles : W.Settles
  snap : W.snap = c.snap
  commit : ∀ g', c.snap.apply W.pend = .ok g' → g' = g
  order : ∀ p ∈ W.pend.order, ∀ s, ReducesFresh s p ∧ KeepsDefinitions s p
  plain : ∀ k, k ≠ builtin .label →
    (View.mk W.snap W.pend).read (.com k) = (View.mk W.snap Nested.default).read (.com k)

variable [HashOrder] {c : Ctx} {n : Nat} {B : Str → Prop} {K : List Str} {L : Facts}

theorem Pends.rest (hs : Orderly c.snap) : Pends c (.rest c.snap) := by
  refine ⟨⟨Nat.le_refl _, fun _ _ => rfl, fun k l r _ hc => composedOf_lt hs.names.refs hc,
    fun k j _ hr => (reducesTo_lt hs.names.refs hr).2⟩, rfl, fun g' h => apply_nothing hs.prev h, 
    fun p hp => (by cases hp), fun _ _ => rfl⟩

theorem introducing_order {u : Nat} {t : Str} {p : CId × Direct CId} (hp : p ∈ introducing u t) (s : Snap) :
    ReducesFresh s p ∧ KeepsDefinitions s p := by
  simp only [introducing, List.mem_cons, List.not_mem_nil, or_false] at hp
  rcases hp with rfl | rfl | rfl <;> exact ⟨trivial, trivial⟩

theorem Pends.one (hs : Orderly c.snap) (t : Str) : Pends c (Stand.one hs.names t) :=
  ⟨hs.settles_one t, rfl, fun _ h => hs.commit_one h, fun _ hp s => introducing_order (u := 0) (t := t) hp s,
    fun _ hk => (pending_one hs.names t).read_com hk⟩

theorem Pends.two (hs : Orderly c.snap) {t u : Str} (hne : t ≠ u) : Pends c (Stand.two hs.names t u) := by
  refine ⟨hs.settles_two t u, rfl, fun _ h => hs.commit_two hne h, fun p hp s => ?_,
    fun _ hk => (pending_two hs.names t u).read_com hk⟩
  have hp : p ∈ introducing 0 t ++ introducing 3 u := hp
  rcases List.mem_append.1 hp with hp | hp
  exacts [introducing_order hp s, introducing_order hp s]

theorem Pends.built_id {g : Snap} {W : Stand g} (P : Pends c W) (hs : Orderly c.snap) (t : CCT) :
    W.ι (builtin t) = .com (builtin t) :=
  P.settles.ids _ (by rw [P.snap]; exact hs.built_lt t)

/-- The symbol `->` takes part in precedence, whatever is pending. -/
theorem Pends.ranked {g : Snap} {W : Stand g} (P : Pends c W) (hs : Orderly c.snap) (hw : Wide c.snap) :
    Ranked ⟨W.snap, W.pend⟩ (W.ι (builtin .precedes)) (W.ι (builtin .reduction)) := by
  obtain ⟨k, q, r, ⟨ck, hk, ek⟩, ⟨cq, hq, eq⟩⟩ := hw.ranked
  have hqn : q ≠ builtin .label := by
    rintro rfl
    exact built_simple (hs.built .label) _ _ ⟨cq, hq, eq⟩
  rw [composition_eq] at ek eq
  obtain ⟨⟨cp, hcp, g1⟩, _⟩ := hs.fwd q cq _ _ hq eq
  obtain ⟨_, ⟨cr, hcr, g2⟩⟩ := hs.fwd k ck _ _ hk ek
  obtain rfl : cq = cr := Option.some.inj (hq.symm.trans hcr)
  have lt : ∀ t, builtin t < W.snap.concepts.length := by
    intro t
    rw [P.snap]
    exact hs.built_lt t
  rw [P.settles.ids _ (lt _), P.settles.ids _ (lt _)]
  have rd : ∀ {k : Nat} {m : Con}, k ≠ builtin .label → c.snap.concepts[k]? = some m →
      (View.mk W.snap W.pend).read (.com k) = .ok (.ofCon m) := by
    intro k m hk hm
    rw [P.plain k hk, P.snap]
    exact rest_read hm
  refine ⟨_, rd (by decide) hcp, (.com r, .com q), ?_, .inr ⟨_, rd hqn hq, (.com (builtin .reduction), .com k), ?_, rfl⟩⟩
  · simp only [Mixed.ofCon, Mixed.iterHandOf, List.mem_filterMap, HashOrder.mem_order]
    exact ⟨(r, q), AMap.mem_of_get? _ _ _ g1, rfl⟩
  · simp only [Mixed.ofCon, Mixed.iterHandOf, List.mem_filterMap, HashOrder.mem_order]
    exact ⟨(builtin .reduction, k), AMap.mem_of_get? _ _ _ g2, rfl⟩

theorem Means.same {K' : List Str} {s : Snap} (hK : ∀ t, t ∈ K' ↔ t ∈ K) : Means n K' s = Means n K s := by
  funext i
  simp only [Means, hK]

/-- After new words are introduced nothing is remembered. -/
theorem asking_one {D : Nat → Prop} (hs : Nameable c.snap) {t : Str} (hb : c.bound = []) :
    Asking (Stand.one hs t) D { c with delta := .base (oneName t), cache := .empty } :=
  ⟨rfl, rfl, hb, .empty, .empty⟩

theorem asking_two {D : Nat → Prop} (hs : Nameable c.snap) {t u : Str} (hb : c.bound = []) :
    Asking (Stand.two hs t u) D { c with delta := .base (twoNames t u), cache := .empty } :=
  ⟨rfl, rfl, hb, .empty, .empty⟩

theorem one_word (hs : Nameable c.snap) (t : Str) : (Stand.one hs t).ι (c.snap.concepts.length + 2) = .unc 2 :=
  pendId_new (by decide)

theorem two_first (hs : Nameable c.snap) (t u : Str) : (Stand.two hs t u).ι (c.snap.concepts.length + 2) = .unc 2 :=
  pendId_new (by decide)

theorem two_second (hs : Nameable c.snap) (t u : Str) : (Stand.two hs t u).ι (c.snap.concepts.length + 5) = .unc 5 :=
  pendId_new (by decide)

namespace Speech

/-- The leaf of a word. -/
theorem readLeaf (h : Speech n B K L c.snap) (a : Asking (.rest c.snap) (Means n K c.snap) c) (hpin : c.pinned = false)
    {x : Str} (hx : IsSymbol x) (vx : Syn.isVariableName x = false) (bx : ¬B x) :
    ∃ (g : Snap) (W : Stand g) (i : Nat), Pends c W ∧ Speech n B (x :: K) L g ∧ StandsFor n g x i ∧
      ∀ k, Parser.conceptKind ⟨c.snap, c.delta⟩ n x = .ok k →
        Ends (leafOf n x k) c (fun r c' => Asking W (Means n (x :: K) g) c' ∧ ∃ X, Plain (W.ι i) X ∧ r = .ok X) := by
  have hd : c.delta = Nested.default := a.delta
  by_cases hm : x ∈ K
  · have hK : ∀ t, t ∈ x :: K ↔ t ∈ K := fun t => ⟨fun h => by
      rcases List.mem_cons.1 h with rfl | h
      exacts [hm, h], fun h => by simp [h]⟩
    obtain ⟨i, hi, _⟩ := h.word x hm
    refine ⟨c.snap, .rest c.snap, i, .rest h.orderly, h.same hK, hi, fun k hk => ?_⟩
    rw [Means.same hK]
    obtain ⟨X, pX, eX⟩ := leafOf_known (c := c) hx vx (id := .com i) (by rw [hd]; exact hi) hk
    rw [eX]
    exact Ends.pure ⟨a, X, pX, rfl⟩
  · have hN : NewTo c.snap x := ⟨hx, vx, h.new bx hm⟩
    refine ⟨grown c.snap x, .one h.orderly.names x, _, .one h.orderly x, h.grow hN, h.newWord x, fun k hk => ?_⟩
    rw [hd] at hk
    refine leaf_first h.orderly.names hN hk rfl hd hpin fun X pX => ?_
    exact ⟨asking_one _ a.bound, X, by rw [one_word]; exact pX, rfl⟩

/-- A question. -/
theorem readWord (h : Speech n B K L c.snap) (a : Asking (.rest c.snap) (Means n K c.snap) c) (hpin : c.pinned = false)
    {x : Str} (hx : IsSymbol x) (vx : Syn.isVariableName x = false) (bx : ¬B x) :
    ∃ (g : Snap) (W : Stand g) (i : Nat), Pends c W ∧ Speech n B (x :: K) L g ∧ StandsFor n g x i ∧
      Ends (Parser.astFromExpression n x) c (fun r c' => Asking W (Means n (x :: K) g) c' ∧
        ∃ X, Plain (W.ι i) X ∧ r = .ok X) := by
  obtain ⟨g, W, i, P, S, hi, hl⟩ := h.readLeaf a hpin hx vx bx
  exact ⟨g, W, i, P, S, hi, parse_word_with hx hl⟩

/-- Forgetting. -/
theorem readForget (h : Speech n B K L c.snap) (a : Asking (.rest c.snap) (Means n K c.snap) c)
    (hpin : c.pinned = false) {x : Str} (hx : IsSymbol x) (vx : Syn.isVariableName x = false) (bx : ¬B x)
    (hm : x ∉ K) :
    ∃ (g : Snap) (W : Stand g) (i : Nat), Pends c W ∧ Speech n B (x :: K) L g ∧ StandsFor n g x i ∧
      Ends (Parser.astFromExpression n (forgetting x)) c (fun r c' => Asking W (Means n (x :: K) g) c' ∧
        c'.pinned = false ∧ ∃ F X, Plain (W.ι (builtin .forget)) F ∧ Plain (W.ι i) X ∧ r = .ok (.newPair F X)) := by
  have hd : c.delta = Nested.default := a.delta
  have hN : NewTo c.snap x := ⟨hx, vx, h.new bx hm⟩
  refine ⟨grown c.snap x, .one h.orderly.names x, _, .one h.orderly x, h.grow hN, h.newWord x, ?_⟩
  refine parse_forgetting_with hx (f := .com (builtin .forget)) (by rw [hd]; exact h.forgetWord) fun k F pF hk => ?_
  rw [hd] at hk
  refine leaf_first h.orderly.names hN hk rfl hd hpin fun X pX => ?_
  refine ⟨asking_one _ a.bound, hpin, F, X, ?_, by rw [one_word]; exact pX, rfl⟩
  rw [(Pends.one h.orderly x).settles.ids _ (h.orderly.built_lt .forget)]
  exact pF

/-- How reading `let (x (-> y))` ends. -/
def ReadTold (W : Stand s) (D : Nat → Prop) (i j : Nat) (r : Except ZiaError Syn) (c' : Ctx) : Prop :=
  Asking W D c' ∧ c'.pinned = false ∧
      ∃ L X V Y u1 u2 f1 g1 f2 g2, Plain (W.ι (builtin .letCmd)) L ∧ Plain (W.ι i) X ∧
        Plain (W.ι (builtin .reduction)) V ∧ Plain (W.ι j) Y ∧
        r = .ok (.newPair L (.branch u1 none X (.branch u2 none V Y f2 g2) f1 g1))

/-- Telling, given how the leaves of the words end. -/
theorem readTold_with (h : Speech n B K L c.snap) (a : Asking (.rest c.snap) (Means n K c.snap) c)
    {u x y : Str} (hu : TellsAs n u x y) {g : Snap} {W : Stand g} {K' : List Str} (P : Pends c W)
    (h' : Speech n B K' L g) (hK : ∀ t, t ∈ K' ↔ t ∈ x :: y :: K) {i j : Nat} (hi : StandsFor n g x i)
    (hj : StandsFor n g y j)
    (hl : ∀ kx ky, Parser.conceptKind ⟨c.snap, Nested.default⟩ n x = .ok kx →
      Parser.conceptKind ⟨c.snap, Nested.default⟩ n y = .ok ky →
      Ends (wordLeaves n x y kx ky) c (fun r c' => Asking W (Means n K' g) c' ∧ c'.pinned = false ∧
          ∃ X Y, Plain (W.ι i) X ∧ Plain (W.ι j) Y ∧ r = .ok (X, Y))) :
    ∃ (g : Snap) (W : Stand g) (i j : Nat), Pends c W ∧ Speech n B (x :: y :: K) L g ∧ StandsFor n g x i ∧
      StandsFor n g y j ∧
      Ends (Parser.astFromExpression n u) c (ReadTold W (Means n (x :: y :: K) g) i j) ∧ Learns n u x y c := by
  have hd : c.delta = Nested.default := a.delta
  have hK' : ∀ t, t ∈ x :: y :: K ↔ t ∈ K' := fun t => (hK t).symm
  refine ⟨g, W, i, j, P, h'.same hK', hi, hj, ?_⟩
  rw [Means.same hK']
  have lt : ∀ t, builtin t < W.snap.concepts.length := by
    intro t
    rw [P.snap]
    exact h.orderly.built_lt t
  refine hu h'.asked h'.ties ⟨x, (hK x).2 (by simp), hi⟩ ⟨y, (hK y).2 (by simp), hj⟩
    (P.ranked h.orderly h.ties.wide) ?_ ?_ ?_
  · rw [hd, P.settles.ids _ (lt _)]; exact h.letWord
  · rw [hd, P.settles.ids _ (lt _)]; exact h.redWord
  · rw [hd]; exact hl

/-- Telling about words that were mentioned before. -/
theorem readKnown (h : Speech n B K L c.snap) (a : Asking (.rest c.snap) (Means n K c.snap) c)
    (hpin : c.pinned = false) {u x y : Str} (hu : TellsAs n u x y) (hx : IsSymbol x) (hy : IsSymbol y)
    (vx : Syn.isVariableName x = false) (vy : Syn.isVariableName y = false) (mx : x ∈ K) (my : y ∈ K) {i j : Nat}
    (hi : StandsFor n c.snap x i) (hj : StandsFor n c.snap y j) :
    Ends (Parser.astFromExpression n u) c (ReadTold (.rest c.snap) (Means n K c.snap) i j) ∧ Learns n u x y c := by
  have hd : c.delta = Nested.default := a.delta
  refine hu h.asked h.ties ⟨x, mx, hi⟩ ⟨y, my, hj⟩ ((Pends.rest h.orderly).ranked h.orderly h.ties.wide)
    (by rw [hd]; exact h.letWord) (by rw [hd]; exact h.redWord) ?_
  intro kx ky h1 h2
  obtain ⟨X, pX, eX⟩ := leafOf_known (c := c) hx vx (id := .com i) (by rw [hd]; exact hi) h1
  obtain ⟨Y, pY, eY⟩ := leafOf_known (c := c) hy vy (id := .com j) (by rw [hd]; exact hj) h2
  unfold wordLeaves
  rw [eX, eY, pure_bind, pure_bind]
  exact Ends.pure ⟨a, hpin, X, Y, pX, pY, rfl⟩

/-- Telling about new words. -/
theorem readTold (h : Speech n B K L c.snap) (a : Asking (.rest c.snap) (Means n K c.snap) c)
    (hpin : c.pinned = false) {u x y : Str} (hu : TellsAs n u x y) (hx : IsSymbol x) (hy : IsSymbol y) (vx : Syn.isVariableName x = false)
    (vy : Syn.isVariableName y = false) (bx : ¬B x) (bY : ¬B y) (new : x ∉ K ∨ y ∉ K) :
    ∃ (g : Snap) (W : Stand g) (i j : Nat), Pends c W ∧ Speech n B (x :: y :: K) L g ∧ StandsFor n g x i ∧
      StandsFor n g y j ∧
      Ends (Parser.astFromExpression n u) c (ReadTold W (Means n (x :: y :: K) g) i j) ∧ Learns n u x y c := by
  have hs := h.orderly.names
  have hd : c.delta = Nested.default := a.delta
  have kept : ∀ {t u i}, t ≠ u → StandsFor n c.snap t i → StandsFor n (grown c.snap u) t i := by
    intro t u i hne hi
    unfold StandsFor
    rw [(h.orderly.added u).sameLookup hs (by simpa using hne) n]
    exact hi
  have lt : ∀ {t i}, t ∈ K → StandsFor n c.snap t i → i < c.snap.concepts.length :=
    fun ht hi => Added.hasName_lt hs (h.plain ht hi).1.name
  by_cases mx : x ∈ K
  · have my : y ∉ K := new.resolve_left fun hn => hn mx
    have hne : x ≠ y := fun e => my (e ▸ mx)
    have hN : NewTo c.snap y := ⟨hy, vy, h.new bY my⟩
    obtain ⟨i, hi, _⟩ := h.word x mx
    refine h.readTold_with a hu (.one h.orderly y) (h.grow hN) ?_ (kept hne hi) (h.newWord y) ?_
    · intro t
      simp only [List.mem_cons]
      constructor
      · exact .inr
      · rintro (rfl | h)
        exacts [.inr mx, h]
    · intro kx ky h1 h2
      obtain ⟨X, pX, eX⟩ := leafOf_known (c := c) hx vx (id := .com i) (by rw [hd]; exact hi) (by rw [hd]; exact h1)
      unfold wordLeaves
      rw [eX, pure_bind]
      refine Ends.bind (leaf_first hs hN h2 rfl hd hpin fun Y pY => ?_)
      refine Ends.pure ⟨asking_one _ a.bound, hpin, X, Y, ?_, by rw [one_word]; exact pY, rfl⟩
      rw [(Pends.one h.orderly y).settles.ids _ (lt mx hi)]
      exact pX
  · have hN : NewTo c.snap x := ⟨hx, vx, h.new bx mx⟩
    by_cases e : x = y
    · subst e
      refine h.readTold_with a hu (.one h.orderly x) (h.grow hN) (by simp) (h.newWord x) (h.newWord x) ?_
      intro kx ky h1 h2
      refine Ends.bind (leaf_first hs hN h1 rfl hd hpin fun X pX => ?_)
      cases kind_new hx vx hs.strings hN.new h2
      refine Ends.bind (leaf_again hs rfl hpin h.fuel fun Y pY => ?_)
      exact Ends.pure ⟨asking_one _ a.bound, hpin, X, Y, by rw [one_word]; exact pX, by rw [one_word]; exact pY, rfl⟩
    · by_cases my : y ∈ K
      · obtain ⟨j, hj, _⟩ := h.word y my
        refine h.readTold_with a hu (.one h.orderly x) (h.grow hN) ?_ (h.newWord x) (kept (Ne.symm e) hj) ?_
        · intro t
          simp only [List.mem_cons]
          constructor
          · exact fun h => h.imp_right .inr
          · rintro (h | rfl | h)
            exacts [.inl h, .inr my, .inr h]
        · intro kx ky h1 h2
          obtain ⟨Y, pY, eY⟩ := leafOf_known (c := c) hy vy (id := .com j) (by rw [hd]; exact hj)
            (by rw [hd]; exact h2)
          refine Ends.bind (leaf_first hs hN h1 rfl hd hpin fun X pX => ?_)
          rw [eY]
          refine Ends.bind (Ends.pure (Ends.pure ⟨asking_one _ a.bound, hpin, X, Y, by rw [one_word]; exact pX, ?_, rfl⟩))
          rw [(Pends.one h.orderly x).settles.ids _ (lt my hj)]
          exact pY
      · have hM : NewTo c.snap y := ⟨hy, vy, h.new bY my⟩
        have hM' : NewTo (grown c.snap x) y := by
          refine ⟨hy, vy, fun k hk => ?_⟩
          rcases (h.orderly.added x).strings.1 hk with hk | ⟨m, hm, _⟩
          · exact hM.new k hk
          · have := List.mem_of_getElem? hm
            simp only [List.mem_cons, List.not_mem_nil, or_false] at this
            exact e this.symm
        have h1 := h.grow hN
        refine h.readTold_with a hu (.two h.orderly e) (h1.grow hM') ?_ (i := c.snap.concepts.length + 2)
          (j := c.snap.concepts.length + 5) ?_ ?_ ?_
        · intro t
          simp only [List.mem_cons]
          constructor <;> rintro (h | h | h) <;> simp [h]
        · unfold StandsFor
          rw [(h1.orderly.added y).sameLookup h1.orderly.names (by simpa using e) n]
          exact h.newWord x
        · have := h1.newWord y
          rw [grown_len] at this
          exact this
        · intro kx ky h1 h2
          refine Ends.bind (leaf_first hs hN h1 rfl hd hpin fun X pX => ?_)
          refine Ends.bind (leaf_second (c := { c with delta := .base (oneName x), cache := .empty }) hs hM e h2 rfl rfl
            hpin fun Y pY => ?_)
          exact Ends.pure ⟨asking_two _ a.bound, hpin, X, Y, by rw [two_first]; exact pX,
            by rw [two_second]; exact pY, rfl⟩

end Speech

end Zia

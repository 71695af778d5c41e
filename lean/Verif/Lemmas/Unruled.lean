import Verif.Lemmas.Inferred
import Verif.Lemmas.Frames

/-!
# No rule is found for a word that no rule is about
-/

namespace Zia

open Spec

set_option linter.unusedSectionVars false

variable [HashOrder] {s : Snap} {W : Stand s} {D : Nat → Prop} {α β : Type}

theorem Plain.concept {id : CId} {t : Syn} (h : Plain id t) : t.concept = some id := by
  obtain ⟨u, k, rfl, _⟩ := h
  rfl

namespace Search

variable (L : Lone s D) {e : Env} (he : Good W e) {n : Nat} (hn : ∀ m, m < n → SCalm W D (search m))
  {I X O : Syn} {u : Nat} (hw : W.pend.overlay.num ≤ u) (pI : Plain (W.ι (builtin .implication)) I)
  (pX : Inert W X) (pO : Plain (W.ι (builtin .reduction)) O)

include L he hn hw pO in
/-- The pattern `-> _` has no example. -/
theorem findEx_reduct {set : List CId} (h : ∀ y ∈ set, ∃ d, y = W.ι d ∧ Harmless s d)
    {x : Option Str} {o : Option CId} {f g : List Key} {k : ExSubst → SM (Option ExSubst)} :
    Fails W D ((search n).findEx e (.branch x o O (View.newVariable (.unc u)) f g) set k) := by
  cases n with
  | zero => exact Fails.fault _
  | succ n =>
    refine findExamples_fails (gen := (.branch x o O (View.newVariable (.unc u)) f g)) (k := k) (hn n (Nat.lt_succ_self _)) he rfl
      (fun b hb => containsBound_word he pO (L.builtins _ (.inr rfl)).1 hb) (fun b hb => containsBound_var he hw hb) ?_
    intro y hy
    obtain ⟨d, rfl, hd⟩ := h y hy
    refine halfStep_fails (hn n (Nat.lt_succ_self _)) he pO.concept ?_ ?_
    · intro l r hc _ hv
      exact absurd hv (hd.2 l r hc).2
    · intro r hc
      exact absurd rfl (hd.2 _ r hc).1

include he in
/-- It has no variables. -/
theorem _root_.Zia.Inert.unbound (pX : Inert W X) {b : Bool} (h : containsBound e X = .ok b) : b = false := by
  cases pX with
  | word pX hi _ => exact containsBound_word he pX hi h
  | pair pX pO pY hi hj ho _ _ =>
    simp only [containsBound, Except.bind_eq_ok] at h
    obtain ⟨b1, h1, h⟩ := h
    cases containsBound_word he pX hi h1
    simp only [Bool.false_eq_true, if_false, Except.bind_eq_ok] at h
    obtain ⟨b2, ⟨b3, h3, h2⟩, h⟩ := h
    cases containsBound_word he pO ho h3
    simp only [Bool.false_eq_true, if_false, Except.bind_eq_ok] at h2
    obtain ⟨b4, h4, h2⟩ := h2
    cases containsBound_word he pY hj h4
    simp only [Bool.false_eq_true, if_false, he.bound, List.contains_nil] at h2
    cases h2
    simp only [Bool.false_eq_true, if_false, he.bound, List.contains_nil] at h
    cases h
    rfl
  | couple pX pY hi hj _ _ =>
    simp only [containsBound, Except.bind_eq_ok] at h
    obtain ⟨b1, h1, h⟩ := h
    cases containsBound_word he pX hi h1
    simp only [Bool.false_eq_true, if_false, Except.bind_eq_ok] at h
    obtain ⟨b2, h2, h⟩ := h
    cases containsBound_word he pY hj h2
    simp only [Bool.false_eq_true, if_false, he.bound, List.contains_nil] at h
    cases h
    rfl

include L he hn hw pX pO in
/-- The pattern `x -> _` has no example. -/
theorem findEx_reduction {set : List CId} (h : ∀ y ∈ set, ∃ q, y = W.ι q ∧ Safe s q)
    {x x' : Option Str} {o o' : Option CId} {f f' g g' : List Key} {k : ExSubst → SM (Option ExSubst)} :
    Fails W D ((search n).findEx e (.branch x o X (.branch x' o' O (View.newVariable (.unc u)) f' g') f g) set k) := by
  cases n with
  | zero => exact Fails.fault _
  | succ n =>
    have hn' := fun m hm => hn m (Nat.lt_succ_of_lt hm)
    refine findExamples_fails (gen := (.branch x o X (.branch x' o' O (View.newVariable (.unc u)) f' g') f g)) (k := k) (hn n (Nat.lt_succ_self _)) he rfl
      (fun b hb => pX.unbound he hb)
      (fun b hb => containsBound_right (fun b hb => containsBound_var he hw hb) hb) ?_
    intro y hy
    obtain ⟨q, rfl, hq⟩ := h y hy
    have one : ∀ {d}, Harmless s d → ∀ y ∈ [W.ι d], ∃ d', y = W.ι d' ∧ Harmless s d' := by
      intro d hd y hy
      simp only [List.mem_singleton] at hy
      exact ⟨d, hy, hd⟩
    cases pX with
    | word pX hi hl =>
      refine halfStep_fails (hn n (Nat.lt_succ_self _)) he pX.concept ?_ ?_
      · intro p d hc _ hv
        exact findEx_reduct L he hn' hw pO (one (hq p d hc hv))
      · intro d hc
        refine ⟨fun t ht => (hl _ d d hc (.inl rfl)).checkExample ht pO, fun set hset => ?_⟩
        refine findEx_reduct L he hn' hw pO fun y hy => ?_
        obtain ⟨q, rfl, hq⟩ := hset y hy
        exact ⟨q, rfl, hl _ d q hc hq⟩
    | pair =>
      refine halfStep_unstored (hn n (Nat.lt_succ_self _)) he rfl ?_
      intro p d hc hv
      exact findEx_reduct L he hn' hw pO (one (hq p d hc hv))
    | couple =>
      refine halfStep_unstored (hn n (Nat.lt_succ_self _)) he rfl ?_
      intro p d hc hv
      exact findEx_reduct L he hn' hw pO (one (hq p d hc hv))

theorem safe_of (L : Lone s D) {c l r q : Nat} (hc : ComposedOf s c l r)
    (hl : l = builtin .implication ∨ MayVary s l) (hq : q = r ∨ ListsReduced s r q) : Safe s q :=
  fun p d hp => L.rules.rules c l r q p d hc hl hq hp

include L he hn hw pI pX pO in
/-- The pattern `=> (x -> _)` has no example. -/
theorem findEx_implication {set : List CId} (h : ∀ y ∈ set, ∃ q, y = W.ι q)
    {x x' x'' : Option Str} {o o' o'' : Option CId} {f f' f'' g g' g'' : List Key}
    {k : ExSubst → SM (Option ExSubst)} :
    Fails W D ((search n).findEx e (.branch x o I (.branch x' o' X
      (.branch x'' o'' O (View.newVariable (.unc u)) f'' g'') f' g') f g) set k) := by
  cases n with
  | zero => exact Fails.fault _
  | succ n =>
    have hn' := fun m hm => hn m (Nat.lt_succ_of_lt hm)
    refine findExamples_fails (gen := (.branch x o I (.branch x' o' X
      (.branch x'' o'' O (View.newVariable (.unc u)) f'' g'') f' g') f g)) (k := k) (hn n (Nat.lt_succ_self _)) he rfl
      (fun b hb => containsBound_word he pI (L.builtins _ (.inl rfl)).1 hb)
      (fun b hb => containsBound_right (fun b hb => containsBound_right (fun b hb => containsBound_var he hw hb) hb) hb) ?_
    intro y hy
    obtain ⟨c, rfl⟩ := h y hy
    refine halfStep_fails (hn n (Nat.lt_succ_self _)) he pI.concept ?_ ?_
    · intro l r hc _ hv
      refine findEx_reduction L he hn' hw pX pO fun y hy => ?_
      simp only [List.mem_singleton] at hy
      exact ⟨r, hy, safe_of L hc (.inr hv) (.inl rfl)⟩
    · intro r hc
      refine ⟨fun t ht => ?_, fun set hset => ?_⟩
      · refine (safe_of L hc (.inl rfl) (.inl rfl)).checkExample (fun hv => ?_) hc ht pX pO
        obtain ⟨l', r', h1⟩ := L.rules.conclusions c r hc hv.1
        exact hv.2 _ _ h1
      · refine findEx_reduction L he hn' hw pX pO fun y hy => ?_
        obtain ⟨q, rfl, hq⟩ := hset y hy
        exact ⟨q, rfl, safe_of L hc (.inl rfl) hq⟩

theorem contractPair_unstored {S : Search} {l r t : Syn} {ca ca' : Cache} (hr : ∀ a b m, l.concept = some a →
      r.concept = some b → e.view.read a = .ok m → m.findAsHand b .left = none)
    (h : S.contractPair e l r ca = .ok (t, ca')) : ∃ x f g, t = .branch (some x) none l r f g := by
  unfold contractPair at h
  obtain ⟨o, ca1, h1, h2⟩ := SM.bind_ok.1 h
  have h1 := (SM.lift_ok.1 h1).1
  have ho : o = none := by
    unfold pairConcept at h1
    cases hl : l.concept with
    | none => rw [hl] at h1; cases h1; rfl
    | some a =>
      cases hr' : r.concept with
      | none => rw [hl, hr'] at h1; cases h1; rfl
      | some b =>
        rw [hl, hr'] at h1
        simp only [Except.bind_eq_ok, Except.pure_eq_ok] at h1
        obtain ⟨m, hm, rfl⟩ := h1
        exact hr a b m hl hr' hm
  subst ho
  dsimp only at h2
  obtain ⟨x, ca2, _, h3⟩ := SM.bind_ok.1 h2
  cases h3
  exact ⟨x, _, _, rfl⟩

theorem substitute_plain {S : Search} {id : CId} {t t' : Syn} {ca ca' : Cache} (p : Plain id t)
    (h : S.substitute e [] t ca = .ok (t', ca')) : t' = t := by
  obtain ⟨x, k, rfl, _⟩ := p
  cases h
  rfl

theorem substitute_pair {S : Search} {x : Option Str} {l r t : Syn} {f g : List Key} {ca ca' : Cache}
    (h : S.substitute e [] (.branch x none l r f g) ca = .ok (t, ca')) : ∃ l' r' ca1 ca2,
      S.substitute e [] l ca = .ok (l', ca1) ∧ S.substitute e [] r ca1 = .ok (r', ca2) ∧
      S.contractPair e l' r' ca2 = .ok (t, ca') := by
  change (do
      let l' ← S.substitute e [] l
      let r' ← S.substitute e [] r
      S.contractPair e l' r') ca = _ at h
  obtain ⟨l', ca1, h1, h⟩ := SM.bind_ok.1 h
  obtain ⟨r', ca2, h2, h⟩ := SM.bind_ok.1 h
  exact ⟨l', r', ca1, ca2, h1, h2, h⟩

theorem subst_plain {w : Nat} {k : Key} {v t : Syn} (hk : k.concept ≠ some (W.ι w)) (p : Plain (W.ι w) t) :
    Zia.substitute [(k, v)] t = t := by
  obtain ⟨x, kd, rfl, _⟩ := p
  unfold Zia.substitute
  have : AMap.get? [(k, v)] (Syn.leaf (some x) (some (W.ι w)) kd).key = none := by
    rw [AMap.get?_cons, if_neg]
    · rfl
    · rintro rfl
      exact hk rfl
  rw [this]

/-- Replacing a variable does not change it. -/
theorem _root_.Zia.Inert.subst {X : Syn} (pX : Inert W X) {id : CId} {k : Key} {v : Syn} (hk : k.concept = some id)
    (hkw : ∀ w, k.concept ≠ some (W.ι w)) : Zia.substitute [(k, v)] X = X := by
  have other : ∀ t : Syn, t.concept = none → AMap.get? [(k, v)] t.key = none := by
    intro t ht
    rw [AMap.get?_cons, if_neg]
    · rfl
    · rintro rfl
      have hk : t.concept = some id := hk
      rw [ht] at hk
      cases hk
  cases pX with
  | word pX _ _ => exact subst_plain (hkw _) pX
  | pair pX pO pY _ _ _ _ _ =>
    rw [Zia.substitute, other _ rfl]
    dsimp only
    rw [subst_plain (hkw _) pX, Zia.substitute, other _ rfl]
    dsimp only
    rw [subst_plain (hkw _) pO, subst_plain (hkw _) pY]
  | couple pX pY _ _ _ _ =>
    rw [Zia.substitute, other _ rfl]
    dsimp only
    rw [subst_plain (hkw _) pX, subst_plain (hkw _) pY]

theorem _root_.Zia.Inert.replaced {S : Search} (L : Lone s D) (he : Good W e) {X X' : Syn} (pX : Inert W X) {ca ca' : Cache}
    (h : S.substitute e [] X ca = .ok (X', ca')) : Inert W X' := by
  cases pX with
  | word pX hi hl =>
    cases substitute_plain pX h
    exact .word pX hi hl
  | pair pX pO pY hi hj ho hr flat =>
    obtain ⟨X1, R, _, _, e1, h1, h2⟩ := substitute_pair h
    obtain ⟨O1, Y1, _, _, e2, e3, h3⟩ := substitute_pair h1
    cases substitute_plain pX e1
    cases substitute_plain pO e2
    cases substitute_plain pY e3
    obtain ⟨x1, f1, g1, rfl⟩ := contractPair_unstored (e := e) (by
      intro a b m ha hb hm
      rw [pO.concept] at ha
      rw [pY.concept] at hb
      cases ha
      cases hb
      obtain ⟨c, hc, M⟩ := he.read hm
      rw [M.find]
      cases hf : c.findAsHand _ .left with
      | none => rfl
      | some q =>
        obtain ⟨cq, h1, h2⟩ := (L.rev _ c _ q hc).1 hf
        exact absurd ⟨cq, h1, by rw [composition_eq]; exact h2⟩ (hr q)) h3
    obtain ⟨x2, f2, g2, rfl⟩ := contractPair_unstored (e := e) (by intro a b m ha hb hm; cases hb) h2
    exact .pair pX pO pY hi hj ho hr flat
  | couple pX pY hi hj hr flat =>
    obtain ⟨X1, Y1, _, _, e1, e2, h2⟩ := substitute_pair h
    cases substitute_plain pX e1
    cases substitute_plain pY e2
    obtain ⟨x1, f1, g1, rfl⟩ := contractPair_unstored (e := e) (by
      intro a b m ha hb hm
      rw [pX.concept] at ha
      rw [pY.concept] at hb
      cases ha
      cases hb
      obtain ⟨c, hc, M⟩ := he.read hm
      rw [M.find]
      cases hf : c.findAsHand _ .left with
      | none => rfl
      | some q =>
        obtain ⟨cq, h1, h2⟩ := (L.rev _ c _ q hc).1 hf
        exact absurd ⟨cq, h1, by rw [composition_eq]; exact h2⟩ (hr q)) h2
    exact .couple pX pY hi hj hr flat

theorem subst_pair {w : CId} {k : Key} {v l r : Syn} (hk : k.concept = some w) :
    Zia.substitute [(k, v)] (.newPair l r) = .branch none none (Zia.substitute [(k, v)] l)
      (Zia.substitute [(k, v)] r) (Syn.pairVars l r).1 (Syn.pairVars l r).2 := by
  unfold Syn.newPair
  rw [Zia.substitute]
  have : AMap.get? [(k, v)] (Syn.branch none none l r (Syn.pairVars l r).1 (Syn.pairVars l r).2).key = none := by
    rw [AMap.get?_cons, if_neg]
    · rfl
    · rintro rfl
      cases hk
  rw [this]

include L he hn hw pI pX pO in
/-- The right part of the pattern `_ => (x -> _)` has no example. -/
theorem rightMatch_fails (hS : SCalm W D (search n)) {c er : Nat} (hcw : W.pend.overlay.num ≤ c) (hcu : c ≠ u) {tr : Syn} :
    Fails W D ((search n).rightMatch e (.newPair I (.newPair X (.newPair O (View.newVariable (.unc u))))) (W.ι er)
      ⟨[((View.newVariable (.unc c)).key, tr)], []⟩) := by
  have hk : (View.newVariable (.unc c)).key.concept = some (.unc c) := rfl
  have hkw : ∀ w, (View.newVariable (.unc c)).key.concept ≠ some (W.ι w) := by
    intro w e
    exact W.foreign hcw w (by rw [hk] at e; exact Option.some.inj e)
  have hkv : Zia.substitute [((View.newVariable (.unc c)).key, tr)] (View.newVariable (.unc u)) =
      View.newVariable (.unc u) := by
    unfold View.newVariable Zia.substitute
    have : AMap.get? [((View.newVariable (.unc c)).key, tr)] (View.newVariable (.unc u)).key = none := by
      rw [AMap.get?_cons, if_neg]
      · rfl
      · intro e
        have := congrArg Key.concept e
        simp only [View.newVariable, Syn.key, Syn.concept] at this
        cases this
        exact hcu rfl
    unfold View.newVariable at this
    rw [this]
  intro ca r ca' hca h
  unfold rightMatch at h
  dsimp only at h
  rw [subst_pair hk, subst_pair hk, subst_pair hk, subst_plain (hkw _) pI, pX.subst hk hkw,
    subst_plain (hkw _) pO, hkv] at h
  obtain ⟨sr, ca1, h1, h⟩ := SM.bind_ok.1 h
  obtain ⟨I', R1, _, _, e1, h2, h3⟩ := substitute_pair h1
  obtain ⟨X', R2, _, _, e2, h4, h5⟩ := substitute_pair h2
  obtain ⟨O', V', _, _, e3, h6, h7⟩ := substitute_pair h4
  obtain rfl := substitute_plain pI e1
  replace pX := pX.replaced L he e2
  obtain rfl := substitute_plain pO e3
  have hV : V' = View.newVariable (.unc u) := by cases h6; rfl
  subst hV
  have hnone : ∀ (t : Syn), t.concept = none → ∀ l : Syn, ∀ a b m, l.concept = some a → t.concept = some b →
      e.view.read a = .ok m → m.findAsHand b .left = none := by
    intro t ht l a b m _ hb
    rw [ht] at hb; cases hb
  obtain ⟨x3, f3, g3, rfl⟩ := contractPair_unstored (e := e) (by
    intro a b m ha hb hm
    rw [pO.concept] at ha
    cases ha
    cases hb
    obtain ⟨c, _, M⟩ := he.read hm
    exact M.foreign _ _ (W.foreign hw)) h7
  obtain ⟨x2, f2, g2, rfl⟩ := contractPair_unstored (hnone _ rfl _) h5
  obtain ⟨x1, f1, g1, rfl⟩ := contractPair_unstored (hnone _ rfl _) h3
  have hca1 : Kept W D ca1 := substitute_calm hS _ he _ _ _ _ _ hca h1
  obtain ⟨m, _, h8, h⟩ := SM.bind_ok.1 h
  obtain ⟨hm, rfl⟩ := SM.lift_ok.1 h8
  obtain ⟨b, _, h9, h⟩ := SM.bind_ok.1 h
  obtain ⟨hb, rfl⟩ := SM.lift_ok.1 h9
  have := containsBound_right (fun b hb => containsBound_right (fun b hb => containsBound_right
    (fun b hb => containsBound_var he hw hb) hb) hb) hb
  subst this
  rw [if_pos rfl] at h
  refine findEx_implication L he hn hw pI pX pO ?_ _ _ _ hca1 h
  obtain ⟨c', hc', M⟩ := he.read hm
  intro y hy
  simp only [List.mem_append, List.mem_singleton] at hy
  rcases hy with hy | rfl
  · obtain ⟨q, rfl, _⟩ := M.froms y hy
    exact ⟨q, rfl⟩
  · exact ⟨er, rfl⟩

include L he hn hw pI pX pO in
/-- The pattern `_ => (x -> _)` has no example. -/
theorem findEx_rule {c er : Nat} (hcw : W.pend.overlay.num ≤ c) (hcu : c ≠ u) (hm : SCalm W D (search n)) {N : Nat} (hN : N ≤ n) {set : List CId} :
    Fails W D ((search N).findEx e (View.newVariable (.unc c)) set ((search n).rightMatch e
      (.newPair I (.newPair X (.newPair O (View.newVariable (.unc u))))) (W.ι er))) := by
  cases N with
  | zero => exact Fails.fault _
  | succ N =>
    show Fails W D ((search N).findExamples (β := ExSubst) e (View.newVariable (.unc c)) set _)
    unfold findExamples
    dsimp only [View.newVariable, Syn.expansion]
    refine Fails.bind_lift fun b _ => ?_
    split
    · have hS := hn N (by omega)
      refine Fails.findMap (fun y _ => ?_) fun y _ => ?_
      · exact Fails.bind (hS.toAst _ _ he) fun t => rightMatch_fails L he hn hw pI pX pO hm hcw hcu
      · exact CalmS.bind (hS.toAst _ _ he) fun t => rightMatch_calm hm _ he _ _ _
    · exact Fails.fault _

end Search

/-- The remembered reductions are the same. -/
def SameReds (ca ca' : Cache) : Prop := ca'.frames.map Frame.red = ca.frames.map Frame.red

/-- A search that finds nothing, and leaves the memory as the relation says. -/
def Leaves (W : Stand s) (D : Nat → Prop) (R : Cache → Cache → Prop) (m : SM (Option α)) : Prop :=
  ∀ ca r ca', Kept W D ca → m ca = .ok (r, ca') → r = none ∧ R ca ca'

namespace Leaves

variable {R : Cache → Cache → Prop}

theorem none (hR : ∀ ca, Kept W D ca → R ca ca) : Leaves W D R (pure none : SM (Option α)) := by
  intro ca r ca' hc h; cases h; exact ⟨rfl, hR _ hc⟩

theorem fault (f : Fault) : Leaves W D R (SM.fault f : SM (Option α)) := by
  intro ca r ca' _ h; cases h

theorem bind_lift {x : Except Fault β} {f : β → SM (Option α)} (hf : ∀ b, x = .ok b → Leaves W D R (f b)) :
    Leaves W D R ((liftM x : SM β) >>= f) := by
  intro ca r ca' hc h
  obtain ⟨b, ca1, h1, h2⟩ := SM.bind_ok.1 h
  obtain ⟨hx, rfl⟩ := SM.lift_ok.1 h1
  exact hf b hx _ _ _ hc h2

end Leaves

/-- What a search in a memory of its own leaves of the memory. -/
def Popped (W : Stand s) (D : Nat → Prop) (ca ca' : Cache) : Prop :=
  Kept W D ca' ∧ ca'.frames.length = ca.frames.length ∧ ca'.frames.drop 1 = ca.frames.drop 1

theorem Popped.refl (ca : Cache) (h : Kept W D ca) : Popped W D ca ca := ⟨h, rfl, rfl⟩

theorem Leaves.try_fails {m : SM (Option β)} {f : Option β → SM (Option α)} (h : Fails W D m)
    (hc : CalmS W D m) (hf : Frames 0 m) (hn : f .none = pure .none) : Leaves W D (Popped W D) (m >>= f) := by
  intro ca r ca' hca h'
  obtain ⟨x, ca1, h1, h2⟩ := SM.bind_ok.1 h'
  cases h _ _ _ hca h1
  rw [hn] at h2
  cases h2
  exact ⟨rfl, hc _ _ _ hca h1, hf _ _ _ h1⟩

theorem Leaves.findMap {γ : Type} {f : γ → SM (Option α)} {l : List γ}
    (hf : ∀ a ∈ l, Leaves W D (Popped W D) (f a)) : Leaves W D (Popped W D) (Search.findMap f l) := by
  induction l with
  | nil => exact Leaves.none Popped.refl
  | cons a as ih =>
    unfold Search.findMap
    intro ca r ca' hca h
    obtain ⟨x, ca1, h1, h2⟩ := SM.bind_ok.1 h
    obtain ⟨rfl, k1, l1, d1⟩ := hf a (by simp) _ _ _ hca h1
    obtain ⟨hr, k2, l2, d2⟩ := ih (fun a ha => hf a (by simp [ha])) _ _ _ k1 h2
    exact ⟨hr, k2, l2.trans l1, d2.trans d1⟩

/-- A search with a memory of its own that finds nothing. -/
theorem Leaves.spawn {red : AMap Key RR} {m : SM (Option α)} (h : Leaves W D (Popped W D) m) :
    Leaves W D SameReds (do
      let (r, _) ← SM.spawn red m
      return r) := by
  intro ca r ca' hc h'
  obtain ⟨p, ca1, h1, h2⟩ := SM.bind_ok.1 h'
  obtain ⟨a, red'⟩ := p
  cases h2
  unfold SM.spawn at h1
  cases hm : m { ca with frames := ⟨red, []⟩ :: ca.frames } with
  | error e => rw [hm] at h1; cases h1
  | ok p =>
    obtain ⟨b, c1⟩ := p
    have k0 : Kept W D { ca with frames := ⟨red, []⟩ :: ca.frames } := by
      refine ⟨fun f hf id t ht => ?_, hc.infs⟩
      rcases List.mem_cons.1 hf with rfl | hf
      · cases ht
      · exact hc.trees f hf id t ht
    obtain ⟨hr, _, hl, hd⟩ := h _ _ _ k0 hm
    rw [hm] at h1
    obtain ⟨fs, infs⟩ := c1
    cases fs with
    | nil => cases hl
    | cons f fs =>
      cases h1
      have hd : fs = ca.frames := hd
      exact ⟨hr, by subst hd; rfl⟩

/-- The tree of a concept without definition is built without a reduction. -/
theorem Search.toAst_reds {n : Nat} {e : Env} (he : Good W e) {k : Nat} (hk : ∀ l r, ¬ComposedOf s k l r)
    {ca ca' : Cache} {t : Syn} (h : (search n).toAst e (W.ι k) ca = .ok (t, ca')) : SameReds ca ca' := by
  cases n with
  | zero => cases h
  | succ n =>
    have h : (search n).toAstF e (W.ι k) ca = .ok (t, ca') := h
    unfold Search.toAstF at h
    cases hm : e.mask.get (W.ι k) with
    | some x => rw [hm] at h; cases h; rfl
    | none =>
      rw [hm] at h
      obtain ⟨c0, _, h0, h⟩ := SM.bind_ok.1 h
      cases h0
      cases hs : ca.syntaxTree? (W.ι k) with
      | some x => rw [hs] at h; cases h; rfl
      | none =>
        rw [hs] at h
        obtain ⟨m, _, h1, h⟩ := SM.bind_ok.1 h
        obtain ⟨hr, rfl⟩ := SM.lift_ok.1 h1
        obtain ⟨c, hc, M⟩ := he.read hr
        have hcomp : m.composition = none := by
          cases hx : m.composition with
          | none => rfl
          | some p =>
            obtain ⟨l', r', _, _, hp⟩ := M.composition_inv (l := p.1) (r := p.2) hx
            exact absurd ⟨c, hc, hp⟩ (hk l' r')
        obtain ⟨x, ca1, h2, h5⟩ := SM.bind_ok.1 h
        clear h
        have : ca1 = ca := by
          have bound : ∀ {o : Option Str} {ca2 : Cache}, (match o with
              | some s => liftM (e.view.bindConceptToSyntax (Syn.ofStr s) (W.ι k))
              | none => pure (View.newSyntaxFromConcept m) : SM Syn) ca2 = .ok (x, ca1) → ca1 = ca2 := by
            intro o ca2 h
            cases o with
            | some u => exact (SM.lift_ok.1 h).2.symm
            | none => cases h; rfl
          unfold Search.buildAst at h2
          rw [hcomp] at h2
          cases hst : m.string with
          | some u =>
            rw [hst] at h2
            exact bound (o := some (Search.formatString u)) h2
          | none =>
            rw [hst] at h2
            obtain ⟨o, ca2, h3, h2⟩ := SM.bind_ok.1 h2
            have e2 := (SM.lift_ok.1 h3).2
            exact (bound (o := o) h2).trans e2.symm
        subst this
        clear h2
        obtain ⟨_, ca3, h4, h6⟩ := SM.bind_ok.1 h5
        cases h4
        cases h6
        unfold SameReds Cache.insertSyntaxTree
        split
        · rfl
        · obtain ⟨fs, infs⟩ := ca1
          cases fs <;> rfl

theorem Lone.inert (L : Lone s D) {i : Nat} (hd : D i) {t : Syn} (pt : Plain (W.ι i) t) : Inert W t :=
  .word pt (L.words i hd).2.1 fun _ _ _ hc => absurd hc ((L.words i hd).2.2 _ _)

/-- No rule is found for the words. -/
theorem leaves_inert (L : Lone s D) {n : Nat} (hn : ∀ m, m ≤ n → SCalm W D (search m)) {e : Env} {t : Syn}
    (he : Good W e) (pt : Inert W t) : Leaves W D SameReds ((search n).findInferred e t) := by
  have hS := hn n (Nat.le_refl _)
  unfold Search.findInferred
  refine Leaves.bind_lift fun imp h1 => ?_
  have := he.concreteId h1
  rw [L.imp] at this
  subst this
  dsimp only [Option.map_some]
  intro ca r ca' hca h
  obtain ⟨op, ca1, h2, h⟩ := SM.bind_ok.1 h
  have k1 := Search.concreteAst_calm hS e he _ _ _ _ hca h2
  have reds1 : SameReds ca ca1 := by
    unfold Search.concreteAst at h2
    obtain ⟨o, _, h3, h2⟩ := SM.bind_ok.1 h2
    obtain ⟨h3', rfl⟩ := SM.lift_ok.1 h3
    have := he.concreteId h3'
    rw [L.red] at this
    subst this
    dsimp only [Option.map_some] at h2
    obtain ⟨t', _, h4, h2⟩ := SM.bind_ok.1 h2
    cases h2
    exact Search.toAst_reds he (L.builtins _ (.inr rfl)).2 h4
  cases op with
  | none => cases h; exact ⟨rfl, reds1⟩
  | some op =>
    have pO : Plain (W.ι (builtin .reduction)) op := by
      unfold Search.concreteAst at h2
      obtain ⟨o, _, h3, h2⟩ := SM.bind_ok.1 h2
      obtain ⟨h3', rfl⟩ := SM.lift_ok.1 h3
      have := he.concreteId h3'
      rw [L.red] at this
      subst this
      dsimp only [Option.map_some] at h2
      obtain ⟨t', _, h4, h2⟩ := SM.bind_ok.1 h2
      cases h2
      obtain ⟨w1, w2⟩ := L.builtins _ (.inr rfl)
      exact (hS.built _ _ _ _ _ he hca h4).plain w2 w1
    suffices hw : Leaves W D SameReds _ from ⟨(hw _ _ _ k1 h).1, (hw _ _ _ k1 h).2.trans reds1⟩
    clear h
    dsimp only
    refine Leaves.bind_lift fun p1 h1 => Leaves.bind_lift fun p2 h2 => Leaves.bind_lift fun p3 h3 => ?_
    obtain ⟨d1, vr⟩ := p1
    obtain ⟨d2, vc⟩ := p2
    obtain ⟨d3, vx⟩ := p3
    obtain ⟨b3, e1, e2, e3⟩ := he.ext.three h1 h2 h3
    have hnum := he.ext.num
    dsimp only at e1 e2 e3 ⊢
    subst e1 e2
    have he' : ∀ inf, Good W { e with view := { e.view with delta := d3 }, inferring := inf } :=
      fun inf => ⟨he.snap, b3, he.mask, he.bound⟩
    suffices hrest : ∀ inf : List CId, Leaves W D SameReds (do
        let (r, _) ← SM.spawn [] (do
          let impSyn ← (search n).toAst { e with view := { e.view with delta := d3 }, inferring := inf }
            (W.ι (builtin .implication))
          match ← ({ e.view with delta := d3 } : View).concreteId .tru with
          | none => SM.fault (.panic .unwrapNone)
          | some tru => do
            let truths := (← e.view.read tru).reducesFrom ++ [tru]
            (search n).findExamples { e with view := { e.view with delta := d3 }, inferring := inf }
              (Search.implicationRule impSyn op (View.newVariable (.unc (e.view.delta.overlay.num + 1))) t
                (View.newVariable (.unc e.view.delta.overlay.num))) truths
              ((search n).inferFrom e { e with view := { e.view with delta := d3 }, inferring := inf } impSyn op t
                (View.newVariable (.unc (e.view.delta.overlay.num + 1)))
                (View.newVariable (.unc e.view.delta.overlay.num))))
        return r : SM RR) from hrest _
    intro inf
    have he' := he' inf
    generalize hE : ({ e with view := { e.view with delta := d3 }, inferring := inf } : Env) = e' at he' ⊢
    have hv : ({ e.view with delta := d3 } : View) = e'.view := by rw [← hE]
    rw [hv]
    refine Leaves.spawn ?_
    intro ca r ca' hca h
    obtain ⟨I, ca1, h4, h⟩ := SM.bind_ok.1 h
    have pI : Plain (W.ι (builtin .implication)) I := by
      obtain ⟨w1, w2⟩ := L.builtins _ (.inl rfl)
      exact (hS.built _ _ _ _ _ he' hca h4).plain w2 w1
    have kI := hS.toAst _ _ he' _ _ _ hca h4
    have fI := (search_frames n).toAst (d := 0) _ _ _ _ _ h4
    suffices hw : Leaves W D (Popped W D) _ from
      ⟨(hw _ _ _ kI h).1, (hw _ _ _ kI h).2.1, (hw _ _ _ kI h).2.2.1.trans fI.1, (hw _ _ _ kI h).2.2.2.trans fI.2⟩
    clear h
    refine Leaves.bind_lift fun tru h5 => ?_
    have := he'.concreteId h5
    subst this
    cases ht : byRight s.concrete .tru with
    | none => exact Leaves.fault _
    | some tr =>
      dsimp only [Option.map_some]
      refine Leaves.bind_lift fun m hm => ?_
      obtain ⟨ct, hct, M⟩ := he.read hm
      have hset : ∀ y ∈ m.reducesFrom ++ [W.ι tr], ∃ q, y = W.ι q := by
        intro y hy
        simp only [List.mem_append, List.mem_singleton] at hy
        rcases hy with hy | rfl
        · obtain ⟨q, rfl, _⟩ := M.froms y hy
          exact ⟨q, rfl⟩
        · exact ⟨tr, rfl⟩
      unfold Search.findExamples Search.implicationRule
      dsimp only [Syn.newPair, Syn.expansion]
      refine Leaves.bind_lift fun bl hl => Leaves.bind_lift fun br hr => ?_
      have := Search.containsBound_var he' (by omega) hl
      subst this
      have := Search.containsBound_right (fun b hb => Search.containsBound_right (fun b hb => Search.containsBound_right
        (fun b hb => Search.containsBound_var he' hnum hb) hb) hb) hr
      subst this
      dsimp only
      have hlt : ∀ m, m < n → SCalm W D (search m) := fun m hm => hn m (Nat.le_of_lt hm)
      have hcu : (e.view.delta.overlay.num + 1) ≠ e.view.delta.overlay.num := by omega
      have calmEx : ∀ er set, CalmS W D ((search n).findEx e' (View.newVariable (.unc (e.view.delta.overlay.num + 1))) set
          ((search n).rightMatch e' (.newPair I (.newPair t (.newPair op
            (View.newVariable (.unc e.view.delta.overlay.num))))) er)) :=
        fun er set => hS.findEx _ _ _ _ he' fun _ => Search.rightMatch_calm hS _ he' _ _ _
      have failEx : ∀ er set, Fails W D ((search n).findEx e' (View.newVariable (.unc (e.view.delta.overlay.num + 1))) set
          ((search n).rightMatch e' (.newPair I (.newPair t (.newPair op
            (View.newVariable (.unc e.view.delta.overlay.num))))) (W.ι er))) :=
        fun er set => Search.findEx_rule L he' hlt hnum pI pt pO (by omega) hcu hS (Nat.le_refl _)
      have framesEx : ∀ er set, Frames 0 ((search n).findEx e' (View.newVariable (.unc (e.view.delta.overlay.num + 1))) set
          ((search n).rightMatch e' (.newPair I (.newPair t (.newPair op
            (View.newVariable (.unc e.view.delta.overlay.num))))) er)) :=
        fun er set => (search_frames n).findEx _ _ _ _ fun _ => Search.rightMatch_frames (search_frames n) _ _ _ _
      refine Leaves.findMap fun y hy => ?_
      obtain ⟨q, rfl⟩ := hset y hy
      refine Leaves.bind_lift fun m hm => ?_
      obtain ⟨cq, hcq, Mq⟩ := he'.read hm
      cases hcomp : m.composition with
      | none => exact Leaves.none Popped.refl
      | some p =>
        obtain ⟨l, r⟩ := p
        obtain ⟨l', r', rfl, rfl, hp⟩ := Mq.composition_inv hcomp
        dsimp only
        refine Leaves.bind_lift fun m hm => ?_
        exact Leaves.try_fails (failEx _ _) (calmEx _ _) (framesEx _ _) rfl

theorem leaves_reds (L : Lone s D) {n : Nat} (hn : ∀ m, m ≤ n → SCalm W D (search m)) {e : Env} {t : Syn} {i : Nat}
    (he : Good W e) (hd : D i) (pt : Plain (W.ι i) t) : Leaves W D SameReds ((search n).findInferred e t) :=
  leaves_inert L hn he (L.inert hd pt)

/-- No rule is found for the words. -/
theorem unruled (L : Lone s D) {n : Nat} (hn : ∀ m, m ≤ n → SCalm W D (search m)) : Unruled W D (search n) :=
  fun _ _ _ _ _ _ he hd pt hca h => (leaves_reds L hn he hd pt _ _ _ hca h).1

/-- Searches keep what is remembered. -/
theorem search_calm (L : Lone s D) (n : Nat) : SCalm W D (search n) := by
  induction n using Nat.strongRecOn with
  | _ n ih =>
    cases n with
    | zero =>
      exact ⟨fun _ _ _ => .fault _, fun _ _ _ => .fault _, fun _ _ _ => .fault _, fun _ _ _ _ => .fault _,
        fun _ _ _ _ _ _ => .fault _, fun _ _ _ _ => .fault _, fun _ _ _ => .fault _,
        fun _ _ _ _ _ _ _ h => by cases h⟩
    | succ n =>
      exact Search.step_calm L (ih n (Nat.lt_succ_self _))
        (unruled L fun m hm => ih m (Nat.lt_succ_of_le hm))

end Zia

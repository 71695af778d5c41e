import Verif.Lemmas.Ranked
import Verif.Lemmas.PendingParse

/-!
# Reading `x -> y` without brackets
-/

namespace Zia
open CM Spec Relation Parser
set_option linter.unusedSectionVars false
variable [HashOrder] {s : Snap} {W : Stand s} {D : Nat → Prop}

theorem setInsert_nodup {α : Type} [DecidableEq α] {l : List α} (h : l.Nodup) (a : α) : (setInsert l a).Nodup := by
  unfold setInsert
  split
  · exact h
  · rename_i hn
    rw [List.nodup_append]
    refine ⟨h, by simp, ?_⟩
    intro x hx y hy
    simp only [List.mem_singleton] at hy
    subst hy
    rintro rfl
    exact hn hx

theorem setExtend_nodup {α : Type} [DecidableEq α] {t l : List α} (h : l.Nodup) : (setExtend l t).Nodup := by
  unfold setExtend
  induction t generalizing l with
  | nil => exact h
  | cons a t ih => exact ih (setInsert_nodup h a)

theorem precedenceRelated_nodup {v : View} {ids : List CId} : ∀ {l : List (CId × CId)} {acc rel : List CId},
    acc.Nodup → precedenceRelated v ids acc l = .ok rel → rel.Nodup := by
  intro l
  induction l with
  | nil => intro acc rel hn h; cases h; exact hn
  | cons yc rest ih =>
    intro acc rel hn h
    unfold precedenceRelated at h
    simp only [Except.bind_eq_ok] at h
    obtain ⟨m, _, h⟩ := h
    refine ih (setExtend_nodup ?_) h
    split
    · exact setInsert_nodup hn _
    · exact hn

theorem eq_singleton {α : Type} {l : List α} {a : α} (hn : l.Nodup) (h : ∀ x, x ∈ l ↔ x = a) : l = [a] := by
  cases l with
  | nil => exact absurd ((h a).2 rfl) (by simp)
  | cons b l =>
    obtain rfl := (h b).1 (by simp)
    cases l with
    | nil => rfl
    | cons c l =>
      obtain rfl := (h c).1 (by simp)
      simp at hn

/-- Words take no part in precedence. -/
theorem word_unranked (A : Asked s D) (T : Ties s D) {e : Env} (he : Good W e) {i : Nat} (di : D i) :
    ¬Ranked e.view (W.ι (builtin .precedes)) (W.ι i) := by
  rintro ⟨m, hm, yc, hyc, h⟩
  obtain ⟨c, hc, M⟩ := he.read hm
  obtain ⟨y, q, rfl, hy⟩ := M.hands _ _ hyc
  have hg := AMap.get?_of_mem _ (T.maps _ c hc).1 _ _ hy
  obtain ⟨cq, h1, h2⟩ := (A.lone.rev _ c y q hc).1 hg
  rcases h with e | ⟨m', hm', xc, hxc, e⟩
  · cases W.inj _ _ e
    exact absurd (T.right i (.inl di) q _ ⟨cq, h1, by rw [composition_eq]; exact h2⟩) (by decide)
  · obtain ⟨c', hc', M'⟩ := he.read hm'
    obtain ⟨z, k, rfl, hz⟩ := M'.hands _ _ hxc
    cases W.inj _ _ e
    have hg := AMap.get?_of_mem _ (T.maps _ c' hc').2 _ _ hz
    obtain ⟨ck, h3, h4⟩ := (A.lone.rev _ c' i k hc').2 hg
    exact (A.lone.words i di).2.2 k q ⟨ck, h3, by rw [composition_eq]; exact h4⟩

/-- The store and the pending changes are the same, and what holds of the remembered trees still does. -/
def SameTrees (c c' : Ctx) : Prop :=
  c'.snap = c.snap ∧ c'.delta = c.delta ∧ ∀ P : Rel, (∀ e : Env, e.view = ⟨c.snap, c.delta⟩ →
    (∀ id, e.mask.get id = none) → KeptBy e P) → Cached P c.cache → Cached P c'.cache

/-- How the list of `x`, `->` and `y` is read. -/
theorem list_arrow (A : Asked s D) (T : Ties s D) {n : Nat} {c : Ctx} (hc : Asking W D c) {i j : Nat} (di : D i) (dj : D j)
    {X V Y : Syn} (pX : Plain (W.ι i) X) (pV : Plain (W.ι (builtin .reduction)) V) (pY : Plain (W.ι j) Y)
    (hR : Ranked ⟨c.snap, c.delta⟩ (W.ι (builtin .precedes)) (W.ι (builtin .reduction))) :
    Ends (astFromList n 3 [X, V, Y]) c (fun r c' => Asking W D c' ∧ c'.pinned = c.pinned ∧ SameTrees c c' ∧
      ∃ u f1 g1 f2 g2, r = .ok (.branch (some u) none X (.branch none none V Y f2 g2) f1 g1)) := by
  have hir : W.ι i ≠ W.ι (builtin .reduction) := fun e => word_unranked A T hc.good di (e ▸ hR)
  have hjr : W.ι j ≠ W.ι (builtin .reduction) := fun e => word_unranked A T hc.good dj (e ▸ hR)
  unfold astFromList
  unfold astFromListWith
  have hlow : Ends (lowestPrecedenceInfo (precedes n) [X, V, Y]) c (fun r c' => c' = c ∧ r = .ok ([V], [1])) := by
    unfold lowestPrecedenceInfo
    refine Ends.bind (Ends.reading fun o ho => ?_)
    have ho' : o = some (W.ι (builtin .precedes)) := by
      rw [hc.good.concreteId (e := env c) ho, T.concrete]; rfl
    subst ho'
    show Ends _ _ _
    refine Ends.bind (Ends.reading fun rel hrel => ?_)
    simp only [Except.bind_eq_ok] at hrel
    obtain ⟨m, hm, hrel⟩ := hrel
    have hids : [X, V, Y].filterMap Syn.concept = [W.ι i, W.ι (builtin .reduction), W.ι j] := by
      simp [List.filterMap, pX.concept, pV.concept, pY.concept]
    rw [hids] at hrel
    have hmem : rel = [W.ι (builtin .reduction)] := by
      refine eq_singleton (precedenceRelated_nodup List.nodup_nil hrel) fun x => ?_
      rw [mem_precedenceRelated hrel]
      simp only [List.not_mem_nil, false_or, List.mem_cons, or_false]
      constructor
      · rintro ⟨rfl | rfl | rfl, h⟩
        · exact absurd ⟨m, hm, h⟩ (word_unranked A T hc.good di)
        · rfl
        · exact absurd ⟨m, hm, h⟩ (word_unranked A T hc.good dj)
      · rintro rfl
        refine ⟨.inr (.inl rfl), ?_⟩
        obtain ⟨m', hm', h⟩ := hR
        rw [hm] at hm'
        cases hm'
        exact h
    subst hmem
    show Ends _ _ _
    have hl : lowest (precedes n) [] (HashOrder.order [W.ι (builtin .reduction)]) = pure [W.ι (builtin .reduction)] := by
      simp [HashOrder.order_singleton, HashOrder.order_nil, lowest, rank, setInsert]
    rw [hl, pure_bind]
    have hidx : indicesOf (W.ι (builtin .reduction)) 0 [X, V, Y] = [1] := by
      simp [indicesOf, pX.concept, pV.concept, pY.concept, hir, hjr]
    rw [if_neg (by simp)]
    simp only [HashOrder.order_singleton, List.flatMap_cons, List.flatMap_nil, hidx, List.append_nil]
    exact Ends.pure ⟨rfl, rfl⟩
  refine Ends.bind (hlow.mono ?_)
  rintro _ c0 ⟨e0, rfl⟩
  rw [e0]
  show Ends _ _ _
  dsimp only
  rw [if_neg (by simp)]
  refine Ends.bind (Ends.mono (Q := fun r c' => Asking W D c' ∧ c'.pinned = c.pinned ∧ SameTrees c c' ∧ r = .ok (some .right)) ?_ ?_)
  · unfold commonAssoc
    refine Ends.bind (Ends.searching fun a ca ha => ?_)
    obtain ⟨rfl, k1, n1⟩ := Search.getAssoc_right A T hc.good (.inr rfl) pV hc.kept hc.known ha
    show Ends _ _ _
    unfold commonAssoc
    refine Ends.pure ⟨⟨hc.snap, hc.delta, hc.bound, k1, n1⟩, rfl, ⟨rfl, rfl, fun P hP hca => ?_⟩, rfl⟩
    exact Trees.cached (hP _ rfl fun _ => rfl) (fun ms hf => (search_trees n).getAssoc _ _ _ hf) ha hca
  rintro _ c1 ⟨hc1, hp1, ⟨es, ed, hP1⟩, rfl⟩
  show Ends _ _ _
  have hloop : rightLoop n (astFromListWith (precedes n) (leftCase n) (fault .diverge) n 2) [X, V, Y] none [1] =
      pure (some (.newPair V Y, 1)) := by
    rfl
  rw [hloop, pure_bind]
  show Ends (do
    let head ← astFromListWith (precedes n) (leftCase n) (fault .diverge) n 2 (List.take 1 [X, V, Y])
    searching fun e => (search n).combine e head (.newPair V Y)) _ _
  have hh : astFromListWith (precedes n) (leftCase n) (fault .diverge) n 2 (List.take 1 [X, V, Y]) = pure X := rfl
  rw [hh, pure_bind]
  refine Ends.searching fun t ca ht => ?_
  obtain ⟨⟨k1, n1⟩, u1, rfl⟩ := Search.combine_known A T hc1.good (.inr rfl) pX pV hc1.kept hc1.known ht
  refine ⟨⟨hc1.snap, hc1.delta, hc1.bound, k1, n1⟩, hp1, ⟨es, ed, fun P hP hca => ?_⟩, _, _, _, _, _, rfl⟩
  refine Trees.cached (hP _ ?_ fun _ => rfl) (fun ms hf => Search.combine_trees (search_trees n) _ hf _ _) ht (hP1 P hP hca)
  show View.mk _ _ = View.mk _ _
  rw [es, ed]

end Zia

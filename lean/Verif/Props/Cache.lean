import Verif.World
import Verif.Lemmas.Frames
import Verif.Lemmas.Reach
import Verif.Witness.Cache

/-!
# Properties of the cache and of clones
-/

namespace Zia.Props

open Spec

set_option maxRecDepth 100000

theorem execute_part {o : HashOrder} {n : Nat} {c : Ctx} {s a : Str}
    (h : (@Context.execute o n c s).toOption.map Prod.fst = some a) :
    ∃ c', @Context.execute o n c s = .ok (a, c') := by
  cases e : @Context.execute o n c s with
  | error f => rw [e] at h; cases h
  | ok p =>
    rw [e] at h
    simp only [Except.toOption, Option.map_some, Option.some.injEq] at h
    exact ⟨p.2, by rw [← h]⟩

/-! ## C30: the cache -/

/-- C30 is false: there are a reachable context and a query that stores nothing, after which another query
has a different answer. -/
theorem cache_changes_answer : ∃ (o : HashOrder) (c c₁ c₂ c₃ : Ctx) (n : Nat) (q s r a b : Str), Reachable c ∧
    @Context.execute o n c q = .ok (r, c₁) ∧ c₁.snap = c.snap ∧
    @Context.execute o n c s = .ok (a, c₂) ∧ @Context.execute o n c₁ s = .ok (b, c₃) ∧ a ≠ b := by
  obtain ⟨c₂, h⟩ := execute_part Witness.asked_first
  obtain ⟨c₃, h'⟩ := execute_part Witness.asked_second
  exact ⟨_, _, _, _, _, _, _, _, _, _, _, Witness.mortal3_reachable, Witness.mortal4_eq, Witness.mortal_snap,
    h, h', by decide⟩

/-- C30 is false: a command may leave results in the cache that mention concepts by the names they had
before they were stored, and a later command that uses them crashes, although it is answered when the cache
is empty. -/
theorem cache_crashes : ∃ (o : HashOrder) (c c' : Ctx) (n : Nat) (s a : Str), Reachable c ∧
    @Context.execute o n c s = .error (.panic .noConcept) ∧
    @Context.execute o n { c with cache := .empty } s = .ok (a, c') := by
  obtain ⟨c', h⟩ := execute_part Witness.kept_fine
  exact ⟨_, _, c', _, _, _, Witness.kept2_reachable, Witness.kept_crash, h⟩

theorem insertReduction_found {t : Syn} {r : RR} (f : Frame) (fs : List Frame) (infs : AMap CId RR)
    (hv : t.isVariable = false) (hr : ∀ x reason, r = some (x, reason) → x.key ≠ t.key) :
    ((Cache.mk (f :: fs) infs).insertReduction t r).reduction? t = some r := by
  unfold Cache.insertReduction
  cases r with
  | none =>
    simp only [hv, Bool.not_false, Bool.true_and, if_true, Cache.reduction?, Cache.lookupIn,
      AMap.get?_insert]
  | some p =>
    have := hr p.1 p.2 rfl
    simp only [hv, Bool.not_false, Bool.true_and, decide_eq_true_eq, if_pos this, ne_eq, Cache.reduction?,
      Cache.lookupIn, AMap.get?_insert, if_true]

/-- The part of C30 that holds: a reduction that was just computed is found again, unchanged and without
any further effect, unless it is one of those that are not kept. Missing: after other reductions
(`cache_changes_answer`) or a commit (`cache_crashes`) it need not be what would be computed. -/
theorem repeated_reduction_partial [HashOrder] {n m : Nat} {e : Env} {t : Syn} {ca ca' : Cache} {r : RR}
    (h : (search n).reduce e t ca = .ok (r, ca')) (hf : ca.frames ≠ []) (hv : t.isVariable = false)
    (hr : ∀ x reason, r = some (x, reason) → x.key ≠ t.key) :
    (search (m + 1)).reduce e t ca' = .ok (r, ca') := by
  have found : ∀ {cb : Cache}, cb.reduction? t = some r →
      (search (m + 1)).reduce e t cb = .ok (r, cb) := by
    intro cb hk
    show (search m).reduceF e t cb = _
    unfold Search.reduceF
    refine SM.bind_ok.2 ⟨cb, cb, rfl, ?_⟩
    simp only [hk]
    rfl
  cases n with
  | zero => cases h
  | succ n =>
    change (search n).reduceF e t ca = _ at h
    unfold Search.reduceF at h
    obtain ⟨_, _, h1, h⟩ := SM.bind_ok.1 h
    cases h1
    cases hk : ca.reduction? t with
    | some r' =>
      simp only [hk] at h
      cases h
      exact found hk
    | none =>
      simp only [hk] at h
      obtain ⟨b, cb, h1, h⟩ := SM.bind_ok.1 h
      obtain ⟨hb, rfl⟩ := SM.lift_ok.1 h1
      split at h
      · rename_i hi
        cases h
        show (search m).reduceF e t ca = _
        unfold Search.reduceF
        refine SM.bind_ok.2 ⟨ca, ca, rfl, ?_⟩
        simp only [hk]
        refine SM.bind_ok.2 ⟨b, ca, SM.lift_ok.2 ⟨hb, rfl⟩, ?_⟩
        simp only [hi, if_true]
        rfl
      · obtain ⟨r', c1, h1, h⟩ := SM.bind_ok.1 h
        obtain ⟨_, c2, h2, h⟩ := SM.bind_ok.1 h
        cases SM.modify_ok.1 h2
        cases h
        refine found ?_
        have hl : c1.frames.length = ca.frames.length :=
          (Search.reduceNow_frames (d := 0) (search_frames n) e t _ _ _ h1).1
        obtain ⟨fs, infs⟩ := c1
        cases fs with
        | nil =>
          exact absurd (List.length_eq_zero_iff.1 hl.symm) hf
        | cons f fs =>
          exact insertReduction_found f fs infs hv hr

open Insertion in
/-- A reduction that is kept: `a` reduces to `b`. -/
example : ∃ r ca, (search 60).reduce (CM.env Witness.kept1)
      (.leaf (some (str% "a")) (some (.com 82)) .constant) Cache.empty = .ok (r, ca) ∧
    (r.map fun p => p.1.syntx) = some (some (str% "b")) := by
  have h : ((search 60).reduce (CM.env Witness.kept1)
      (.leaf (some (str% "a")) (some (.com 82)) .constant) Cache.empty).toOption.map
      (fun p => p.1.map fun p => p.1.syntx) = some (some (some (str% "b"))) := by decide +kernel
  match hx : (search 60).reduce (CM.env Witness.kept1)
      (.leaf (some (str% "a")) (some (.com 82)) .constant) Cache.empty, h with
  | .ok (r, ca), h => exact ⟨r, ca, rfl, Option.some.inj h⟩

/-! ## C31: clones -/

theorem clone_sessions {w : World} {i j : Nat} {c : Ctx × Nat} (h : w.sessions[j]? = some c) :
    (w.clone i).sessions[j]? = some c := by
  unfold World.clone
  split
  · exact h
  · exact (List.getElem?_append_left (List.getElem?_eq_some_iff.1 h).1).trans h

/-- The part of C31 that holds: whatever the other contexts of a program do, clones of this one among
them, what this one stores stays the same. Missing: its answers may change, because of the cache it shares
(`clone_changes_answer`). -/
theorem clones_keep_store_partial {w w' : World} {j k : Nat} {c : Ctx} (h : World.Others j w w')
    (hj : w.sessions[j]? = some (c, k)) : w'.sessions[j]? = some (c, k) := by
  induction h with
  | refl => exact hj
  | clone h ih => exact clone_sessions ih
  | @step w' w'' i h hij hs ih =>
    cases hs with
    | clone => exact clone_sessions ih
    | query => exact (List.getElem?_set_ne hij).trans ih
    | change => exact (List.getElem?_set_ne hij).trans ih

/-- The contexts of a program that starts with a reachable context are all reachable: everything that is
proved of reachable contexts holds for clones, however they are used together. -/
theorem clones_reachable {c : Ctx} {w : World} (hc : Reachable c) (h : World.From c w) :
    ∀ (i : Nat) (c' : Ctx) (k : Nat), w.sessions[i]? = some (c', k) → Reachable c' ∧ k < w.cells.length := by
  induction h with
  | start =>
    intro i c' k hi
    cases i with
    | zero => cases hi; exact ⟨hc, Nat.zero_lt_one⟩
    | succ i => cases hi
  | @step w w' j h hs ih =>
    have context : ∀ {i d}, w.context? i = some d → Reachable d := by
      intro i d hd
      unfold World.context? at hd
      split at hd
      · cases hd
      · rename_i c0 k h0
        obtain ⟨ca, _, rfl⟩ := Option.map_eq_some_iff.1 hd
        exact History.shared ca (ih _ _ _ h0).1
    intro i c' k hi
    cases hs with
    | clone =>
      unfold World.clone at hi ⊢
      cases h0 : w.sessions[j]? with
      | none =>
        simp only [h0] at hi ⊢
        exact ih _ _ _ hi
      | some p =>
        obtain ⟨c0, k0⟩ := p
        simp only [h0] at hi ⊢
        rw [List.getElem?_append] at hi
        split at hi
        · exact ih _ _ _ hi
        · rw [List.getElem?_singleton] at hi
          split at hi
          · cases hi
            have := (ih _ _ _ h0)
            rw [← (History.settled this.1).delta]
            exact this
          · cases hi
    | query hi' hc' he =>
      rw [List.getElem?_set] at hi
      simp only [List.length_set]
      split at hi
      · split at hi
        · cases hi
          exact ⟨Reachable.next (context hc') he, (ih _ _ _ hi').2⟩
        · cases hi
      · exact ih _ _ _ hi
    | change old hi' hc' he =>
      rw [List.getElem?_set] at hi
      simp only [List.length_append, List.length_set, List.length_singleton]
      split at hi
      · split at hi
        · cases hi
          exact ⟨Reachable.next (context hc') he, Nat.lt_succ_self _⟩
        · cases hi
      · exact ⟨(ih _ _ _ hi).1, Nat.lt_succ_of_lt (ih _ _ _ hi).2⟩

/-- C31 is false of answers: a context is cloned, the clone is asked something, and now the original has
another answer to a question. -/
theorem clone_changes_answer : ∃ (o : HashOrder) (c : Ctx) (w : World) (n : Nat) (s a b : Str)
    (c₁ c₂ c₃ : Ctx), Reachable c ∧ World.Others 0 (World.single c) w ∧ w.context? 0 = some c₁ ∧
    @Context.execute o n c s = .ok (a, c₂) ∧ @Context.execute o n c₁ s = .ok (b, c₃) ∧ a ≠ b := by
  obtain ⟨c₂, h⟩ := execute_part Witness.asked_first
  obtain ⟨c₃, h'⟩ := execute_part Witness.asked_second
  have q := Witness.mortal_query
  cases hq : @Context.command .insertion 60 (str% "mortal a") Witness.mortal3 with
  | error f => rw [hq] at q; cases q
  | ok p =>
    rw [hq] at q
    simp only [Except.toOption, Option.map_some, Option.some.injEq, decide_eq_true_eq] at q
    refine ⟨.insertion, Witness.mortal3, _, 60, _, _, _, Witness.mortal4, c₂, c₃, Witness.mortal3_reachable,
      .step (.clone (.refl _)) (i := 1) (by decide) (@World.Step.query .insertion _ 1 0 60 _ _ Witness.mortal3
        _ p.2 Witness.mortal4 p.1 rfl ?_ Witness.mortal4_eq hq q), ?_, h, h', by decide⟩
    · have hd : Witness.mortal3.delta = Nested.default := (History.settled Witness.mortal3_reachable).delta
      simp only [World.clone, World.single, World.context?, List.getElem?_cons_zero]
      simp only [← hd]
      rfl
    · simp only [World.clone, World.single, World.context?]
      exact congrArg some Witness.mortal_cache.symm

end Zia.Props

import Verif.Lemmas.Check
import Verif.Lemmas.Reach
import Verif.Lemmas.Related

/-!
# Every command keeps the memory of the built-in concepts right
-/

namespace Zia

open CM Spec

set_option linter.unusedSectionVars false

variable [HashOrder]

omit [HashOrder] in
theorem DeltaOk.before {d d' : Nested} {dd : Direct CId} {id : CId} (h : d.update dd = .ok (d', id))
    (hd : DeltaOk d') : DeltaOk d := by
  obtain ⟨o', rfl, hd⟩ := hd
  simp only [Nested.update, Except.bind_eq_ok, Except.pure_eq_ok] at h
  obtain ⟨⟨o1, i⟩, h1, h⟩ := h
  cases d with
  | over i o => simp only [Nested.setOverlay, Prod.mk.injEq] at h; cases h.1
  | base o =>
    cases h
    refine ⟨o, rfl, fun n e he => hd n e ?_⟩
    rw [(Delta.update_eq_ok h1).2.entries]
    exact List.mem_append_left _ he

omit [HashOrder] in
theorem DeltaOk.after {d d' : Nested} {dd : Direct CId} {id : CId} (hd : DeltaOk d)
    (h : d.update dd = .ok (d', id))
    (hn : ∀ nd, dd = .new nd → (∀ n p, (CId.com n, CDelta.indirect (.composedOf p)) ∉ recorded id dd)) : DeltaOk d' := by
  obtain ⟨o, rfl, hd⟩ := hd
  simp only [Nested.update, Except.bind_eq_ok, Except.pure_eq_ok] at h
  obtain ⟨⟨o1, i⟩, h1, h⟩ := h
  cases h
  obtain ⟨hid, hu⟩ := Delta.update_eq_ok h1
  refine ⟨o1, rfl, fun n e he => ?_⟩
  rw [hu.entries] at he
  rcases List.mem_append.1 he with he | he
  · exact hd n e he
  · have hp := mem_about.1 he
    rw [← hid] at hp
    constructor
    · rintro nd rfl
      cases dd with
      | new nd' =>
        rw [hid] at hp
        cases nd' <;> simp [recorded, Direct.subject] at hp
      | compose c ch => cases ch <;> simp [recorded] at hp
      | reduce c ch => cases ch <;> simp [recorded] at hp
      | remove x => simp [recorded] at hp
    · rintro p rfl
      cases dd with
      | new nd' => exact hn nd' rfl n p hp
      | compose c ch => cases ch <;> simp [recorded] at hp
      | reduce c ch => cases ch <;> simp [recorded] at hp
      | remove x => simp [recorded] at hp

theorem update_new_id {d d' : Nested} {nd : NewDelta CId} {id : CId} (h : d.update (.new nd) = .ok (d', id)) :
    ∃ u, id = .unc u := by
  simp only [Nested.update, Except.bind_eq_ok, Except.pure_eq_ok] at h
  obtain ⟨⟨o1, i⟩, h1, h⟩ := h
  cases h
  exact ⟨_, (Delta.update_eq_ok h1).1⟩

theorem Trace.deltaOk {s : Snap} {d d' : Nested} (h : Trace s d d') (hd : DeltaOk d) : DeltaOk d' := by
  induction h with
  | refl => exact hd
  | tail _ hm ih =>
    cases hm with
    | emit dd he hu =>
      refine ih.after hu ?_
      rintro nd rfl n p
      cases he with
      | str | freeVariable | boundVariable | composition => simp [recorded]
      | compose _ _ _ _ _ _ _ _ _ _ _ _ _ h =>
        exfalso
        unfold composeDelta at h
        split at h <;> (try split at h) <;> cases h
    | labelled t hl h1 h2 h3 =>
      have o1 := ih.after h1 (by rintro nd e n p; cases e; simp [recorded])
      have o2 := o1.after h2 (by rintro nd e n p; cases e; simp [recorded])
      obtain ⟨u, rfl⟩ := update_new_id h2
      exact o2.after h3 (by rintro nd e n p; cases e; simp [recorded])

omit [HashOrder] in
theorem DeltaOk.default : DeltaOk Nested.default := ⟨_, rfl, fun n e he => by cases he⟩

/-- What a command does to the memory, provided its changes are of the usual kind. -/
def Mindful (c c' : Ctx) : Prop :=
  DeltaOk c'.delta → c'.snap = c.snap ∧ DeltaOk c.delta ∧ (SnapOk c.snap → CacheOk c.cache → CacheOk c'.cache)

omit [HashOrder] in
theorem CacheOk.empty : CacheOk .empty := by
  intro f hf k t ht
  simp only [Cache.empty, List.mem_singleton] at hf
  subst hf
  cases ht

theorem mindful : Loose Mindful where
  refl _ := fun h => ⟨rfl, h, fun _ h => h⟩
  trans h h' := fun h2 => by
    obtain ⟨e, d, k⟩ := h' h2
    obtain ⟨e', d', k'⟩ := h d
    exact ⟨e.trans e', d', fun hs hc => k (e' ▸ hs) (k' hs hc)⟩
  cache f c a ca hf h := fun hd => ⟨rfl, hd, fun hs hc => hf _ (hs.view hd) _ _ _ hc h⟩
  update c dd d id h := fun hd => ⟨rfl, hd.before h, fun _ _ => .empty⟩
  bound _ _ := fun h => ⟨rfl, h, fun _ h => h⟩
  pin h := h

theorem Related.keeps {α : Type} {m : CM α} (h : Related Mindful m) (ht : Traced m) {c c' : Ctx} {r : Except ZiaError α}
    (hs : SnapOk c.snap) (hd : DeltaOk c.delta) (hc : CacheOk c.cache) (hm : m c = .ok (r, c')) : CacheOk c'.cache := by
  obtain ⟨_, t⟩ := ht c r c' hm
  exact (h c r c' hm (t.deltaOk hd)).2.2 hs hc

omit [HashOrder] in
theorem Reachable.snapOk {c : Ctx} (h : Reachable c) : SnapOk c.snap := by
  refine ⟨(History.settled h).refs, fun k x hx => ?_⟩
  obtain ⟨y, hy, e⟩ := ((History.concrete h).2 _ _).2 (show Conc boot0.snap (builtin k) k by cases k <;> exact ⟨_, rfl, rfl⟩)
  rw [hx] at hy
  cases hy
  simp [composition_eq, e, pairOf]

/-- Every command keeps the memory of the built-in concepts right. -/
theorem execute_cacheOk {n : Nat} {c c' : Ctx} {s r : Str} (hs : SnapOk c.snap) (hd : DeltaOk c.delta)
    (hc : CacheOk c.cache) (h : Context.execute n c s = .ok (r, c')) : CacheOk c'.cache := by
  simp only [Context.execute, Except.bind_eq_ok] at h
  obtain ⟨⟨x, c1⟩, h1, c2, h2, h3⟩ := h
  have := Related.keeps (Context.command_related mindful (fun _ _ h => ⟨rfl, h, fun _ h => h⟩) n s)
    (Context.command_traced n s) hs hd hc h1
  simp only [Context.commit, Except.bind_eq_ok, Except.pure_eq_ok] at h2
  obtain ⟨s2, h2, rfl⟩ := h2
  cases h3
  exact this

omit [HashOrder] in
theorem Spec.Lived.reachable {c : Ctx} (h : Lived c) : Reachable c := by
  induction h with
  | start h => exact .start h
  | step _ h ih => exact .step ih h fun _ _ _ _ _ _ _ _ _ => trivial
  | shared _ _ ih _ => exact .shared _ ih

omit [HashOrder] in
theorem Spec.Lived.cacheOk {c : Ctx} (h : Lived c) : CacheOk c.cache := by
  induction h with
  | start h => rw [boot0_eq] at h; cases h; exact .empty
  | @step _ c c' n s r hc h ih =>
    exact execute_cacheOk (Reachable.snapOk hc.reachable) ((History.settled hc.reachable).delta ▸ .default) ih h
  | shared _ _ _ ih => exact ih

omit [HashOrder] in
/-- The new context is reached by commands. -/
theorem boot_lived : Lived boot :=
  open Insertion in
  ((((((Lived.start boot0_eq).step boot1_eq).step boot2_eq).step boot3_eq).step boot4_eq).step boot5_eq).step boot6_eq

omit [HashOrder] in
theorem CacheOk.remembers {ca : Cache} (h : CacheOk ca) {k : CCT} {t : Syn}
    (ht : ca.syntaxTree? (.com (builtin k)) = some t) : t.concept = some (.com (builtin k)) := by
  obtain ⟨fs, infs⟩ := ca
  cases fs with
  | nil => cases ht
  | cons f fs => exact h f (by simp) k t ht

end Zia

import Verif.Lemmas.Run
import Verif.Lemmas.Links
import Mathlib.Logic.Relation

/-!
# Cycles

Adding edges to a node closes no cycle when the node does not reach their sources; the checks that a
command makes on the pending changes rule this out for the store those changes would give.
-/

namespace Zia

open Relation

/-- Edges into one node close no cycle if the node does not reach their sources. -/
theorem acyclic_add {α : Type} {R R' : α → α → Prop} {S : α → Prop} {k : α}
    (h : ∀ c, ¬ TransGen R c c) (sub : ∀ x y, R' x y → R x y ∨ (y = k ∧ S x))
    (ne : ∀ x, S x → ¬ ReflTransGen R k x) : ∀ c, ¬ TransGen R' c c := by
  have key : ∀ a b, TransGen R' a b →
      TransGen R a b ∨ ∃ x, S x ∧ ReflTransGen R a x ∧ ReflTransGen R k b := by
    intro a b hab
    induction hab with
    | single hb =>
      rcases sub _ _ hb with hb | ⟨rfl, hs⟩
      · exact .inl (.single hb)
      · exact .inr ⟨a, hs, .refl, .refl⟩
    | tail _ hc ih =>
      rcases sub _ _ hc with hc | ⟨rfl, hs⟩
      · rcases ih with ih | ⟨x, h1, h2, h3⟩
        · exact .inl (ih.tail hc)
        · exact .inr ⟨x, h1, h2, h3.tail hc⟩
      · rcases ih with ih | ⟨x, h1, h2, h3⟩
        · exact .inr ⟨_, hs, ih.to_reflTransGen, .refl⟩
        · exact .inr ⟨x, h1, h2, .refl⟩
  intro c hc
  rcases key c c hc with hc | ⟨x, h1, h2, h3⟩
  · exact h c hc
  · exact ne x h1 (h3.trans h2)

/-- Fewer edges. -/
theorem acyclic_sub {α : Type} {R R' : α → α → Prop} (h : ∀ c, ¬ TransGen R c c)
    (sub : ∀ x y, R' x y → R x y) : ∀ c, ¬ TransGen R' c c :=
  fun c hc => h c (TransGen.mono sub c c hc)

/-- `x` is a part of `c`. -/
def Part (f : Look) (x c : Nat) : Prop :=
  ∃ k l r, f c = some k ∧ pairOf k.spec = some (l, r) ∧ (x = l ∨ x = r)

/-- `i` reduces to `j`. -/
def Red (f : Look) (i j : Nat) : Prop := ∃ k, f i = some k ∧ redOf k.spec = some j

theorem Part.out {f : Look} {x y : Nat} (h : Part f x y) : f y ≠ none := by
  obtain ⟨k, _, _, h, _⟩ := h
  rw [h]
  exact Option.some_ne_none _

theorem Live.unique {s g : Snap} {a : CId} {i j : Nat} (h : Live s g a i) (h' : Live s g a j) :
    i = j := h.conv.unique h'.conv

theorem contains_read {v : View} {n : Nat} {o i : CId} {b : Bool} (h : v.contains n o i = .ok b) :
    ∃ m, v.read o = .ok m := by
  cases n with
  | zero => cases h
  | succ n =>
    simp only [View.contains, Except.bind_eq_ok] at h
    obtain ⟨m, hm, _⟩ := h
    exact ⟨m, hm⟩

theorem specs_look {g : Snap} {i : Nat} {sp : Specific Nat} (h : specs g i = some sp) :
    ∃ k, look g.concepts i = some k ∧ k.spec = sp := by
  simpa only [specs, Option.map_eq_some_iff] using h

/-- A readable id stands for a position. -/
theorem Sim.live {s g : Snap} {d : Delta} (h : Sim s d g) {a : CId} {m : Mixed}
    (hm : (View.mk s (.base d)).read a = .ok m) : ∃ i, Live s g a i := by
  obtain ⟨i, _, hl, _⟩ := h.read hm
  exact ⟨i, hl⟩

/-- The composition of a readable concept. -/
theorem Sim.pair {s g : Snap} {d : Delta} (h : Sim s d g) {a : CId} {m : Mixed} {i : Nat}
    (hm : (View.mk s (.base d)).read a = .ok m) (hi : Live s g a i) :
    ∃ k, look g.concepts i = some k ∧
      Option.Rel (fun p q => Conv g p.1 q.1 ∧ Conv g p.2 q.2) m.composition (pairOf k.spec) := by
  obtain ⟨j, sp, hl, hs, ha⟩ := h.read hm
  obtain ⟨k, hk, rfl⟩ := specs_look hs
  cases hi.unique hl
  exact ⟨k, hk, ha.comp⟩

/-- The reduction of a readable concept. -/
theorem Sim.red {s g : Snap} {d : Delta} (h : Sim s d g) {a : CId} {m : Mixed} {i : Nat}
    (hm : (View.mk s (.base d)).read a = .ok m) (hi : Live s g a i) :
    ∃ k, look g.concepts i = some k ∧ Option.Rel (Conv g) m.reduction (redOf k.spec) := by
  obtain ⟨j, sp, hl, hs, ha⟩ := h.read hm
  obtain ⟨k, hk, rfl⟩ := specs_look hs
  cases hi.unique hl
  exact ⟨k, hk, ha.red⟩

/-- When the containment check finds nothing, there is nothing to find. -/
theorem Sim.contains_false {s g : Snap} {d : Delta} (h : Sim s d g) {n : Nat} {o i : CId}
    {ko ki : Nat} (hc : (View.mk s (.base d)).contains n o i = .ok false) (ho : Live s g o ko)
    (hi : Live s g i ki) : ¬ TransGen (Part (look g.concepts)) ki ko := by
  induction n generalizing o ko with
  | zero => cases hc
  | succ n ih =>
    simp only [View.contains, Except.bind_eq_ok] at hc
    obtain ⟨m, hm, hc⟩ := hc
    obtain ⟨k, hk, hrel⟩ := h.pair hm ho
    cases hcomp : m.composition with
    | none =>
      rw [hcomp] at hrel
      intro ht
      have : ∀ x, ¬ Part (look g.concepts) x ko := by
        rintro x ⟨k', l, r, h1, h2, _⟩
        rw [hk] at h1; cases h1
        rw [h2] at hrel
        cases hrel
      cases ht with
      | single h1 => exact this _ h1
      | tail _ h1 => exact this _ h1
    | some p =>
      obtain ⟨l, r⟩ := p
      rw [hcomp] at hrel hc
      dsimp only at hc
      split at hc
      · cases hc
      · next hne =>
        rw [not_or] at hne
        simp only [Except.bind_eq_ok] at hc
        obtain ⟨b, hl, hc⟩ := hc
        cases b with
        | true => simp at hc; cases hc
        | false =>
          have hr : (View.mk s (.base d)).contains n r i = .ok false := by simpa using hc
          cases hp : pairOf k.spec with
          | none => rw [hp] at hrel; cases hrel
          | some q =>
            obtain ⟨l', r'⟩ := q
            rw [hp] at hrel
            cases hrel with
            | some hrel =>
              obtain ⟨cl, cr⟩ := hrel
              obtain ⟨ml, hml⟩ := contains_read hl
              obtain ⟨mr, hmr⟩ := contains_read hr
              obtain ⟨jl, ll⟩ := h.live hml
              obtain ⟨jr, lr⟩ := h.live hmr
              cases ll.conv.unique cl
              cases lr.conv.unique cr
              have part : ∀ x, Part (look g.concepts) x ko → x = l' ∨ x = r' := by
                rintro x ⟨k', a, b, h1, h2, h3⟩
                rw [hk] at h1; cases h1
                rw [hp] at h2; cases h2
                exact h3
              intro ht
              cases ht with
              | single h1 =>
                rcases part _ h1 with rfl | rfl
                · exact hne.1 (h.live_inj ll hi)
                · exact hne.2 (h.live_inj lr hi)
              | tail h0 h1 =>
                rcases part _ h1 with rfl | rfl
                · exact ih hl ll h0
                · exact ih hr lr h0

/-- Following reductions in the pending changes follows them in the store. -/
theorem Sim.normalForm {s g : Snap} {d : Delta} (h : Sim s d g) {n : Nat} {r : CId} {nf : Option CId}
    {ri k : Nat} (hn : (View.mk s (.base d)).normalForm n r = .ok nf) (hr : Live s g r ri)
    (ht : ReflTransGen (Red (look g.concepts)) ri k)
    (hk : ∀ j, ¬ Red (look g.concepts) k j) : ri = k ∨ ∃ a, nf = some a ∧ Live s g a k := by
  induction n generalizing r ri nf with
  | zero => cases hn
  | succ n ih =>
    simp only [View.normalForm, Except.bind_eq_ok] at hn
    obtain ⟨m, hm, hn⟩ := hn
    obtain ⟨c, hc, hrel⟩ := h.red hm hr
    rcases ReflTransGen.cases_head ht with e | ⟨j, hj, ht⟩
    · exact .inl e
    · obtain ⟨c', h1, h2⟩ := hj
      rw [hc] at h1; cases h1
      rw [h2] at hrel
      cases hred : m.reduction with
      | none => rw [hred] at hrel; cases hrel
      | some a =>
        rw [hred] at hrel hn
        cases hrel with
        | some hrel =>
        simp only [Except.bind_eq_ok, Except.pure_eq_ok] at hn
        obtain ⟨x, hx, rfl⟩ := hn
        have hl : ∃ m, (View.mk s (.base d)).read a = .ok m := by
          cases n with
          | zero => cases hx
          | succ n =>
            simp only [View.normalForm, Except.bind_eq_ok] at hx
            obtain ⟨m, hm, _⟩ := hx
            exact ⟨m, hm⟩
        obtain ⟨ma, hma⟩ := hl
        obtain ⟨ja, la⟩ := h.live hma
        cases la.conv.unique hrel
        rcases ih hx la ht with rfl | ⟨y, rfl, ly⟩
        · refine .inr ?_
          cases n with
          | zero => cases hx
          | succ n =>
            simp only [View.normalForm, Except.bind_eq_ok] at hx
            obtain ⟨m', hm', hx⟩ := hx
            obtain ⟨c', hc', hrel'⟩ := h.red hm' la
            cases hq : redOf c'.spec with
            | some q => exact (hk q ⟨c', hc', hq⟩).elim
            | none =>
              rw [hq] at hrel'
              cases hz : m'.reduction with
              | some z => rw [hz] at hrel'; cases hrel'
              | none =>
                rw [hz] at hx
                cases hx
                exact ⟨a, rfl, la⟩
        · exact .inr ⟨y, rfl, ly⟩

end Zia

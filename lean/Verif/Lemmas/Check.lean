import Verif.Lemmas.Invariant
import Verif.Boot

/-!
# Checking that a concrete history meets conditions on its changes
-/

namespace Zia

open Spec

/-- Check every change of a list, each in the store with the earlier ones applied. -/
def okOrder (q : Snap → CId × Direct CId → Bool) : Snap → List (CId × Direct CId) → Bool
  | _, [] => true
  | s, p :: ps => q s p && match s.applyOne p with
    | .ok s' => okOrder q s' ps
    | .error _ => true

theorem of_okOrder {q : Snap → CId × Direct CId → Bool} {s g : Snap}
    {before rest : List (CId × Direct CId)} {p : CId × Direct CId}
    (h : okOrder q s (before ++ p :: rest) = true) (hb : s.applyAll before = .ok g) :
    q g p = true := by
  induction before generalizing s with
  | nil =>
    cases hb
    simp only [List.nil_append, okOrder, Bool.and_eq_true] at h
    exact h.1
  | cons x xs ih =>
    simp only [List.cons_append, okOrder, Bool.and_eq_true] at h
    simp only [Snap.applyAll, Except.bind_eq_ok] at hb
    obtain ⟨s', h1, h2⟩ := hb
    rw [h1] at h
    exact ih h.2 h2

/-- Check every change of a command. -/
def okStep [HashOrder] (q : Snap → CId × Direct CId → Bool) (n : Nat) (c : Ctx) (s : Str) : Bool :=
  match Context.command n s c with
  | .ok (_, c1) => okOrder q c.snap c1.delta.order
  | .error _ => true

theorem History.check [HashOrder] {Q : Snap → CId × Direct CId → Prop} {q : Snap → CId × Direct CId → Bool}
    {n : Nat} {c c' : Ctx} {s r : Str} (hq : ∀ g p, q g p = true → Q g p) (hc : History Q c)
    (h : Context.execute n c s = .ok (r, c')) (hk : okStep q n c s = true) : History Q c' := by
  refine .step hc h ?_
  intro x c1 h1 g p rest before ho hb
  unfold okStep at hk
  rw [h1] at hk
  simp only at hk
  rw [ho] at hk
  exact hq g p (of_okOrder hk hb)

theorem History.mono {Q Q' : Snap → CId × Direct CId → Prop} (hq : ∀ g p, Q g p → Q' g p) {c : Ctx}
    (h : History Q c) : History Q' c := by
  induction h with
  | start h => exact .start h
  | step _ h hQ ih => exact .step ih h (fun x c1 h1 g p rest before h2 h3 => hq g p (hQ x c1 h1 g p rest before h2 h3))
  | shared ca _ ih => exact .shared ca ih

theorem History.reachable {Q : Snap → CId × Direct CId → Prop} {c : Ctx} (h : History Q c) :
    Reachable c := History.mono (fun _ _ _ => trivial) h

theorem Reachable.next [HashOrder] {n : Nat} {c c' : Ctx} {s r : Str} (h : Reachable c)
    (he : Context.execute n c s = .ok (r, c')) : Reachable c' :=
  .step h he (fun _ _ _ _ _ _ _ _ _ => trivial)

/-- `NoReduction`, computed. -/
def noReduction (s : Snap) (a : CId) : Bool :=
  match s.convert a with
  | .error _ => true
  | .ok i => match s.concepts[i]? with
    | none => true
    | some c => c.reduction.isNone

theorem of_noReduction {s : Snap} {a : CId} (h : noReduction s a = true) : NoReduction s a := by
  intro i c hi hc
  unfold noReduction at h
  rw [hi] at h
  simp only [hc] at h
  cases hr : c.reduction with
  | none => rfl
  | some x => rw [hr] at h; cases h

/-- `ReducesFresh`, computed. -/
def reducesFresh (s : Snap) (p : CId × Direct CId) : Bool :=
  match p.2 with
  | .reduce c (.create _) => noReduction s c
  | .reduce c (.update _ _) => noReduction s c
  | _ => true

theorem of_reducesFresh {s : Snap} {p : CId × Direct CId} (h : reducesFresh s p = true) :
    ReducesFresh s p := by
  unfold ReducesFresh
  unfold reducesFresh at h
  split <;> simp_all [of_noReduction]

/-- `KeepsDefinitions`, computed. -/
def keepsDefinitions (_ : Snap) (p : CId × Direct CId) : Bool :=
  match p.2 with
  | .compose _ (.update _ _) => false
  | .compose _ (.remove _) => false
  | _ => true

theorem of_keepsDefinitions {s : Snap} {p : CId × Direct CId} (h : keepsDefinitions s p = true) :
    KeepsDefinitions s p := by
  unfold KeepsDefinitions
  unfold keepsDefinitions at h
  split <;> simp_all

/-- Both conditions. -/
def Calm (s : Snap) (p : CId × Direct CId) : Prop := ReducesFresh s p ∧ KeepsDefinitions s p

/-- Both conditions, computed. -/
def calm (s : Snap) (p : CId × Direct CId) : Bool := reducesFresh s p && keepsDefinitions s p

theorem of_calm {s : Snap} {p : CId × Direct CId} (h : calm s p = true) : Calm s p := by
  simp only [calm, Bool.and_eq_true] at h
  exact ⟨of_reducesFresh h.1, of_keepsDefinitions h.2⟩

set_option maxRecDepth 100000

open Insertion

/-- The history of a new context meets both conditions. -/
theorem boot_calm : History Calm boot := by
  have h0 : History Calm boot0 := .start boot0_eq
  have h1 := History.check (fun _ _ => of_calm) h0 boot1_eq (by decide +kernel)
  have h2 := History.check (fun _ _ => of_calm) h1 boot2_eq (by decide +kernel)
  have h3 := History.check (fun _ _ => of_calm) h2 boot3_eq (by decide +kernel)
  have h4 := History.check (fun _ _ => of_calm) h3 boot4_eq (by decide +kernel)
  have h5 := History.check (fun _ _ => of_calm) h4 boot5_eq (by decide +kernel)
  exact History.check (fun _ _ => of_calm) h5 boot6_eq (by decide +kernel)

end Zia

import Verif.Lemmas.Invariant

/-!
# Built-in concepts in every history
-/

namespace Zia

open Spec Relation

/-- A change that introduces no built-in concept. -/
def NoCct : Direct CId → Prop
  | .new (.left _ _ (some _)) => False
  | .new (.right _ _ (some _)) => False
  | .new (.double _ (some _)) => False
  | _ => True

theorem Emit.noCct {v : View} {dd : Direct CId} (h : Emit v dd) : NoCct dd := by
  cases h with
  | compose n c l r m mc d hl hr hcl hcr hm hmc hh =>
    unfold composeDelta at hh
    split at hh <;> cases hh <;> trivial
  | reduce n c r m nf => cases nf <;> trivial
  | _ => trivial

@[grind =] theorem pushNew_concrete (s : Snap) (u : Nat) (cs : List Con) (c : Con) :
    (s.pushNew u cs c).concrete = s.concrete := rfl

@[grind =] theorem withConcepts_concrete (s : Snap) (cs : List Con) :
    (s.withConcepts cs).concrete = s.concrete := rfl

@[grind =] theorem register_none (s : Snap) (i : Nat) : s.registerConcrete i none = s := rfl

/-- The built-in concepts stored in a store. -/
def Conc (s : Snap) (i : Nat) (t : CCT) : Prop := ∃ k, s.concepts[i]? = some k ∧ k.spec = .concrete t

theorem Step.concrete {s s' : Snap} {p : CId × Direct CId} (hn : NoCct p.2) (st : Step s p s') :
    s'.concrete = s.concrete := by
  cases st with
  | left u comp r t => cases t with | none => rfl | some t => exact hn.elim
  | right u comp r t => cases t with | none => rfl | some t => exact hn.elim
  | double u comp t => cases t with | none => rfl | some t => exact hn.elim
  | _ => rfl

@[grind =] theorem leafOrConcrete_none : (leafOrConcrete none : Specific Nat) = .abst (.leaf .constant) none :=
  rfl

theorem Step.conc {s s' : Snap} {p : CId × Direct CId} (hn : NoCct p.2) (st : Step s p s') {i : Nat}
    {t : CCT} (h : Conc s' i t) : Conc s i t := by
  obtain ⟨k, hk, hs⟩ := h
  unfold Conc
  cases st with
  | left u comp r t => cases t with | none => grind | some t => exact hn.elim
  | right u comp r t => cases t with | none => grind | some t => exact hn.elim
  | double u comp t => cases t with | none => grind | some t => exact hn.elim
  | _ => grind [Concept.freeVar, Concept.boundVar, Concept.mk']

theorem Step.conc_keep {s s' : Snap} {p : CId × Direct CId} (st : Step s p s') {i : Nat}
    {t : CCT} (h : Conc s i t) : Conc s' i t := by
  obtain ⟨k, hk, hs⟩ := h
  obtain ⟨k', h1, _, h2⟩ := st.keepSpec hk (by rw [hs]; intro _ _ h; cases h)
  exact ⟨k', h1, h2.trans hs⟩

/-- The built-in table and the built-in concepts are those of the start. -/
def ConcInv (s : Snap) : Prop :=
  s.concrete = boot0.snap.concrete ∧ ∀ i t, Conc s i t ↔ Conc boot0.snap i t

theorem ConcInv.step {s s' : Snap} {p : CId × Direct CId} (h : ConcInv s) (hn : NoCct p.2)
    (st : Step s p s') : ConcInv s' :=
  ⟨(st.concrete hn).trans h.1, fun i t => ⟨fun hc => (h.2 i t).1 (st.conc hn hc),
    fun hc => st.conc_keep ((h.2 i t).2 hc)⟩⟩

theorem History.concrete {Q : Snap → CId × Direct CId → Prop} {c : Ctx} (h : History Q c) :
    ConcInv c.snap := by
  refine History.induct (R := ConcInv) (fun _ _ g => ConcInv g) ⟨rfl, fun _ _ => Iff.rfl⟩
    (fun _ _ _ h => h) ?_ ?_ ?_ h
  · intro s d g d' g' dd _ _ _ sim hP he hq re _
    exact ConcInv.step hP he.noCct (applyOne_step re.applied)
  · intro _ s d g d1 g1 d2 g2 d3 g3 t l _ _ _ sim hP _ _ _ _ r1 s1 r2 s2 r3 _
    have h1 := ConcInv.step hP (by trivial) (applyOne_step r1.applied)
    have h2 := ConcInv.step h1 (by trivial) (applyOne_step r2.applied)
    exact ConcInv.step h2 (by trivial) (applyOne_step r3.applied)
  · intro s d g g' _ _ _ _ _ hP hst
    rw [applyStrings_only hst]
    exact hP

end Zia

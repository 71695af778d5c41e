import Verif.Lemmas.Acyclic

/-!
# Reduction links backwards, and cycles of reductions
-/

namespace Zia

open Relation

attribute [grind =] List.mem_filter

/-- Concepts listed as reducing do reduce. -/
def RedRev (f : Look) : Prop := ∀ (j : Nat) (c : Con) (i : Nat), f j = some c → i ∈ c.redFrom →
  Red f i j

/-- The concepts that a change gives a reduction to have none, and a reduction that is taken away is
the one the concept has. -/
def Unreduced (s : Snap) : Direct CId → Prop
  | .reduce c (.create _) => ∀ k ck, s.convert c = .ok k → look s.concepts k = some ck →
    redOf ck.spec = none
  | .reduce c (.update _ _) => ∀ k ck, s.convert c = .ok k → look s.concepts k = some ck →
    redOf ck.spec = none
  | .reduce c (.remove b) => ∀ k ck bi, s.convert c = .ok k → s.convert b = .ok bi →
    look s.concepts k = some ck → redOf ck.spec = some bi
  | _ => True

theorem RedRev.other {f : Look} (h : RedRev f) {k : Nat} {ck c : Con}
    (hck : f k = some ck) (hs : redOf c.spec = redOf ck.spec) (hr : c.redFrom = ck.redFrom) :
    RedRev (upd f k c) := by
  unfold RedRev Red at h ⊢
  intro j x i hj hi
  have := h j
  grind

theorem RedRev.fresh {f : Look} (h : RedRev f) {n : Nat} {c : Con}
    (hn : f n = none) (hr : c.redFrom = []) : RedRev (upd f n c) := by
  unfold RedRev Red at h ⊢
  intro j x i hj hi
  have := h j
  grind

theorem RedRev.reduce {f : Look} (h : RedRev f) {k r : Nat} {ck cr : Con} {sp : Specific Nat}
    (hck : f k = some ck) (hcr : f r = some cr) (hne : k ≠ r) (hu : redOf ck.spec = none)
    (hsp : redOf sp = some r) : RedRev (upd (upd f k (ck.withSpec sp)) r (cr.addFrom k)) := by
  unfold RedRev Red at h ⊢
  intro j x i hj hi
  have := h j
  have := h r cr
  grind

theorem RedRev.rereduce {f : Look} (h : RedRev f) {k b r : Nat} {ck cb cr : Con} {sp : Specific Nat}
    (hck : f k = some ck) (hcb : f b = some cb) (hcr : f r = some cr) (hkb : k ≠ b) (hkr : k ≠ r)
    (hbr : b ≠ r) (hu : redOf ck.spec = none) (hsp : redOf sp = some r) :
    RedRev (upd (upd (upd f k (ck.withSpec sp)) b (cb.dropFrom k)) r (cr.addFrom k)) := by
  unfold RedRev Red at h ⊢
  intro j x i hj hi
  have := h j
  have := h r cr
  have := h b cb
  grind

theorem RedRev.unreduce {f : Look} (h : RedRev f) {k b : Nat} {ck cb : Con} {sp : Specific Nat}
    (hck : f k = some ck) (hcb : f b = some cb) (hkb : k ≠ b) (hu : redOf ck.spec = some b) :
    RedRev (upd (upd f k (ck.withSpec sp)) b (cb.dropFrom k)) := by
  unfold RedRev Red at h ⊢
  intro j x i hj hi
  have := h j
  have := h b cb
  grind

theorem RedRev.reducesTo {f : Look} (h : RedRev f) {n r : Nat} {cr c : Con}
    (hn : f n = none) (hcr : f r = some cr) (hs : redOf c.spec = some r) (hr : c.redFrom = []) :
    RedRev (upd (upd f r (cr.addFrom n)) n c) := by
  unfold RedRev Red at h ⊢
  intro j x i hj hi
  have := h j
  have := h r cr
  grind

/-- Changes that name the right reductions keep the links backwards. -/
theorem LStep.redRev {s s' : Snap} {p : CId × Direct CId} (h : RedRev (look s.concepts))
    (hu : Unreduced s p.2) (st : LStep s s' p) : RedRev (look s'.concepts) := by
  have hn := look_length s.concepts
  cases st with
  | freeVariable u he => rw [he]; exact h.fresh hn rfl
  | boundVariable u he => rw [he]; exact h.fresh hn rfl
  | str u t he => rw [he]; exact h.fresh hn rfl
  | composition u p l r cl cr hl hr hne hcl hcr hlo hro f b he =>
    rw [he]
    apply RedRev.fresh
    · apply RedRev.other
      · apply RedRev.other h hcl <;> rfl
      · exact upd_ne hcr hne
      · rfl
      · rfl
    · exact upd_none (upd_none hn hcl) (upd_ne hcr hne)
    · rfl
  | left u comp r t ri k cr ck red f b hr hk hne hcr hck hs hro he =>
    rw [he]
    apply RedRev.fresh
    · apply RedRev.other
      · apply RedRev.other h hcr <;> rfl
      · exact upd_ne hck hne
      · rw [hs]; rfl
      · rfl
    · exact upd_none (upd_none hn hcr) (upd_ne hck hne)
    · rfl
  | right u comp r t ri k cr ck red f b hr hk hne hcr hck hs hro he =>
    rw [he]
    apply RedRev.fresh
    · apply RedRev.other
      · apply RedRev.other h hcr <;> rfl
      · exact upd_ne hck hne
      · rw [hs]; rfl
      · rfl
    · exact upd_none (upd_none hn hcr) (upd_ne hck hne)
    · rfl
  | double u comp t k ck mc red hk hck hs he =>
    rw [he]
    apply RedRev.fresh
    · apply RedRev.other h hck
      · rw [hs]; rfl
      · rfl
    · exact upd_none hn hck
    · rfl
  | reducesTo u r ri cr hr hcr he =>
    rw [he]
    exact h.reducesTo hn hcr rfl rfl
  | composeCreate comp p k l r ck cl cr mc red f b hk hl hr hkl hkr hlr hck hcl hcr hs hlo hro he =>
    rw [he]
    refine ((h.other (c := ck.withSpec (.abst (.comp l r f b) red)) hck (by rw [hs]; rfl) rfl).other
      (ck := cl) (c := cl.addLeft r k) (upd_ne hcl hkl) rfl rfl).other (ck := cr) ?_ rfl rfl
    exact upd_ne (upd_ne hcr hkr) hlr
  | composeUpdate comp b a k bl br al ar ck cbl cbr cal car mc red f g hk hbl hbr hal har
      h1 h2 h3 h4 h5 h6 h7 h8 h9 h10 hck hcbl hcbr hcal hcar hs hlo hro he =>
    rw [he]
    refine ((((h.other (c := ck.withSpec (.abst (.comp al ar f g) red)) hck (by rw [hs]; rfl)
      rfl).other (ck := cbl) (c := cbl.dropLeft k) (upd_ne hcbl h1) rfl rfl).other
      (ck := cbr) (c := cbr.dropRight k) ?_ rfl rfl).other (ck := cal) (c := cal.addLeft ar k) ?_ rfl
      rfl).other (ck := car) ?_ rfl rfl
    · exact upd_ne (upd_ne hcbr h2) h5
    · exact upd_ne (upd_ne (upd_ne hcal h3) h6) h8
    · exact upd_ne (upd_ne (upd_ne (upd_ne hcar h4) h7) h9) h10
  | composeRemove comp p k l r ck cl cr mc red hk hl hr hkl hkr hlr hck hcl hcr hs he =>
    rw [he]
    refine ((h.other (c := ck.withSpec (.abst (.leaf .constant) red)) hck (by rw [hs]; rfl) rfl).other
      (ck := cl) (c := cl.dropLeft k) (upd_ne hcl hkl) rfl rfl).other (ck := cr) ?_ rfl rfl
    exact upd_ne (upd_ne hcr hkr) hlr
  | reduceCreate c r k ri ck cr mc red hk hr hne hck hcr hs he =>
    rw [he]
    exact h.reduce hck hcr hne (hu _ _ hk hck) rfl
  | reduceUpdate c b a k bi ai ck cb ca mc red hk hb ha hkb hka hba hck hcb hca hs he =>
    rw [he]
    exact h.rereduce hck hcb hca hkb hka hba (hu _ _ hk hck) rfl
  | reduceRemove c b k bi ck cb mc red hk hb hne hck hcb hs he =>
    rw [he]
    exact h.unreduce hck hcb hne (hu _ _ _ hk hb hck)

/-- The reduction that a change adds. -/
def newRed (s : Snap) : Direct CId → Nat → Nat → Prop
  | .new (.reducesTo r), i, j => i = s.concepts.length ∧ s.convert r = .ok j
  | .reduce c (.create r), i, j => s.convert c = .ok i ∧ s.convert r = .ok j
  | .reduce c (.update _ r), i, j => s.convert c = .ok i ∧ s.convert r = .ok j
  | _, _, _ => False

/-- The parts that a change adds. -/
def newPart (s : Snap) : Direct CId → Nat → Nat → Prop
  | .new (.composition p), x, y => y = s.concepts.length ∧
    (s.convert p.left = .ok x ∨ s.convert p.right = .ok x)
  | .new (.left comp r _), x, y => s.convert comp = .ok y ∧
    (x = s.concepts.length ∨ s.convert r = .ok x)
  | .new (.right comp l _), x, y => s.convert comp = .ok y ∧
    (s.convert l = .ok x ∨ x = s.concepts.length)
  | .new (.double comp _), x, y => s.convert comp = .ok y ∧ x = s.concepts.length
  | .compose c (.create p), x, y => s.convert c = .ok y ∧
    (s.convert p.left = .ok x ∨ s.convert p.right = .ok x)
  | .compose c (.update _ p), x, y => s.convert c = .ok y ∧
    (s.convert p.left = .ok x ∨ s.convert p.right = .ok x)
  | _, _, _ => False

theorem pairOf_abst (mc : MComp Nat) (red red' : Option Nat) :
    pairOf (.abst mc red) = pairOf (.abst mc red') := by cases mc <;> rfl

/-- A change adds no other reduction. -/
theorem LStep.red {s s' : Snap} {p : CId × Direct CId} (st : LStep s s' p) {i j : Nat}
    (h : Red (look s'.concepts) i j) : Red (look s.concepts) i j ∨ newRed s p.2 i j := by
  have hn := look_length s.concepts
  obtain ⟨k, h1, h2⟩ := h
  unfold Red
  cases st <;> (rename_i he _ _; rw [he] at h1; simp only [newRed]; grind)

/-- A change adds no other parts. -/
theorem LStep.part {s s' : Snap} {p : CId × Direct CId} (st : LStep s s' p) {x y : Nat}
    (h : Part (look s'.concepts) x y) : Part (look s.concepts) x y ∨ newPart s p.2 x y := by
  have hn := look_length s.concepts
  obtain ⟨k, l, r, h1, h2, h3⟩ := h
  unfold Part
  cases st <;> (rename_i he _ _; rw [he] at h1; simp only [newPart]; grind [pairOf_abst])

end Zia

import Verif.Lemmas.Links

/-!
# Links between concepts and their parts
-/

namespace Zia

open Concept

/-- A composed concept is recorded by both of its parts. -/
def CompFwd (f : Look) : Prop := ∀ (i : Nat) (c : Con) (l r : Nat), f i = some c →
  pairOf c.spec = some (l, r) →
  (∃ k, f l = some k ∧ k.leftOf.get? r = some i) ∧
  (∃ k, f r = some k ∧ k.rightOf.get? l = some i)

/-- Recorded compositions exist. -/
def CompRev (f : Look) : Prop := ∀ (x : Nat) (k : Con) (y i : Nat), f x = some k →
  (k.leftOf.get? y = some i → ∃ c, f i = some c ∧ pairOf c.spec = some (x, y)) ∧
  (k.rightOf.get? y = some i → ∃ c, f i = some c ∧ pairOf c.spec = some (y, x))

/-- Changes that do not take a composition away. -/
def Composing : Direct CId → Prop
  | .compose _ (.update _ _) => False
  | .compose _ (.remove _) => False
  | _ => True

theorem CompFwd.composed {f : Look} (h : CompFwd f) {n l r : Nat} {cl cr : Con}
    (hn : f n = none) (hne : l ≠ r) (hcl : f l = some cl) (hcr : f r = some cr)
    (h1 : cl.leftOf.get? r = none) (h2 : cr.rightOf.get? l = none) {c : Con}
    (hc : pairOf c.spec = some (l, r)) :
    CompFwd (upd (upd (upd f l (cl.addLeft r n)) r (cr.addRight l n)) n c) := by
  unfold CompFwd at h ⊢
  intro i k l' r' hi hpr
  have := h i k l' r'
  constructor <;> grind

theorem CompFwd.lefthand {f : Look} (h : CompFwd f) {n r k : Nat} {cr ck c : Con}
    {sp : Specific Nat} (hn : f n = none) (hne : r ≠ k) (hcr : f r = some cr) (hck : f k = some ck)
    (hs : pairOf ck.spec = none) (h1 : ∀ w, cr.rightOf.get? n = some w → w = k)
    (hsp : pairOf sp = some (n, r)) (hc : pairOf c.spec = none) (hl : c.leftOf = [(r, k)]) :
    CompFwd (upd (upd (upd f r (cr.addRight n k)) k (ck.withSpec sp)) n c) := by
  unfold CompFwd at h ⊢
  intro i x l' r' hi hpr
  have := h i x l' r'
  constructor <;> grind

theorem CompFwd.righthand {f : Look} (h : CompFwd f) {n l k : Nat} {cl ck c : Con}
    {sp : Specific Nat} (hn : f n = none) (hne : l ≠ k) (hcl : f l = some cl) (hck : f k = some ck)
    (hs : pairOf ck.spec = none) (h1 : ∀ w, cl.leftOf.get? n = some w → w = k)
    (hsp : pairOf sp = some (l, n)) (hc : pairOf c.spec = none) (hl : c.rightOf = [(l, k)]) :
    CompFwd (upd (upd (upd f l (cl.addLeft n k)) k (ck.withSpec sp)) n c) := by
  unfold CompFwd at h ⊢
  intro i x l' r' hi hpr
  have := h i x l' r'
  constructor <;> grind

theorem CompFwd.doubled {f : Look} (h : CompFwd f) {n k : Nat} {ck c : Con}
    {sp : Specific Nat} (hn : f n = none) (hck : f k = some ck)
    (hsp : pairOf sp = some (n, n)) (hc : pairOf c.spec = none) (hl : c.leftOf = [(n, k)])
    (hr : c.rightOf = [(n, k)]) : CompFwd (upd (upd f k (ck.withSpec sp)) n c) := by
  unfold CompFwd at h ⊢
  intro i x l' r' hi hpr
  have := h i x l' r'
  constructor <;> grind

theorem CompFwd.create {f : Look} (h : CompFwd f) {k l r : Nat} {ck cl cr : Con}
    {sp : Specific Nat} (hkl : k ≠ l) (hkr : k ≠ r) (hlr : l ≠ r) (hck : f k = some ck)
    (hcl : f l = some cl) (hcr : f r = some cr)
    (h1 : ∀ w, cl.leftOf.get? r = some w → w = k) (h2 : ∀ w, cr.rightOf.get? l = some w → w = k)
    (hsp : pairOf sp = some (l, r)) :
    CompFwd (upd (upd (upd f k (ck.withSpec sp)) l (cl.addLeft r k)) r (cr.addRight l k)) := by
  unfold CompFwd at h ⊢
  intro i x l' r' hi hpr
  have := h i x l' r'
  constructor <;> grind

theorem CompFwd.other {f : Look} (h : CompFwd f) {k : Nat} {ck c : Con}
    (hck : f k = some ck) (hs : pairOf c.spec = pairOf ck.spec) (hl : c.leftOf = ck.leftOf)
    (hr : c.rightOf = ck.rightOf) : CompFwd (upd f k c) := by
  unfold CompFwd at h ⊢
  intro i x l' r' hi hpr
  have := h i x l' r'
  constructor <;> grind

theorem CompFwd.fresh {f : Look} (h : CompFwd f) {n : Nat} {c : Con}
    (hn : f n = none) (hs : pairOf c.spec = none) : CompFwd (upd f n c) := by
  unfold CompFwd at h ⊢
  intro i x l' r' hi hpr
  have := h i x l' r'
  constructor <;> grind

/-- Every change but the removal of a composition keeps the forward links. -/
theorem LStep.compFwd {s s' : Snap} {p : CId × Direct CId}
    (h : CompFwd (look s.concepts)) (hp : Composing p.2) (st : LStep s s' p) :
    CompFwd (look s'.concepts) := by
  have hn := look_length s.concepts
  cases st with
  | composeUpdate => exact hp.elim
  | composeRemove => exact hp.elim
  | freeVariable u he => rw [he]; exact h.fresh hn rfl
  | boundVariable u he => rw [he]; exact h.fresh hn rfl
  | str u t he => rw [he]; exact h.fresh hn rfl
  | composition u p l r cl cr hl hr hne hcl hcr hlo hro f b he =>
    rw [he]; exact h.composed hn hne hcl hcr hlo hro rfl
  | left u comp r t ri k cr ck red f b hr hk hne hcr hck hs hro he =>
    rw [he]
    exact h.lefthand hn hne hcr hck (by rw [hs]; rfl) (by simp [hro]) rfl
      (by simp [pairOf_leafOrConcrete]) rfl
  | right u comp r t ri k cr ck red f b hr hk hne hcr hck hs hro he =>
    rw [he]
    exact h.righthand hn hne hcr hck (by rw [hs]; rfl) (by simp [hro]) rfl
      (by simp [pairOf_leafOrConcrete]) rfl
  | double u comp t k ck mc red hk hck hs he =>
    rw [he]
    exact h.doubled hn hck rfl (by simp [pairOf_leafOrConcrete]) rfl rfl
  | reducesTo u r ri cr hr hcr he =>
    rw [he]
    exact (h.other (c := cr.addFrom s.concepts.length) hcr rfl rfl rfl).fresh (upd_none hn hcr) rfl
  | composeCreate comp p k l r ck cl cr mc red f b hk hl hr hkl hkr hlr hck hcl hcr hs hlo hro he =>
    rw [he]; exact h.create hkl hkr hlr hck hcl hcr hlo hro rfl
  | reduceCreate c r k ri ck cr mc red hk hr hne hck hcr hs he =>
    rw [he]
    refine (h.other (c := ck.withSpec (.abst mc (some ri))) hck ?_ rfl rfl).other
      (ck := cr) (upd_ne hcr hne) rfl rfl rfl
    rw [hs]; cases mc <;> rfl
  | reduceUpdate c b a k bi ai ck cb ca mc red hk hb ha hkb hka hba hck hcb hca hs he =>
    rw [he]
    refine ((h.other (c := ck.withSpec (.abst mc (some ai))) hck ?_ rfl rfl).other
      (c := cb.dropFrom k) (ck := cb) (upd_ne hcb hkb) rfl rfl rfl).other (ck := ca)
      (upd_ne (upd_ne hca hka) hba) rfl rfl rfl
    rw [hs]; cases mc <;> rfl
  | reduceRemove c b k bi ck cb mc red hk hb hne hck hcb hs he =>
    rw [he]
    refine (h.other (c := ck.withSpec (.abst mc none)) hck ?_ rfl rfl).other
      (ck := cb) (upd_ne hcb hne) rfl rfl rfl
    rw [hs]; cases mc <;> rfl

/-! ## Backwards -/

theorem CompRev.composed {f : Look} (h : CompRev f) {n l r : Nat} {cl cr : Con}
    (hn : f n = none) (hne : l ≠ r) (hcl : f l = some cl) (hcr : f r = some cr) {c : Con}
    (hc : pairOf c.spec = some (l, r)) (hL : c.leftOf = []) (hR : c.rightOf = []) :
    CompRev (upd (upd (upd f l (cl.addLeft r n)) r (cr.addRight l n)) n c) := by
  unfold CompRev at h ⊢
  intro x k y i hx
  have h1 := h x
  have h2 := h l cl y i hcl
  have h3 := h r cr y i hcr
  constructor <;> grind

theorem CompRev.lefthand {f : Look} (h : CompRev f) {n r k : Nat} {cr ck c : Con}
    {sp : Specific Nat} (hn : f n = none) (hne : r ≠ k) (hcr : f r = some cr) (hck : f k = some ck)
    (hs : pairOf ck.spec = none)
    (hsp : pairOf sp = some (n, r)) (hl : c.leftOf = [(r, k)]) (hr : c.rightOf = []) :
    CompRev (upd (upd (upd f r (cr.addRight n k)) k (ck.withSpec sp)) n c) := by
  unfold CompRev at h ⊢
  intro x d y i hx
  have h1 := h x d y i
  have h2 := h r cr y i hcr
  have h3 := h k ck y i hck
  constructor <;> grind

theorem CompRev.righthand {f : Look} (h : CompRev f) {n l k : Nat} {cl ck c : Con}
    {sp : Specific Nat} (hn : f n = none) (hne : l ≠ k) (hcl : f l = some cl) (hck : f k = some ck)
    (hs : pairOf ck.spec = none)
    (hsp : pairOf sp = some (l, n)) (hl : c.rightOf = [(l, k)]) (hr : c.leftOf = []) :
    CompRev (upd (upd (upd f l (cl.addLeft n k)) k (ck.withSpec sp)) n c) := by
  unfold CompRev at h ⊢
  intro x d y i hx
  have h1 := h x d y i
  have h2 := h l cl y i hcl
  have h3 := h k ck y i hck
  constructor <;> grind

theorem CompRev.doubled {f : Look} (h : CompRev f) {n k : Nat} {ck c : Con}
    {sp : Specific Nat} (hn : f n = none) (hck : f k = some ck) (hs : pairOf ck.spec = none)
    (hsp : pairOf sp = some (n, n)) (hl : c.leftOf = [(n, k)])
    (hr : c.rightOf = [(n, k)]) : CompRev (upd (upd f k (ck.withSpec sp)) n c) := by
  unfold CompRev at h ⊢
  intro x d y i hx
  have h1 := h x d y i
  have h3 := h k ck y i hck
  constructor <;> grind

theorem CompRev.create {f : Look} (h : CompRev f) {k l r : Nat} {ck cl cr : Con}
    {sp : Specific Nat} (hkl : k ≠ l) (hkr : k ≠ r) (hlr : l ≠ r) (hck : f k = some ck)
    (hcl : f l = some cl) (hcr : f r = some cr) (hs : pairOf ck.spec = none)
    (hsp : pairOf sp = some (l, r)) :
    CompRev (upd (upd (upd f k (ck.withSpec sp)) l (cl.addLeft r k)) r (cr.addRight l k)) := by
  unfold CompRev at h ⊢
  intro x d y i hx
  have h1 := h x d y i
  have h2 := h l cl y i hcl
  have h4 := h r cr y i hcr
  have h3 := h k ck y i hck
  constructor <;> grind

theorem CompRev.other {f : Look} (h : CompRev f) {k : Nat} {ck c : Con}
    (hck : f k = some ck) (hs : pairOf c.spec = pairOf ck.spec) (hl : c.leftOf = ck.leftOf)
    (hr : c.rightOf = ck.rightOf) : CompRev (upd f k c) := by
  unfold CompRev at h ⊢
  intro x d y i hx
  have h1 := h x d y i
  have h3 := h k ck y i hck
  constructor <;> grind

theorem CompRev.fresh {f : Look} (h : CompRev f) {n : Nat} {c : Con}
    (hn : f n = none) (hl : c.leftOf = []) (hr : c.rightOf = []) : CompRev (upd f n c) := by
  unfold CompRev at h ⊢
  intro x d y i hx
  have h1 := h x d y i
  constructor <;> grind

/-- The concept a change composes is not composed of anything yet. -/
def Uncomposed (s : Snap) : Direct CId → Prop
  | .compose c (.create _) => ∀ k ck, s.convert c = .ok k → look s.concepts k = some ck →
      pairOf ck.spec = none
  | .new (.double c _) => ∀ k ck, s.convert c = .ok k → look s.concepts k = some ck →
      pairOf ck.spec = none
  | _ => True

theorem LStep.compRev {s s' : Snap} {p : CId × Direct CId}
    (h : CompRev (look s.concepts)) (hp : Composing p.2) (hu : Uncomposed s p.2)
    (st : LStep s s' p) : CompRev (look s'.concepts) := by
  have hn := look_length s.concepts
  cases st with
  | composeUpdate => exact hp.elim
  | composeRemove => exact hp.elim
  | freeVariable u he => rw [he]; exact h.fresh hn rfl rfl
  | boundVariable u he => rw [he]; exact h.fresh hn rfl rfl
  | str u t he => rw [he]; exact h.fresh hn rfl rfl
  | composition u p l r cl cr hl hr hne hcl hcr hlo hro f b he =>
    rw [he]; exact h.composed hn hne hcl hcr rfl rfl rfl
  | left u comp r t ri k cr ck red f b hr hk hne hcr hck hs hro he =>
    rw [he]
    exact h.lefthand hn hne hcr hck (by rw [hs]; rfl) rfl rfl rfl
  | right u comp r t ri k cr ck red f b hr hk hne hcr hck hs hro he =>
    rw [he]
    exact h.righthand hn hne hcr hck (by rw [hs]; rfl) rfl rfl rfl
  | double u comp t k ck mc red hk hck hs he =>
    rw [he]
    exact h.doubled hn hck (hu _ _ hk hck) rfl rfl rfl
  | reducesTo u r ri cr hr hcr he =>
    rw [he]
    exact (h.other (c := cr.addFrom s.concepts.length) hcr rfl rfl rfl).fresh (upd_none hn hcr)
      rfl rfl
  | composeCreate comp p k l r ck cl cr mc red f b hk hl hr hkl hkr hlr hck hcl hcr hs hlo hro he =>
    rw [he]; exact h.create hkl hkr hlr hck hcl hcr (hu _ _ hk hck) rfl
  | reduceCreate c r k ri ck cr mc red hk hr hne hck hcr hs he =>
    rw [he]
    refine (h.other (c := ck.withSpec (.abst mc (some ri))) hck ?_ rfl rfl).other
      (ck := cr) (upd_ne hcr hne) rfl rfl rfl
    rw [hs]; cases mc <;> rfl
  | reduceUpdate c b a k bi ai ck cb ca mc red hk hb ha hkb hka hba hck hcb hca hs he =>
    rw [he]
    refine ((h.other (c := ck.withSpec (.abst mc (some ai))) hck ?_ rfl rfl).other
      (c := cb.dropFrom k) (ck := cb) (upd_ne hcb hkb) rfl rfl rfl).other (ck := ca)
      (upd_ne (upd_ne hca hka) hba) rfl rfl rfl
    rw [hs]; cases mc <;> rfl
  | reduceRemove c b k bi ck cb mc red hk hb hne hck hcb hs he =>
    rw [he]
    refine (h.other (c := ck.withSpec (.abst mc none)) hck ?_ rfl rfl).other
      (ck := cb) (upd_ne hcb hne) rfl rfl rfl
    rw [hs]; cases mc <;> rfl

end Zia

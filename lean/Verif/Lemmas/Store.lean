import Verif.Spec.Store
import Mathlib.Tactic.Tauto

/-!
# What one applied change does to the store
-/

namespace Zia

theorem Except.bind_eq_ok {ε α β : Type} {x : Except ε α} {f : α → Except ε β} {b : β} :
    (x >>= f) = .ok b ↔ ∃ a, x = .ok a ∧ f a = .ok b := by
  cases x <;> simp [bind, Except.bind]

theorem Except.pure_eq_ok {ε α : Type} {a b : α} : (pure a : Except ε α) = .ok b ↔ a = b := by
  simp [pure, Except.pure]

theorem orDisjoint_eq_ok {α : Type} {o : Option α} {a : α} : orDisjoint o = .ok a ↔ o = some a := by
  cases o <;> simp [orDisjoint]

theorem get2_eq_some {cs : List Con} {i j : Nat} {a b : Con} :
    get2 cs i j = some (a, b) ↔ i ≠ j ∧ cs[i]? = some a ∧ cs[j]? = some b := by
  unfold get2
  split
  · simp [*]
  · cases cs[i]? <;> cases cs[j]? <;> simp [*]

theorem get3_eq_some {cs : List Con} {i j k : Nat} {a b c : Con} :
    get3 cs i j k = some (a, b, c) ↔ (i ≠ j ∧ i ≠ k ∧ j ≠ k) ∧
      cs[i]? = some a ∧ cs[j]? = some b ∧ cs[k]? = some c := by
  unfold get3
  split
  · next h => simp only [reduceCtorEq, false_iff]; rintro ⟨⟨h1, h2, h3⟩, _⟩; simp_all
  · next h =>
    cases cs[i]? <;> cases cs[j]? <;> cases cs[k]? <;> simp_all

theorem get5_eq_some {cs : List Con} {i j k l m : Nat} {a b c d e : Con} :
    get5 cs i j k l m = some (a, b, c, d, e) ↔ [i, j, k, l, m].Nodup ∧
      cs[i]? = some a ∧ cs[j]? = some b ∧ cs[k]? = some c ∧ cs[l]? = some d ∧ cs[m]? = some e := by
  unfold get5
  split
  · next h =>
    cases cs[i]? <;> cases cs[j]? <;> cases cs[k]? <;> cases cs[l]? <;> cases cs[m]? <;> simp_all
  · next h => simp only [reduceCtorEq, false_iff]; rintro ⟨h1, _⟩; exact h h1

theorem insertInto_eq_ok {Id : Type} [DecidableEq Id] {m m' : AMap Id Id} {k v : Id} :
    insertInto m k v = .ok m' ↔ m' = m.insert k v ∧ ∀ w, m.get? k = some w → w = v := by
  unfold insertInto
  cases h : m.get? k with
  | none => simp [eq_comm]
  | some w =>
    simp only [Option.some.injEq, forall_eq']
    split
    · next e => subst e; simp [eq_comm]
    · next e => simp; intro _ h; exact e h.symm

namespace Concept

variable (c : Con)

/-- Another specific part. -/
def withSpec (sp : Specific Nat) : Con := { c with spec := sp }

/-- A composition to the left. -/
def addLeft (k v : Nat) : Con := { c with leftOf := c.leftOf.insert k v }

/-- A composition to the right. -/
def addRight (k v : Nat) : Con := { c with rightOf := c.rightOf.insert k v }

/-- No composition to the left with this key. -/
def dropLeft (k : Nat) : Con := { c with leftOf := c.leftOf.erase k }

/-- No composition to the right with this key. -/
def dropRight (k : Nat) : Con := { c with rightOf := c.rightOf.erase k }

/-- One more concept that reduces to this one. -/
def addFrom (k : Nat) : Con := { c with redFrom := setInsert c.redFrom k }

/-- One concept less that reduces to this one. -/
def dropFrom (k : Nat) : Con := { c with redFrom := c.redFrom.filter (· ≠ k) }

end Concept

/-- Another list of stored concepts. -/
def Snap.withConcepts (s : Snap) (cs : List Con) : Snap := { s with concepts := cs }

/-- The composition of two concepts with its variables. -/
def compOf (l r : Con) : MComp Nat :=
  .comp l.id r.id (compositionVars l r).1 (compositionVars l r).2

/-- What one change does to the store: the inversion of `applyOne`. -/
inductive Step (s : Snap) : CId × Direct CId → Snap → Prop
  | freeVariable (u : Nat) :
    Step s (.unc u, .new .freeVariable)
      (s.pushNew u s.concepts (Concept.freeVar s.concepts.length))
  | boundVariable (u : Nat) :
    Step s (.unc u, .new .boundVariable)
      (s.pushNew u s.concepts (Concept.boundVar s.concepts.length))
  | str (u : Nat) (t : Str) :
    Step s (.unc u, .new (.str t))
      { s.pushNew u s.concepts (Concept.mk' s.concepts.length (.str t)) with
        stringMap := s.stringMap.insert t s.concepts.length }
  | composition (u : Nat) (p : CompPair CId) (l r : Nat) (cl cr : Con)
      (hl : s.convert p.left = .ok l) (hr : s.convert p.right = .ok r) (hne : l ≠ r)
      (hcl : s.concepts[l]? = some cl) (hcr : s.concepts[r]? = some cr)
      (hlo : ∀ w, cl.leftOf.get? cr.id = some w → w = s.concepts.length)
      (hro : ∀ w, cr.rightOf.get? cl.id = some w → w = s.concepts.length) :
    Step s (.unc u, .new (.composition p))
      (s.pushNew u ((s.concepts.set l (cl.addLeft cr.id s.concepts.length)).set
          r (cr.addRight cl.id s.concepts.length))
        (Concept.mk' s.concepts.length (.abst (compOf cl cr) none)))
  | left (u : Nat) (comp r : CId) (t : Option CCT) (ri k : Nat) (cr ck : Con) (red : Option Nat)
      (f b : List Nat)
      (hr : s.convert r = .ok ri) (hk : s.convert comp = .ok k) (hne : ri ≠ k)
      (hcr : s.concepts[ri]? = some cr) (hck : s.concepts[k]? = some ck)
      (hs : ck.spec = .abst (.leaf .constant) red)
      (hro : ∀ w, cr.rightOf.get? s.concepts.length = some w → w = ck.id)
      (hv : ∀ x, x ∈ f ∨ x ∈ b → x = s.concepts.length ∨ x ∈ Spec.refs cr) :
    Step s (.unc u, .new (.left comp r t))
      ((s.pushNew u ((s.concepts.set ri (cr.addRight s.concepts.length ck.id)).set
          k (ck.withSpec (.abst (.comp s.concepts.length cr.id f b) red)))
        ⟨s.concepts.length, [(cr.id, ck.id)], [], [], leafOrConcrete t⟩).registerConcrete
          s.concepts.length t)
  | right (u : Nat) (comp l : CId) (t : Option CCT) (li k : Nat) (cl ck : Con) (red : Option Nat)
      (f b : List Nat)
      (hl : s.convert l = .ok li) (hk : s.convert comp = .ok k) (hne : li ≠ k)
      (hcl : s.concepts[li]? = some cl) (hck : s.concepts[k]? = some ck)
      (hs : ck.spec = .abst (.leaf .constant) red)
      (hlo : ∀ w, cl.leftOf.get? s.concepts.length = some w → w = ck.id)
      (hv : ∀ x, x ∈ f ∨ x ∈ b → x = cl.id ∨ x ∈ Spec.refs cl) :
    Step s (.unc u, .new (.right comp l t))
      ((s.pushNew u ((s.concepts.set li (cl.addLeft s.concepts.length ck.id)).set
          k (ck.withSpec (.abst (.comp cl.id s.concepts.length f b) red)))
        ⟨s.concepts.length, [], [(cl.id, ck.id)], [], leafOrConcrete t⟩).registerConcrete
          s.concepts.length t)
  | double (u : Nat) (comp : CId) (t : Option CCT) (k : Nat) (ck : Con) (mc : MComp Nat)
      (red : Option Nat)
      (hk : s.convert comp = .ok k) (hck : s.concepts[k]? = some ck)
      (hs : ck.spec = .abst mc red) :
    Step s (.unc u, .new (.double comp t))
      ((s.pushNew u (s.concepts.set k
          (ck.withSpec (.abst (.comp s.concepts.length s.concepts.length [] []) red)))
        ⟨s.concepts.length, [(s.concepts.length, ck.id)], [(s.concepts.length, ck.id)], [],
          leafOrConcrete t⟩).registerConcrete s.concepts.length t)
  | reducesTo (u : Nat) (r : CId) (ri : Nat) (cr : Con)
      (hr : s.convert r = .ok ri) (hcr : s.concepts[ri]? = some cr) :
    Step s (.unc u, .new (.reducesTo r))
      (s.pushNew u (s.concepts.set ri (cr.addFrom s.concepts.length))
        (Concept.mk' s.concepts.length (.abst (.leaf .constant) (some cr.id))))
  | composeCreate (comp : CId) (p : CompPair CId) (k l r : Nat) (ck cl cr : Con) (mc : MComp Nat)
      (red : Option Nat)
      (hk : s.convert comp = .ok k) (hl : s.convert p.left = .ok l) (hr : s.convert p.right = .ok r)
      (hkl : k ≠ l) (hkr : k ≠ r) (hlr : l ≠ r)
      (hck : s.concepts[k]? = some ck) (hcl : s.concepts[l]? = some cl)
      (hcr : s.concepts[r]? = some cr) (hs : ck.spec = .abst mc red)
      (hlo : ∀ w, cl.leftOf.get? cr.id = some w → w = ck.id)
      (hro : ∀ w, cr.rightOf.get? cl.id = some w → w = ck.id) :
    Step s (comp, .compose comp (.create p))
      (s.withConcepts (((s.concepts.set k (ck.withSpec (.abst (compOf cl cr) red))).set
          l (cl.addLeft cr.id ck.id)).set
          r (cr.addRight cl.id ck.id)))
  | composeUpdate (comp : CId) (b a : CompPair CId) (k bl br al ar : Nat)
      (ck cbl cbr cal car : Con) (mc : MComp Nat) (red : Option Nat)
      (hk : s.convert comp = .ok k) (hbl : s.convert b.left = .ok bl)
      (hbr : s.convert b.right = .ok br) (hal : s.convert a.left = .ok al)
      (har : s.convert a.right = .ok ar) (hnd : [k, bl, br, al, ar].Nodup)
      (hck : s.concepts[k]? = some ck) (hcbl : s.concepts[bl]? = some cbl)
      (hcbr : s.concepts[br]? = some cbr) (hcal : s.concepts[al]? = some cal)
      (hcar : s.concepts[ar]? = some car) (hs : ck.spec = .abst mc red)
      (hlo : ∀ w, cal.leftOf.get? car.id = some w → w = ck.id)
      (hro : ∀ w, car.rightOf.get? cal.id = some w → w = ck.id) :
    Step s (comp, .compose comp (.update b a))
      (s.withConcepts (((((s.concepts.set k (ck.withSpec (.abst (compOf cal car) red))).set
          bl (cbl.dropLeft ck.id)).set
          br (cbr.dropRight ck.id)).set
          al (cal.addLeft car.id ck.id)).set
          ar (car.addRight cal.id ck.id)))
  | composeRemove (comp : CId) (p : CompPair CId) (k l r : Nat) (ck cl cr : Con) (mc : MComp Nat)
      (red : Option Nat)
      (hk : s.convert comp = .ok k) (hl : s.convert p.left = .ok l) (hr : s.convert p.right = .ok r)
      (hkl : k ≠ l) (hkr : k ≠ r) (hlr : l ≠ r)
      (hck : s.concepts[k]? = some ck) (hcl : s.concepts[l]? = some cl)
      (hcr : s.concepts[r]? = some cr) (hs : ck.spec = .abst mc red) :
    Step s (comp, .compose comp (.remove p))
      (s.withConcepts (((s.concepts.set k (ck.withSpec (.abst (.leaf .constant) red))).set
          l (cl.dropLeft ck.id)).set
          r (cr.dropRight ck.id)))
  | reduceCreate (c r : CId) (k ri : Nat) (ck cr : Con) (mc : MComp Nat) (red : Option Nat)
      (hk : s.convert c = .ok k) (hr : s.convert r = .ok ri) (hne : k ≠ ri)
      (hck : s.concepts[k]? = some ck) (hcr : s.concepts[ri]? = some cr)
      (hs : ck.spec = .abst mc red) :
    Step s (c, .reduce c (.create r))
      (s.withConcepts ((s.concepts.set k (ck.withSpec (.abst mc (some cr.id)))).set
          ri (cr.addFrom ck.id)))
  | reduceUpdate (c b a : CId) (k bi ai : Nat) (ck cb ca : Con) (mc : MComp Nat) (red : Option Nat)
      (hk : s.convert c = .ok k) (hb : s.convert b = .ok bi) (ha : s.convert a = .ok ai)
      (hkb : k ≠ bi) (hka : k ≠ ai) (hba : bi ≠ ai)
      (hck : s.concepts[k]? = some ck) (hcb : s.concepts[bi]? = some cb)
      (hca : s.concepts[ai]? = some ca) (hs : ck.spec = .abst mc red) :
    Step s (c, .reduce c (.update b a))
      (s.withConcepts (((s.concepts.set k (ck.withSpec (.abst mc (some ca.id)))).set
          bi (cb.dropFrom ck.id)).set
          ai (ca.addFrom ck.id)))
  | reduceRemove (c b : CId) (k bi : Nat) (ck cb : Con) (mc : MComp Nat) (red : Option Nat)
      (hk : s.convert c = .ok k) (hb : s.convert b = .ok bi) (hne : k ≠ bi)
      (hck : s.concepts[k]? = some ck) (hcb : s.concepts[bi]? = some cb)
      (hs : ck.spec = .abst mc red) :
    Step s (c, .reduce c (.remove b))
      (s.withConcepts ((s.concepts.set k (ck.withSpec (.abst mc none))).set
          bi (cb.dropFrom ck.id)))

theorem compositionOf_eq_ok {id : Nat} {l r l' r' : Con} {mc : MComp Nat} :
    compositionOf id l r = .ok (mc, l', r') ↔
      (∀ w, l.leftOf.get? r.id = some w → w = id) ∧ (∀ w, r.rightOf.get? l.id = some w → w = id) ∧
      mc = .comp l.id r.id (compositionVars l r).1 (compositionVars l r).2 ∧
      l' = { l with leftOf := l.leftOf.insert r.id id } ∧
      r' = { r with rightOf := r.rightOf.insert l.id id } := by
  simp only [compositionOf, Except.bind_eq_ok, insertInto_eq_ok, Except.pure_eq_ok, Prod.mk.injEq]
  constructor
  · rintro ⟨lo, ⟨rfl, h1⟩, ro, ⟨rfl, h2⟩, rfl, rfl, rfl⟩
    exact ⟨h1, h2, rfl, rfl, rfl⟩
  · rintro ⟨h1, h2, rfl, rfl, rfl⟩
    exact ⟨_, ⟨rfl, h1⟩, _, ⟨rfl, h2⟩, rfl, rfl, rfl⟩


theorem applyNew_step {s s' : Snap} {u : Nat} {d : NewDelta CId} (h : s.applyNew u d = .ok s') :
    Step s (.unc u, .new d) s' := by
  cases d with
  | freeVariable =>
    simp only [Snap.applyNew, Except.pure_eq_ok] at h
    subst h; exact .freeVariable u
  | boundVariable =>
    simp only [Snap.applyNew, Except.pure_eq_ok] at h
    subst h; exact .boundVariable u
  | str t =>
    simp only [Snap.applyNew, Except.pure_eq_ok] at h
    subst h; exact .str u t
  | composition p =>
    simp only [Snap.applyNew, Except.bind_eq_ok, orDisjoint_eq_ok, Except.pure_eq_ok] at h
    obtain ⟨l, hl, r, hr, ⟨cl, cr⟩, hg, ⟨mc, cl', cr'⟩, hc, rfl⟩ := h
    rw [get2_eq_some] at hg
    obtain ⟨hne, hcl, hcr⟩ := hg
    rw [compositionOf_eq_ok] at hc
    obtain ⟨h1, h2, rfl, rfl, rfl⟩ := hc
    exact .composition u p l r cl cr hl hr hne hcl hcr h1 h2
  | left comp r t =>
    simp only [Snap.applyNew, Except.bind_eq_ok, orDisjoint_eq_ok, Except.pure_eq_ok] at h
    obtain ⟨l, hl, k, hk, ⟨cl, ck⟩, hg, ⟨c, cl', ck'⟩, hc, rfl⟩ := h
    rw [get2_eq_some] at hg
    obtain ⟨hne, hcl, hcr⟩ := hg
    unfold lefthandOf at hc
    split at hc
    · next red hs =>
      simp only [Except.bind_eq_ok, insertInto_eq_ok, Except.pure_eq_ok, Prod.mk.injEq] at hc
      obtain ⟨ro, ⟨rfl, h1⟩, rfl, rfl, rfl⟩ := hc
      refine .left u comp r t l k cl ck red _ _ hl hk hne hcl hcr hs h1 ?_
      intro x hx
      split at hx
      · simp at hx; exact .inl hx
      · split at hx
        · next l' r' f b red' hsp =>
          right
          simp only [Spec.refs, hsp, List.mem_append, List.mem_cons] at hx ⊢
          tauto
        · simp at hx
    · simp at hc
  | right comp r t =>
    simp only [Snap.applyNew, Except.bind_eq_ok, orDisjoint_eq_ok, Except.pure_eq_ok] at h
    obtain ⟨l, hl, k, hk, ⟨cl, ck⟩, hg, ⟨c, cl', ck'⟩, hc, rfl⟩ := h
    rw [get2_eq_some] at hg
    obtain ⟨hne, hcl, hcr⟩ := hg
    unfold righthandOf at hc
    split at hc
    · next red hs =>
      simp only [Except.bind_eq_ok, insertInto_eq_ok, Except.pure_eq_ok, Prod.mk.injEq] at hc
      obtain ⟨ro, ⟨rfl, h1⟩, rfl, rfl, rfl⟩ := hc
      refine .right u comp r t l k cl ck red _ _ hl hk hne hcl hcr hs h1 ?_
      intro x hx
      split at hx
      · simp at hx; exact .inl hx
      · split at hx
        · next l' r' f b red' hsp =>
          right
          simp only [Spec.refs, hsp, List.mem_append, List.mem_cons] at hx ⊢
          tauto
        · simp at hx
    · simp at hc
  | double comp t =>
    simp only [Snap.applyNew, Except.bind_eq_ok, orDisjoint_eq_ok, Except.pure_eq_ok] at h
    obtain ⟨k, hk, ck, hck, ⟨c, ck'⟩, hc, rfl⟩ := h
    unfold doubleOf at hc
    split at hc
    · next mc red hs =>
      simp only [Except.ok.injEq, Prod.mk.injEq] at hc
      obtain ⟨rfl, rfl⟩ := hc
      exact .double u comp t k ck mc red hk hck hs
    · simp at hc
  | reducesTo r =>
    simp only [Snap.applyNew, Except.bind_eq_ok, orDisjoint_eq_ok, Except.pure_eq_ok] at h
    obtain ⟨l, hl, cr, hcr, rfl⟩ := h
    exact .reducesTo u r l cr hl hcr

theorem composeCreate_eq_ok {c l r c' l' r' : Con} :
    c.composeCreate l r = .ok (c', l', r') ↔ ∃ mc red, c.spec = .abst mc red ∧
      (∀ w, l.leftOf.get? r.id = some w → w = c.id) ∧
      (∀ w, r.rightOf.get? l.id = some w → w = c.id) ∧
      c' = c.withSpec (.abst (compOf l r) red) ∧ l' = l.addLeft r.id c.id ∧
      r' = r.addRight l.id c.id := by
  unfold Concept.composeCreate
  split
  · next mc red hs =>
    simp only [Except.bind_eq_ok, Except.pure_eq_ok]
    constructor
    · rintro ⟨⟨mc', l'', r''⟩, h, h'⟩
      rw [compositionOf_eq_ok] at h
      obtain ⟨h1, h2, rfl, rfl, rfl⟩ := h
      simp only [Prod.mk.injEq] at h'
      obtain ⟨rfl, rfl, rfl⟩ := h'
      exact ⟨mc, red, hs, h1, h2, rfl, rfl, rfl⟩
    · rintro ⟨mc', red', hs', h1, h2, rfl, rfl, rfl⟩
      rw [hs] at hs'
      cases hs'
      exact ⟨_, compositionOf_eq_ok.2 ⟨h1, h2, rfl, rfl, rfl⟩, rfl⟩
  · next hs =>
    simp only [reduceCtorEq, false_iff]
    rintro ⟨mc, red, hs', _⟩
    exact hs _ _ hs'

theorem makeReduceTo_eq_ok {c r c' r' : Con} :
    c.makeReduceTo r = .ok (c', r') ↔ ∃ mc red, c.spec = .abst mc red ∧
      c' = c.withSpec (.abst mc (some r.id)) ∧ r' = r.addFrom c.id := by
  unfold Concept.makeReduceTo
  split
  · next mc red hs =>
    simp only [Except.ok.injEq, Prod.mk.injEq]
    constructor
    · rintro ⟨rfl, rfl⟩; exact ⟨mc, red, hs, rfl, rfl⟩
    · rintro ⟨mc', red', hs', rfl, rfl⟩
      rw [hs] at hs'; cases hs'; exact ⟨rfl, rfl⟩
  · next hs =>
    simp only [reduceCtorEq, false_iff]
    rintro ⟨mc, red, hs', _⟩
    exact hs _ _ hs'

theorem makeNoLongerReduceTo_eq_ok {c r c' r' : Con} :
    c.makeNoLongerReduceTo r = .ok (c', r') ↔ ∃ mc red, c.spec = .abst mc red ∧
      c' = c.withSpec (.abst mc none) ∧ r' = r.dropFrom c.id := by
  unfold Concept.makeNoLongerReduceTo
  split
  · next mc red hs =>
    simp only [Except.ok.injEq, Prod.mk.injEq]
    constructor
    · rintro ⟨rfl, rfl⟩; exact ⟨mc, red, hs, rfl, rfl⟩
    · rintro ⟨mc', red', hs', rfl, rfl⟩
      rw [hs] at hs'; cases hs'; exact ⟨rfl, rfl⟩
  · next hs =>
    simp only [reduceCtorEq, false_iff]
    rintro ⟨mc, red, hs', _⟩
    exact hs _ _ hs'

theorem applyOne_step {s s' : Snap} {p : CId × Direct CId} (h : s.applyOne p = .ok s') :
    Step s p s' := by
  obtain ⟨id, dd⟩ := p
  unfold Snap.applyOne at h
  cases dd with
  | new d =>
    cases id with
    | com n => simp at h
    | unc u => exact applyNew_step h
  | compose comp change =>
    simp only at h
    split at h
    · next e =>
      subst e
      cases change with
      | create p =>
        simp only [Snap.applyCompose, Except.bind_eq_ok, orDisjoint_eq_ok, Except.pure_eq_ok] at h
        obtain ⟨k, hk, l, hl, r, hr, ⟨ck, cl, cr⟩, hg, ⟨ck', cl', cr'⟩, hc, rfl⟩ := h
        rw [get3_eq_some] at hg
        obtain ⟨⟨h1, h2, h3⟩, g1, g2, g3⟩ := hg
        rw [composeCreate_eq_ok] at hc
        obtain ⟨mc, red, hs, i1, i2, rfl, rfl, rfl⟩ := hc
        exact .composeCreate id p k l r ck cl cr mc red hk hl hr h1 h2 h3 g1 g2 g3 hs i1 i2
      | update b a =>
        simp only [Snap.applyCompose, Except.bind_eq_ok, orDisjoint_eq_ok, Except.pure_eq_ok] at h
        obtain ⟨k, hk, bl, hbl, br, hbr, al, hal, ar, har, ⟨ck, cbl, cbr, cal, car⟩, hg,
          ⟨ck', cl', cr'⟩, hc, rfl⟩ := h
        rw [get5_eq_some] at hg
        obtain ⟨hnd, g1, g2, g3, g4, g5⟩ := hg
        rw [composeCreate_eq_ok] at hc
        obtain ⟨mc, red, hs, i1, i2, rfl, rfl, rfl⟩ := hc
        exact .composeUpdate id b a k bl br al ar ck cbl cbr cal car mc red hk hbl hbr hal har hnd
          g1 g2 g3 g4 g5 hs i1 i2
      | remove p =>
        simp only [Snap.applyCompose, Except.bind_eq_ok, orDisjoint_eq_ok, Except.pure_eq_ok] at h
        obtain ⟨k, hk, l, hl, r, hr, ⟨ck, cl, cr⟩, hg, ⟨ck', cl', cr'⟩, hc, rfl⟩ := h
        rw [get3_eq_some] at hg
        obtain ⟨⟨h1, h2, h3⟩, g1, g2, g3⟩ := hg
        unfold Concept.composeRemove at hc
        split at hc
        · next mc red hs =>
          simp only [Concept.forgetHands, Except.ok.injEq, Prod.mk.injEq] at hc
          obtain ⟨rfl, rfl, rfl⟩ := hc
          exact .composeRemove id p k l r ck cl cr mc red hk hl hr h1 h2 h3 g1 g2 g3 hs
        · simp at hc
    · simp at h
  | reduce c change =>
    simp only at h
    split at h
    · next e =>
      subst e
      cases change with
      | create r =>
        simp only [Snap.applyReduce, Except.bind_eq_ok, orDisjoint_eq_ok, Except.pure_eq_ok] at h
        obtain ⟨k, hk, ri, hr, ⟨ck, cr⟩, hg, ⟨ck', cr'⟩, hc, rfl⟩ := h
        rw [get2_eq_some] at hg
        obtain ⟨h1, g1, g2⟩ := hg
        rw [makeReduceTo_eq_ok] at hc
        obtain ⟨mc, red, hs, rfl, rfl⟩ := hc
        exact .reduceCreate id r k ri ck cr mc red hk hr h1 g1 g2 hs
      | update b a =>
        simp only [Snap.applyReduce, Except.bind_eq_ok, orDisjoint_eq_ok, Except.pure_eq_ok] at h
        obtain ⟨k, hk, bi, hb, ai, ha, ⟨ck, cb, ca⟩, hg, ⟨ck', cb'⟩, hc, ⟨ck'', ca'⟩, hc', rfl⟩ := h
        rw [get3_eq_some] at hg
        obtain ⟨⟨h1, h2, h3⟩, g1, g2, g3⟩ := hg
        rw [makeNoLongerReduceTo_eq_ok] at hc
        obtain ⟨mc, red, hs, rfl, rfl⟩ := hc
        rw [makeReduceTo_eq_ok] at hc'
        obtain ⟨mc', red', hs', rfl, rfl⟩ := hc'
        cases hs'
        exact .reduceUpdate id b a k bi ai ck cb ca mc red hk hb ha h1 h2 h3 g1 g2 g3 hs
      | remove b =>
        simp only [Snap.applyReduce, Except.bind_eq_ok, orDisjoint_eq_ok, Except.pure_eq_ok] at h
        obtain ⟨k, hk, bi, hb, ⟨ck, cb⟩, hg, ⟨ck', cb'⟩, hc, rfl⟩ := h
        rw [get2_eq_some] at hg
        obtain ⟨h1, g1, g2⟩ := hg
        rw [makeNoLongerReduceTo_eq_ok] at hc
        obtain ⟨mc, red, hs, rfl, rfl⟩ := hc
        exact .reduceRemove id b k bi ck cb mc red hk hb h1 g1 g2 hs
    · simp at h
  | remove x => simp at h

theorem applyAll_append (s : Snap) (L L' : List (CId × Direct CId)) :
    s.applyAll (L ++ L') = s.applyAll L >>= fun s => s.applyAll L' := by
  induction L generalizing s with
  | nil => rfl
  | cons p L ih =>
    simp only [List.cons_append, Snap.applyAll]
    cases s.applyOne p with
    | error e => rfl
    | ok s' => exact ih s'

/-- What every change keeps, the whole list keeps. -/
theorem applyAll_induct {P : Snap → Prop} {s s' : Snap} {L : List (CId × Direct CId)}
    (hs : P s) (hP : ∀ s s' p, p ∈ L → P s → Step s p s' → P s') (h : s.applyAll L = .ok s') :
    P s' := by
  induction L generalizing s with
  | nil => cases h; exact hs
  | cons p L ih =>
    simp only [Snap.applyAll, Except.bind_eq_ok] at h
    obtain ⟨s1, h1, h2⟩ := h
    exact ih (hP s s1 p (by simp) hs (applyOne_step h1))
      (fun a b q hq => hP a b q (by simp [hq])) h2

end Zia

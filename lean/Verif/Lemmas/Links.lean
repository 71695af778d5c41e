import Verif.Lemmas.Refs

/-!
# Links between stored concepts
-/

namespace Zia

open Concept

attribute [grind =] mem_setInsert AMap.get?_insert AMap.get?_erase

section
variable (c : Con) (k v : Nat) (sp : Specific Nat) (mc : MComp Nat) (red : Option Nat)

@[grind =] theorem redFrom_addFrom : (c.addFrom k).redFrom = setInsert c.redFrom k := rfl
@[grind =] theorem redFrom_dropFrom : (c.dropFrom k).redFrom = c.redFrom.filter (· ≠ k) := rfl
@[grind =] theorem redFrom_withSpec : (c.withSpec sp).redFrom = c.redFrom := rfl
@[grind =] theorem redFrom_addLeft : (c.addLeft k v).redFrom = c.redFrom := rfl
@[grind =] theorem redFrom_addRight : (c.addRight k v).redFrom = c.redFrom := rfl
@[grind =] theorem redFrom_dropLeft : (c.dropLeft k).redFrom = c.redFrom := rfl
@[grind =] theorem redFrom_dropRight : (c.dropRight k).redFrom = c.redFrom := rfl
@[grind =] theorem redFrom_mk' : (Concept.mk' k sp).redFrom = [] := rfl
@[grind =] theorem redFrom_freeVar : (Concept.freeVar k).redFrom = [] := rfl
@[grind =] theorem redFrom_boundVar : (Concept.boundVar k).redFrom = [] := rfl

@[grind =] theorem spec_addFrom : (c.addFrom k).spec = c.spec := rfl
@[grind =] theorem spec_dropFrom : (c.dropFrom k).spec = c.spec := rfl
@[grind =] theorem spec_withSpec : (c.withSpec sp).spec = sp := rfl
@[grind =] theorem spec_addLeft : (c.addLeft k v).spec = c.spec := rfl
@[grind =] theorem spec_addRight : (c.addRight k v).spec = c.spec := rfl
@[grind =] theorem spec_dropLeft : (c.dropLeft k).spec = c.spec := rfl
@[grind =] theorem spec_dropRight : (c.dropRight k).spec = c.spec := rfl
@[grind =] theorem spec_mk' : (Concept.mk' k sp).spec = sp := rfl
@[grind =] theorem spec_freeVar : (Concept.freeVar k).spec = .abst (.leaf .freeVariable) none := rfl
@[grind =] theorem spec_boundVar : (Concept.boundVar k).spec = .abst (.leaf .boundVariable) none :=
  rfl

@[grind =] theorem id_addFrom : (c.addFrom k).id = c.id := rfl
@[grind =] theorem id_dropFrom : (c.dropFrom k).id = c.id := rfl
@[grind =] theorem id_withSpec : (c.withSpec sp).id = c.id := rfl
@[grind =] theorem id_addLeft : (c.addLeft k v).id = c.id := rfl
@[grind =] theorem id_addRight : (c.addRight k v).id = c.id := rfl
@[grind =] theorem id_dropLeft : (c.dropLeft k).id = c.id := rfl
@[grind =] theorem id_dropRight : (c.dropRight k).id = c.id := rfl
@[grind =] theorem id_mk' : (Concept.mk' k sp).id = k := rfl
@[grind =] theorem id_freeVar : (Concept.freeVar k).id = k := rfl
@[grind =] theorem id_boundVar : (Concept.boundVar k).id = k := rfl

@[grind =] theorem leftOf_addFrom : (c.addFrom k).leftOf = c.leftOf := rfl
@[grind =] theorem leftOf_dropFrom : (c.dropFrom k).leftOf = c.leftOf := rfl
@[grind =] theorem leftOf_withSpec : (c.withSpec sp).leftOf = c.leftOf := rfl
@[grind =] theorem leftOf_addLeft : (c.addLeft k v).leftOf = c.leftOf.insert k v := rfl
@[grind =] theorem leftOf_addRight : (c.addRight k v).leftOf = c.leftOf := rfl
@[grind =] theorem leftOf_dropLeft : (c.dropLeft k).leftOf = c.leftOf.erase k := rfl
@[grind =] theorem leftOf_dropRight : (c.dropRight k).leftOf = c.leftOf := rfl
@[grind =] theorem leftOf_mk' : (Concept.mk' k sp).leftOf = [] := rfl
@[grind =] theorem leftOf_freeVar : (Concept.freeVar k).leftOf = [] := rfl
@[grind =] theorem leftOf_boundVar : (Concept.boundVar k).leftOf = [] := rfl

@[grind =] theorem rightOf_addFrom : (c.addFrom k).rightOf = c.rightOf := rfl
@[grind =] theorem rightOf_dropFrom : (c.dropFrom k).rightOf = c.rightOf := rfl
@[grind =] theorem rightOf_withSpec : (c.withSpec sp).rightOf = c.rightOf := rfl
@[grind =] theorem rightOf_addLeft : (c.addLeft k v).rightOf = c.rightOf := rfl
@[grind =] theorem rightOf_addRight : (c.addRight k v).rightOf = c.rightOf.insert k v := rfl
@[grind =] theorem rightOf_dropLeft : (c.dropLeft k).rightOf = c.rightOf := rfl
@[grind =] theorem rightOf_dropRight : (c.dropRight k).rightOf = c.rightOf.erase k := rfl
@[grind =] theorem rightOf_mk' : (Concept.mk' k sp).rightOf = [] := rfl
@[grind =] theorem rightOf_freeVar : (Concept.freeVar k).rightOf = [] := rfl
@[grind =] theorem rightOf_boundVar : (Concept.boundVar k).rightOf = [] := rfl

end

/-- The reduction as a function of the specific part. -/
def redOf : Specific Nat → Option Nat
  | .abst _ r => r
  | _ => none

/-- The composition as a function of the specific part. -/
def pairOf : Specific Nat → Option (Nat × Nat)
  | .abst (.comp l r _ _) _ => some (l, r)
  | _ => none

@[grind =] theorem redOf_abst (mc : MComp Nat) (r : Option Nat) : redOf (.abst mc r) = r := rfl
@[grind =] theorem redOf_str (t : Str) : redOf (.str t) = none := rfl
@[grind =] theorem redOf_concrete (t : CCT) : redOf (.concrete t) = none := rfl
@[grind =] theorem redOf_leafOrConcrete (t : Option CCT) : redOf (leafOrConcrete t) = none := by
  cases t <;> rfl
@[grind =] theorem pairOf_comp (l r f b : _) (x : Option Nat) :
    pairOf (.abst (.comp l r f b) x) = some (l, r) := rfl
@[grind =] theorem pairOf_leaf (l : LeafChar) (x : Option Nat) : pairOf (.abst (.leaf l) x) = none :=
  rfl
@[grind =] theorem pairOf_str (t : Str) : pairOf (.str t) = none := rfl
@[grind =] theorem pairOf_concrete (t : CCT) : pairOf (.concrete t) = none := rfl
@[grind =] theorem pairOf_leafOrConcrete (t : Option CCT) : pairOf (leafOrConcrete t) = none := by
  cases t <;> rfl
@[grind =] theorem pairOf_compOf (l r : Con) (x : Option Nat) :
    pairOf (.abst (compOf l r) x) = some (l.id, r.id) := rfl

theorem reduction_eq (c : Con) : c.reduction = redOf c.spec := by
  unfold Concept.reduction redOf
  split <;> simp_all

theorem composition_eq (c : Con) : c.composition = pairOf c.spec := by
  unfold Concept.composition pairOf
  split <;> simp_all

@[grind =] theorem pushNew_concepts (s : Snap) (u : Nat) (cs : List Con) (c : Con) :
    (s.pushNew u cs c).concepts = cs ++ [c] := rfl

@[grind =] theorem register_concepts (s : Snap) (i : Nat) (t : Option CCT) :
    (s.registerConcrete i t).concepts = s.concepts := by cases t <;> rfl

@[grind =] theorem withConcepts_concepts (s : Snap) (cs : List Con) :
    (s.withConcepts cs).concepts = cs := rfl

/-- Concepts carry their own position. -/
def Ids (cs : List Con) : Prop := ∀ (i : Nat) (c : Con), cs[i]? = some c → c.id = i

/-- A concept is listed by its reduction. -/
def RedFwd (cs : List Con) : Prop := ∀ (i : Nat) (c : Con) (r : Nat), cs[i]? = some c →
  redOf c.spec = some r → ∃ k, cs[r]? = some k ∧ i ∈ k.redFrom

theorem RedFwd.set {cs : List Con} (h : RedFwd cs) {i : Nat} {c c' : Con} (hi : cs[i]? = some c)
    (hr : redOf c'.spec = redOf c.spec) (hf : c'.redFrom = c.redFrom) : RedFwd (cs.set i c') := by
  unfold RedFwd at h ⊢
  grind

theorem get_set_ne {cs : List Con} {i j : Nat} {c a : Con} (h : cs[j]? = some c) (hne : i ≠ j) :
    (cs.set i a)[j]? = some c := by
  rw [List.getElem?_set_ne hne]; exact h

theorem Step.redFwd {s s' : Snap} {p : CId × Direct CId} (hi : Ids s.concepts)
    (h : RedFwd s.concepts) (st : Step s p s') : RedFwd s'.concepts := by
  unfold Ids at hi
  cases st with
  | composeUpdate comp b a k bl br al ar ck cbl cbr cal car mc red hk hbl hbr hal har hnd hck hcbl
      hcbr hcal hcar hs hlo hro =>
    simp only [List.nodup_cons, List.mem_cons, List.not_mem_nil, or_false, not_or,
      List.nodup_nil, and_true, not_false_eq_true] at hnd
    obtain ⟨⟨n1, n2, n3, n4⟩, ⟨n5, n6, n7⟩, ⟨n8, n9⟩, n10⟩ := hnd
    refine ((((h.set hck ?_ ?_).set (get_set_ne hcbl ?_) ?_ ?_).set
      (get_set_ne (get_set_ne hcbr ?_) ?_) ?_ ?_).set
      (get_set_ne (get_set_ne (get_set_ne hcal ?_) ?_) ?_) ?_ ?_).set
      (get_set_ne (get_set_ne (get_set_ne (get_set_ne hcar ?_) ?_) ?_) ?_) ?_ ?_ <;>
    first | assumption | rfl | grind
  | _ => unfold RedFwd at h ⊢; grind

/-- A concept that is not abstract keeps its specific part. -/
theorem Step.keepSpec {s s' : Snap} {p : CId × Direct CId} (st : Step s p s') {i : Nat} {c : Con}
    (hc : s.concepts[i]? = some c) (ha : ∀ mc red, c.spec ≠ .abst mc red) :
    ∃ c', s'.concepts[i]? = some c' ∧ c'.id = c.id ∧ c'.spec = c.spec := by
  cases st <;> grind

/-- Stored concepts stay stored, with their ids. -/
theorem Step.keepId {s s' : Snap} {p : CId × Direct CId} (st : Step s p s') {i : Nat} {c : Con}
    (hc : s.concepts[i]? = some c) : ∃ c', s'.concepts[i]? = some c' ∧ c'.id = c.id := by
  cases st <;> grind

attribute [grind =] AMap.get?_cons AMap.get?_nil

/-- Lookup in a store. -/
abbrev Look := Nat → Option Con

/-- One position replaced. -/
def upd (f : Look) (i : Nat) (c : Con) : Look := fun j => if j = i then some c else f j

@[grind =] theorem upd_apply (f : Look) (i : Nat) (c : Con) (j : Nat) :
    upd f i c j = if j = i then some c else f j := rfl

/-- Lookup in a list. -/
def look (cs : List Con) : Look := fun i => cs[i]?

theorem look_set {cs : List Con} {i : Nat} {a c : Con} (h : look cs i = some a) :
    look (cs.set i c) = upd (look cs) i c := by
  funext j
  have := lt_of_get h
  simp only [look, upd]
  rw [List.getElem?_set]
  split
  · next e => subst e; simp [this]
  · next e => rw [if_neg (fun h => e h.symm)]

theorem look_push {cs : List Con} {n : Nat} {c : Con} (hn : cs.length = n) :
    look (cs ++ [c]) = upd (look cs) n c := by
  funext j
  subst hn
  simp only [look, upd]
  rw [List.getElem?_append]
  split
  · next e => rw [if_neg (by omega)]
  · next e =>
    split
    · next e' => subst e'; simp
    · next e' =>
      rw [List.getElem?_eq_none (by simp; omega), List.getElem?_eq_none (by omega)]

theorem look_length (cs : List Con) : look cs cs.length = none := by simp [look]

theorem upd_ne {f : Look} {i j : Nat} {a c : Con} (h : f j = some c) (hne : i ≠ j) :
    upd f i a j = some c := by
  simp only [upd]; rw [if_neg (Ne.symm hne)]; exact h

theorem upd_none {f : Look} {i j : Nat} {a c : Con} (h : f j = none) (hi : f i = some c) :
    upd f i a j = none := by
  simp only [upd]
  split
  · next e => subst e; rw [h] at hi; cases hi
  · exact h


/-- What one change does to the lookup of stored concepts, with ids as positions. -/
inductive LStep (s : Snap) (s' : Snap) : CId × Direct CId → Prop
  | freeVariable (u : Nat)
      (he : look s'.concepts = upd (look s.concepts) s.concepts.length
        (Concept.freeVar s.concepts.length))
      (hp : s'.prev = s.prev.insert u s.concepts.length)
      (hlen : s'.concepts.length = s.concepts.length + 1) :
    LStep s s' (.unc u, .new .freeVariable)
  | boundVariable (u : Nat)
      (he : look s'.concepts = upd (look s.concepts) s.concepts.length
        (Concept.boundVar s.concepts.length))
      (hp : s'.prev = s.prev.insert u s.concepts.length)
      (hlen : s'.concepts.length = s.concepts.length + 1) :
    LStep s s' (.unc u, .new .boundVariable)
  | str (u : Nat) (t : Str)
      (he : look s'.concepts = upd (look s.concepts) s.concepts.length
        (Concept.mk' s.concepts.length (.str t)))
      (hp : s'.prev = s.prev.insert u s.concepts.length)
      (hlen : s'.concepts.length = s.concepts.length + 1) :
    LStep s s' (.unc u, .new (.str t))
  | composition (u : Nat) (p : CompPair CId) (l r : Nat) (cl cr : Con)
      (hl : s.convert p.left = .ok l) (hr : s.convert p.right = .ok r) (hne : l ≠ r)
      (hcl : look s.concepts l = some cl) (hcr : look s.concepts r = some cr)
      (hlo : cl.leftOf.get? r = none) (hro : cr.rightOf.get? l = none) (f b : List Nat)
      (he : look s'.concepts = upd (upd (upd (look s.concepts) l (cl.addLeft r s.concepts.length))
        r (cr.addRight l s.concepts.length)) s.concepts.length
        (Concept.mk' s.concepts.length (.abst (.comp l r f b) none)))
      (hp : s'.prev = s.prev.insert u s.concepts.length)
      (hlen : s'.concepts.length = s.concepts.length + 1) :
    LStep s s' (.unc u, .new (.composition p))
  | left (u : Nat) (comp r : CId) (t : Option CCT) (ri k : Nat) (cr ck : Con) (red : Option Nat)
      (f b : List Nat)
      (hr : s.convert r = .ok ri) (hk : s.convert comp = .ok k) (hne : ri ≠ k)
      (hcr : look s.concepts ri = some cr) (hck : look s.concepts k = some ck)
      (hs : ck.spec = .abst (.leaf .constant) red)
      (hro : cr.rightOf.get? s.concepts.length = none)
      (he : look s'.concepts = upd (upd (upd (look s.concepts)
          ri (cr.addRight s.concepts.length k))
          k (ck.withSpec (.abst (.comp s.concepts.length ri f b) red))) s.concepts.length
        ⟨s.concepts.length, [(ri, k)], [], [], leafOrConcrete t⟩)
      (hp : s'.prev = s.prev.insert u s.concepts.length)
      (hlen : s'.concepts.length = s.concepts.length + 1) :
    LStep s s' (.unc u, .new (.left comp r t))
  | right (u : Nat) (comp l : CId) (t : Option CCT) (li k : Nat) (cl ck : Con) (red : Option Nat)
      (f b : List Nat)
      (hl : s.convert l = .ok li) (hk : s.convert comp = .ok k) (hne : li ≠ k)
      (hcl : look s.concepts li = some cl) (hck : look s.concepts k = some ck)
      (hs : ck.spec = .abst (.leaf .constant) red)
      (hlo : cl.leftOf.get? s.concepts.length = none)
      (he : look s'.concepts = upd (upd (upd (look s.concepts)
          li (cl.addLeft s.concepts.length k))
          k (ck.withSpec (.abst (.comp li s.concepts.length f b) red))) s.concepts.length
        ⟨s.concepts.length, [], [(li, k)], [], leafOrConcrete t⟩)
      (hp : s'.prev = s.prev.insert u s.concepts.length)
      (hlen : s'.concepts.length = s.concepts.length + 1) :
    LStep s s' (.unc u, .new (.right comp l t))
  | double (u : Nat) (comp : CId) (t : Option CCT) (k : Nat) (ck : Con) (mc : MComp Nat)
      (red : Option Nat)
      (hk : s.convert comp = .ok k) (hck : look s.concepts k = some ck)
      (hs : ck.spec = .abst mc red)
      (he : look s'.concepts = upd (upd (look s.concepts)
          k (ck.withSpec (.abst (.comp s.concepts.length s.concepts.length [] []) red)))
          s.concepts.length
        ⟨s.concepts.length, [(s.concepts.length, k)], [(s.concepts.length, k)], [],
          leafOrConcrete t⟩)
      (hp : s'.prev = s.prev.insert u s.concepts.length)
      (hlen : s'.concepts.length = s.concepts.length + 1) :
    LStep s s' (.unc u, .new (.double comp t))
  | reducesTo (u : Nat) (r : CId) (ri : Nat) (cr : Con)
      (hr : s.convert r = .ok ri) (hcr : look s.concepts ri = some cr)
      (he : look s'.concepts = upd (upd (look s.concepts) ri (cr.addFrom s.concepts.length))
          s.concepts.length
        (Concept.mk' s.concepts.length (.abst (.leaf .constant) (some ri))))
      (hp : s'.prev = s.prev.insert u s.concepts.length)
      (hlen : s'.concepts.length = s.concepts.length + 1) :
    LStep s s' (.unc u, .new (.reducesTo r))
  | composeCreate (comp : CId) (p : CompPair CId) (k l r : Nat) (ck cl cr : Con) (mc : MComp Nat)
      (red : Option Nat) (f b : List Nat)
      (hk : s.convert comp = .ok k) (hl : s.convert p.left = .ok l) (hr : s.convert p.right = .ok r)
      (hkl : k ≠ l) (hkr : k ≠ r) (hlr : l ≠ r)
      (hck : look s.concepts k = some ck) (hcl : look s.concepts l = some cl)
      (hcr : look s.concepts r = some cr) (hs : ck.spec = .abst mc red)
      (hlo : ∀ w, cl.leftOf.get? r = some w → w = k)
      (hro : ∀ w, cr.rightOf.get? l = some w → w = k)
      (he : look s'.concepts = upd (upd (upd (look s.concepts)
          k (ck.withSpec (.abst (.comp l r f b) red)))
          l (cl.addLeft r k))
          r (cr.addRight l k))
      (hp : s'.prev = s.prev)
      (hlen : s'.concepts.length = s.concepts.length) :
    LStep s s' (comp, .compose comp (.create p))
  | composeUpdate (comp : CId) (b a : CompPair CId) (k bl br al ar : Nat)
      (ck cbl cbr cal car : Con) (mc : MComp Nat) (red : Option Nat) (f g : List Nat)
      (hk : s.convert comp = .ok k) (hbl : s.convert b.left = .ok bl)
      (hbr : s.convert b.right = .ok br) (hal : s.convert a.left = .ok al)
      (har : s.convert a.right = .ok ar)
      (h1 : k ≠ bl) (h2 : k ≠ br) (h3 : k ≠ al) (h4 : k ≠ ar) (h5 : bl ≠ br) (h6 : bl ≠ al)
      (h7 : bl ≠ ar) (h8 : br ≠ al) (h9 : br ≠ ar) (h10 : al ≠ ar)
      (hck : look s.concepts k = some ck) (hcbl : look s.concepts bl = some cbl)
      (hcbr : look s.concepts br = some cbr) (hcal : look s.concepts al = some cal)
      (hcar : look s.concepts ar = some car) (hs : ck.spec = .abst mc red)
      (hlo : ∀ w, cal.leftOf.get? ar = some w → w = k)
      (hro : ∀ w, car.rightOf.get? al = some w → w = k)
      (he : look s'.concepts = upd (upd (upd (upd (upd (look s.concepts)
          k (ck.withSpec (.abst (.comp al ar f g) red)))
          bl (cbl.dropLeft k))
          br (cbr.dropRight k))
          al (cal.addLeft ar k))
          ar (car.addRight al k))
      (hp : s'.prev = s.prev)
      (hlen : s'.concepts.length = s.concepts.length) :
    LStep s s' (comp, .compose comp (.update b a))
  | composeRemove (comp : CId) (p : CompPair CId) (k l r : Nat) (ck cl cr : Con) (mc : MComp Nat)
      (red : Option Nat)
      (hk : s.convert comp = .ok k) (hl : s.convert p.left = .ok l) (hr : s.convert p.right = .ok r)
      (hkl : k ≠ l) (hkr : k ≠ r) (hlr : l ≠ r)
      (hck : look s.concepts k = some ck) (hcl : look s.concepts l = some cl)
      (hcr : look s.concepts r = some cr) (hs : ck.spec = .abst mc red)
      (he : look s'.concepts = upd (upd (upd (look s.concepts)
          k (ck.withSpec (.abst (.leaf .constant) red)))
          l (cl.dropLeft k))
          r (cr.dropRight k))
      (hp : s'.prev = s.prev)
      (hlen : s'.concepts.length = s.concepts.length) :
    LStep s s' (comp, .compose comp (.remove p))
  | reduceCreate (c r : CId) (k ri : Nat) (ck cr : Con) (mc : MComp Nat) (red : Option Nat)
      (hk : s.convert c = .ok k) (hr : s.convert r = .ok ri) (hne : k ≠ ri)
      (hck : look s.concepts k = some ck) (hcr : look s.concepts ri = some cr)
      (hs : ck.spec = .abst mc red)
      (he : look s'.concepts = upd (upd (look s.concepts)
          k (ck.withSpec (.abst mc (some ri)))) ri (cr.addFrom k))
      (hp : s'.prev = s.prev)
      (hlen : s'.concepts.length = s.concepts.length) :
    LStep s s' (c, .reduce c (.create r))
  | reduceUpdate (c b a : CId) (k bi ai : Nat) (ck cb ca : Con) (mc : MComp Nat) (red : Option Nat)
      (hk : s.convert c = .ok k) (hb : s.convert b = .ok bi) (ha : s.convert a = .ok ai)
      (hkb : k ≠ bi) (hka : k ≠ ai) (hba : bi ≠ ai)
      (hck : look s.concepts k = some ck) (hcb : look s.concepts bi = some cb)
      (hca : look s.concepts ai = some ca) (hs : ck.spec = .abst mc red)
      (he : look s'.concepts = upd (upd (upd (look s.concepts)
          k (ck.withSpec (.abst mc (some ai)))) bi (cb.dropFrom k)) ai (ca.addFrom k))
      (hp : s'.prev = s.prev)
      (hlen : s'.concepts.length = s.concepts.length) :
    LStep s s' (c, .reduce c (.update b a))
  | reduceRemove (c b : CId) (k bi : Nat) (ck cb : Con) (mc : MComp Nat) (red : Option Nat)
      (hk : s.convert c = .ok k) (hb : s.convert b = .ok bi) (hne : k ≠ bi)
      (hck : look s.concepts k = some ck) (hcb : look s.concepts bi = some cb)
      (hs : ck.spec = .abst mc red)
      (he : look s'.concepts = upd (upd (look s.concepts)
          k (ck.withSpec (.abst mc none))) bi (cb.dropFrom k))
      (hp : s'.prev = s.prev)
      (hlen : s'.concepts.length = s.concepts.length) :
    LStep s s' (c, .reduce c (.remove b))

theorem get?_lt_left {n i : Nat} {cs : List Con} {c : Con} (h : AllC (Fit n) cs)
    (hc : cs[i]? = some c) {x y : Nat} (hx : c.leftOf.get? x = some y) : x < n ∧ y < n := by
  have hb := (h i c hc).2
  have hm := AMap.mem_of_get? _ _ _ hx
  exact ⟨hb x (mem_refs.2 (.inr (.inl ⟨_, hm, .inl rfl⟩))),
    hb y (mem_refs.2 (.inr (.inl ⟨_, hm, .inr rfl⟩)))⟩

theorem get?_lt_right {n i : Nat} {cs : List Con} {c : Con} (h : AllC (Fit n) cs)
    (hc : cs[i]? = some c) {x y : Nat} (hx : c.rightOf.get? x = some y) : x < n ∧ y < n := by
  have hb := (h i c hc).2
  have hm := AMap.mem_of_get? _ _ _ hx
  exact ⟨hb x (mem_refs.2 (.inr (.inr (.inl ⟨_, hm, .inl rfl⟩)))),
    hb y (mem_refs.2 (.inr (.inr (.inl ⟨_, hm, .inr rfl⟩))))⟩

theorem none_of_fresh {m : AMap Nat Nat} {x n : Nat}
    (h : ∀ w, m.get? x = some w → w = n) (hf : ∀ y, m.get? x = some y → y < n) :
    m.get? x = none := by
  cases hq : m.get? x with
  | none => rfl
  | some w => have := h w hq; have := hf w hq; omega

theorem look_push' {cs : List Con} (cs' : List Con) {c : Con} (hn : cs'.length = cs.length) :
    look (cs' ++ [c]) = upd (look cs') cs.length c := look_push hn

theorem look_set1 {cs : List Con} {i : Nat} {a c : Con} (h : cs[i]? = some a) :
    look (cs.set i c) = upd (look cs) i c := look_set h

theorem look_set2 {cs : List Con} {i j : Nat} {a b a' b' : Con} (ha : cs[i]? = some a)
    (hb : cs[j]? = some b) (hne : i ≠ j) :
    look ((cs.set i a').set j b') = upd (upd (look cs) i a') j b' := by
  rw [look_set1 (get_set_ne hb hne), look_set1 ha]

theorem look_set3 {cs : List Con} {i j k : Nat} {a b c a' b' c' : Con} (ha : cs[i]? = some a)
    (hb : cs[j]? = some b) (hc : cs[k]? = some c) (h1 : i ≠ j) (h2 : i ≠ k) (h3 : j ≠ k) :
    look (((cs.set i a').set j b').set k c') = upd (upd (upd (look cs) i a') j b') k c' := by
  rw [look_set1 (get_set_ne (get_set_ne hc h2) h3), look_set2 ha hb h1]

theorem Step.lstep {s s' : Snap} {p : CId × Direct CId} (hi : RefsInv s) (st : Step s p s') :
    LStep s s' p := by
  have ids : ∀ {i : Nat} {c : Con}, s.concepts[i]? = some c → c.id = i := fun h => hi.valid.ids _ _ h
  cases st with
  | freeVariable u => exact .freeVariable u (look_push' _ rfl) rfl (by simp [Snap.pushNew])
  | boundVariable u => exact .boundVariable u (look_push' _ rfl) rfl (by simp [Snap.pushNew])
  | str u t => exact .str u t (look_push' _ rfl) rfl (by simp [Snap.pushNew])
  | composition u p l r cl cr hl hr hne hcl hcr hlo hro =>
    refine .composition u p l r cl cr hl hr hne hcl hcr ?_ ?_ (compositionVars cl cr).1
      (compositionVars cl cr).2 ?_ rfl (by simp [Snap.pushNew])
    · rw [ids hcr] at hlo
      exact none_of_fresh hlo (fun y hy => (get?_lt_left hi.fit hcl hy).2)
    · rw [ids hcl] at hro
      exact none_of_fresh hro (fun y hy => (get?_lt_right hi.fit hcr hy).2)
    · rw [pushNew_concepts, look_push' (cs := s.concepts) _ (by simp), look_set2 hcl hcr hne, ids hcl, ids hcr, compOf,
        ids hcl, ids hcr]
  | left u comp r t ri k cr ck red f b hr hk hne hcr hck hs hro hv =>
    refine .left u comp r t ri k cr ck red f b hr hk hne hcr hck hs ?_ ?_ (by cases t <;> rfl)
      (by rw [register_concepts]; simp [Snap.pushNew])
    · cases hq : cr.rightOf.get? s.concepts.length with
      | none => rfl
      | some w => have := (get?_lt_right hi.fit hcr hq).1; omega
    · rw [register_concepts, pushNew_concepts, look_push' (cs := s.concepts) _ (by simp), look_set2 hcr hck hne,
        ids hcr, ids hck]
  | right u comp r t ri k cr ck red f b hr hk hne hcr hck hs hro hv =>
    refine .right u comp r t ri k cr ck red f b hr hk hne hcr hck hs ?_ ?_ (by cases t <;> rfl)
      (by rw [register_concepts]; simp [Snap.pushNew])
    · cases hq : cr.leftOf.get? s.concepts.length with
      | none => rfl
      | some w => have := (get?_lt_left hi.fit hcr hq).1; omega
    · rw [register_concepts, pushNew_concepts, look_push' (cs := s.concepts) _ (by simp), look_set2 hcr hck hne,
        ids hcr, ids hck]
  | double u comp t k ck mc red hk hck hs =>
    refine .double u comp t k ck mc red hk hck hs ?_ (by cases t <;> rfl)
      (by rw [register_concepts]; simp [Snap.pushNew])
    rw [register_concepts, pushNew_concepts, look_push' (cs := s.concepts) _ (by simp), look_set1 hck, ids hck]
  | reducesTo u r ri cr hr hcr =>
    refine .reducesTo u r ri cr hr hcr ?_ rfl (by simp [Snap.pushNew])
    rw [pushNew_concepts, look_push' (cs := s.concepts) _ (by simp), look_set1 hcr, ids hcr]
  | composeCreate comp p k l r ck cl cr mc red hk hl hr hkl hkr hlr hck hcl hcr hs hlo hro =>
    refine .composeCreate comp p k l r ck cl cr mc red (compositionVars cl cr).1
      (compositionVars cl cr).2 hk hl hr hkl hkr hlr hck hcl hcr hs ?_ ?_ ?_ rfl
      (by simp [Snap.withConcepts])
    · rw [ids hcr, ids hck] at hlo; exact hlo
    · rw [ids hcl, ids hck] at hro; exact hro
    · rw [withConcepts_concepts, look_set3 hck hcl hcr hkl hkr hlr, compOf, ids hck, ids hcl, ids hcr]
  | composeUpdate comp b a k bl br al ar ck cbl cbr cal car mc red hk hbl hbr hal har hnd hck hcbl
      hcbr hcal hcar hs hlo hro =>
    simp only [List.nodup_cons, List.mem_cons, List.not_mem_nil, or_false, not_or,
      List.nodup_nil, and_true, not_false_eq_true] at hnd
    obtain ⟨⟨n1, n2, n3, n4⟩, ⟨n5, n6, n7⟩, ⟨n8, n9⟩, n10⟩ := hnd
    refine .composeUpdate comp b a k bl br al ar ck cbl cbr cal car mc red (compositionVars cal car).1
      (compositionVars cal car).2 hk hbl hbr hal har n1 n2 n3 n4 n5 n6 n7 n8 n9 n10 hck hcbl hcbr
      hcal hcar hs ?_ ?_ ?_ rfl (by simp [Snap.withConcepts])
    · rw [ids hcar, ids hck] at hlo; exact hlo
    · rw [ids hcal, ids hck] at hro; exact hro
    · rw [withConcepts_concepts,
        look_set1 (get_set_ne (get_set_ne (get_set_ne (get_set_ne hcar n4) n7) n9) n10),
        look_set1 (get_set_ne (get_set_ne (get_set_ne hcal n3) n6) n8),
        look_set3 hck hcbl hcbr n1 n2 n5, compOf, ids hck, ids hcal, ids hcar]
  | composeRemove comp p k l r ck cl cr mc red hk hl hr hkl hkr hlr hck hcl hcr hs =>
    refine .composeRemove comp p k l r ck cl cr mc red hk hl hr hkl hkr hlr hck hcl hcr hs ?_ rfl
      (by simp [Snap.withConcepts])
    rw [withConcepts_concepts, look_set3 hck hcl hcr hkl hkr hlr, ids hck]
  | reduceCreate c r k ri ck cr mc red hk hr hne hck hcr hs =>
    refine .reduceCreate c r k ri ck cr mc red hk hr hne hck hcr hs ?_ rfl
      (by simp [Snap.withConcepts])
    rw [withConcepts_concepts, look_set2 hck hcr hne, ids hck, ids hcr]
  | reduceUpdate c b a k bi ai ck cb ca mc red hk hb ha hkb hka hba hck hcb hca hs =>
    refine .reduceUpdate c b a k bi ai ck cb ca mc red hk hb ha hkb hka hba hck hcb hca hs ?_ rfl
      (by simp [Snap.withConcepts])
    rw [withConcepts_concepts, look_set3 hck hcb hca hkb hka hba, ids hck, ids hca]
  | reduceRemove c b k bi ck cb mc red hk hb hne hck hcb hs =>
    refine .reduceRemove c b k bi ck cb mc red hk hb hne hck hcb hs ?_ rfl
      (by simp [Snap.withConcepts])
    rw [withConcepts_concepts, look_set2 hck hcb hne, ids hck]

end Zia

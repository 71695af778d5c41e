import Verif.Lemmas.Rename
import Verif.Lemmas.Strings
import Verif.Witness.Labels

/-!
# Properties C29 and C45: names and strings

`HasName s x t` says that the store `s` holds `label_of x` and that reducing it ends in the string `t`.
-/

namespace Zia.Props

open Zia Zia.Spec

section
variable [HashOrder]

/-- C29. A symbol that is introduced gets a new concept and, once committed, looking it up finds that
concept, and that concept is displayed as the symbol. No other concept gains or loses a name. -/
theorem introduced_symbol {c : Ctx} (h : Reachable c) (t : Str) :
    ∃ c1 c2 x, Updater.newLabelledConcept t none (some (.com (builtin .label))) c = .ok (.ok (.unc 2), c1) ∧
      Context.commit c1 = .ok c2 ∧ c.snap.concepts.length ≤ x ∧ HasName c2.snap x t ∧
      (∀ n, 3 ≤ n → (View.mk c2.snap c2.delta).conceptFromLabel n t = .ok (some (.com x)) ∧
        (View.mk c2.snap c2.delta).label n (.com x) = .ok (some t)) ∧
      ∀ y u, y < c.snap.concepts.length → (HasName c2.snap y u ↔ HasName c.snap y u) := by
  have hs := History.nameable h
  have st := History.settled h
  obtain ⟨s, d, ca, vs, b, p⟩ := c
  obtain rfl : d = Nested.default := st.delta
  obtain ⟨D, he, ho, hst⟩ := introduce_eq s ca vs b p t
  obtain ⟨cl, hcl, hap⟩ := commit_introduced hs st.prev ho hst
  obtain ⟨cl', hcl', hspec⟩ := (hs.concrete _).2 rfl
  dsimp only at hcl'
  rw [hcl] at hcl'; cases hcl'
  refine ⟨_, ⟨introduced s cl t [] [], Nested.default, .empty, vs, b, p⟩, s.concepts.length + 2, he, ?_,
    by dsimp only; omega, introduced_named, fun n hn => ⟨introduced_lookup hcl hspec (by omega),
      introduced_display hs hcl hspec hn⟩, fun y u hy => introduced_hasName hs.refs hcl hy⟩
  show (do return { (⟨s, .base D, .empty, vs, b, p⟩ : Ctx) with
    snap := ← s.apply (.base D), delta := Nested.default }) = _
  rw [hap]
  rfl

/-- C29. Looking up a symbol finds only a concept that has this name, and this concept is displayed as the
symbol. The condition on the history is the missing part: after a reduction was replaced without taking it
away, the store still lists the old one. -/
theorem lookup_named_partial {c : Ctx} (h : History (fun s p => ReducesFresh s p ∧ KeepsDefinitions s p) c)
    {n : Nat} {t : Str} {x : CId} (hx : (View.mk c.snap c.delta).conceptFromLabel n t = .ok (some x)) :
    ∃ y, x = .com y ∧ HasName c.snap y t ∧
      ∃ m, ∀ k, m ≤ k → (View.mk c.snap c.delta).label k (.com y) = .ok (some t) := by
  have hs := History.nameable h
  have hd := (History.settled h).delta
  rw [hd] at hx ⊢
  obtain ⟨y, rfl, hy⟩ := lookup_sound hs (History.redRev (History.mono (fun _ _ h => h.1) h)) hx
  exact ⟨y, rfl, hy, label_of_hasName hs (History.comps (History.mono (fun _ _ h => h.2) h)).1 hy⟩

/-- C29. Different symbols never stand for the same concept. -/
theorem symbols_distinct_partial {c : Ctx}
    (h : History (fun s p => ReducesFresh s p ∧ KeepsDefinitions s p) c) {n m : Nat} {t u : Str} {x : CId}
    (ht : (View.mk c.snap c.delta).conceptFromLabel n t = .ok (some x))
    (hu : (View.mk c.snap c.delta).conceptFromLabel m u = .ok (some x)) : t = u := by
  obtain ⟨y, rfl, _, k, hk⟩ := lookup_named_partial h ht
  obtain ⟨_, e, _, k', hk'⟩ := lookup_named_partial h hu
  cases e
  have h1 := hk (max k k') (le_max_left ..)
  have h2 := hk' (max k k') (le_max_right ..)
  rw [h1] at h2
  cases h2; rfl

/-- C29. A concept is displayed only as its name or, if it has none, as the name of what it reduces to. -/
theorem displayed_named_partial {c : Ctx} (h : History KeepsDefinitions c) {n y : Nat} {t : Str}
    (ht : (View.mk c.snap c.delta).label n (.com y) = .ok (some t)) :
    ∃ z, Relation.ReflTransGen (ReducesTo c.snap) y z ∧ HasName c.snap z t := by
  rw [(History.settled h).delta] at ht
  exact label_sound (History.nameable h) (History.comps h).2 ht

/-- C29. After a concept is renamed and the change committed, looking up the new symbol finds it, it is
displayed as the new symbol, and no other symbol is looked up to it any more. -/
theorem renamed_partial {c : Ctx} (h : History (fun s p => ReducesFresh s p ∧ KeepsDefinitions s p) c)
    {y : Nat} {old new : Str} (hy : HasName c.snap y old) {n : Nat} {syn : Str} {c1 : Ctx}
    (hr : Updater.relabel n (.com y) syn new c = .ok (.ok (), c1)) :
    ∃ c2, Context.commit c1 = .ok c2 ∧ (∀ u, HasName c2.snap y u ↔ u = new) ∧
      (∀ m, 1 ≤ m → (View.mk c2.snap c2.delta).conceptFromLabel m new = .ok (some (.com y))) ∧
      (∃ m, ∀ k, m ≤ k → (View.mk c2.snap c2.delta).label k (.com y) = .ok (some new)) ∧
      ∀ m u, (View.mk c2.snap c2.delta).conceptFromLabel m u = .ok (some (.com y)) → u = new := by
  have hs := History.nameable h
  have st := History.settled h
  have hf := (History.comps (History.mono (fun _ _ h => h.2) h)).1
  have hv := History.redRev (History.mono (fun _ _ h => h.1) h)
  obtain ⟨s, d, ca, vs, b, p⟩ := c
  obtain rfl : d = Nested.default := st.delta
  obtain ⟨k, i, ⟨ck, hk, hp⟩, hred, hi⟩ := hy
  dsimp only at hk hp hs hf hv
  obtain ⟨r, hkr⟩ : ∃ r, ReducesTo s k r := by
    rcases Relation.TransGen.head'_iff.1 hred with ⟨r, h, _⟩
    exact ⟨r, h⟩
  have hkr' : ck.reduction = some r := by
    obtain ⟨c, hc, h⟩ := hkr
    rw [hk] at hc; cases hc; exact h
  have hne : k ≠ r := by
    rintro rfl
    have stay : ∀ j, ReducesTo s k j → j = k := by
      rintro j ⟨c, hc, h⟩
      rw [hk] at hc; cases hc
      rw [hkr'] at h; cases h; rfl
    have : i = k := by
      clear hi
      induction hred with
      | single h => exact stay _ h
      | tail _ h ih => rw [ih] at h; exact stay _ h
    subst this
    exact (isString_iff.1 hi).unreduced hkr
  obtain ⟨cr, hcr⟩ : ∃ cr, s.concepts[r]? = some cr := by
    have := (reducesTo_lt hs.refs hkr).2
    exact ⟨_, List.getElem?_eq_getElem this⟩
  obtain ⟨mc, o, hspec⟩ : ∃ mc o, ck.spec = .abst mc o := by
    cases hsp : ck.spec with
    | abst mc o => exact ⟨mc, o, rfl⟩
    | str _ => simp [Concept.reduction, hsp] at hkr'
    | concrete _ => simp [Concept.reduction, hsp] at hkr'
  obtain ⟨e1, e2⟩ := relabel_eq hs hf hk hp hkr' hne _ _ hr rfl
  have hap := commit_renamed hs.refs st.prev hk hcr hne hspec new
  have hn := renamed_nameable (t := new) hs st.prev hk hcr hne hspec
  have hname := fun u => renamed_hasName (t := new) (u := u) hf hk hcr hne hspec ⟨ck, hk, hp⟩
  refine ⟨{ c1 with snap := renamed s k r ck cr mc new, delta := Nested.default }, ?_, hname,
    fun m hm => renamed_lookup hs hk hcr hne hspec hp hm,
    label_of_hasName hn (renamed_compFwd hf hk hcr hne hspec) ((hname new).2 rfl), fun m u hu => ?_⟩
  · show (do return { c1 with snap := ← c1.snap.apply c1.delta, delta := Nested.default }) = _
    rw [e1, e2, hap]
    rfl
  · obtain ⟨z, e, hz⟩ := lookup_sound hn (renamed_redRev hv hk hcr hne hkr) hu
    cases e
    exact (hname u).1 hz

end

/-- C45. The table of strings is exact: a text is in the table exactly if the store holds a string with this
text, and the table then points to such a string. -/
theorem string_table_exact {c : Ctx} (h : Reachable c) (t : Str) :
    (∀ i, c.snap.stringMap.get? t = some i → IsString c.snap i t) ∧
    ((∃ i, IsString c.snap i t) → ∃ i, c.snap.stringMap.get? t = some i) := by
  refine ⟨fun i hi => ?_, fun ⟨i, hi⟩ => ?_⟩
  · exact isString_iff.2 (History.strings h t i (AMap.mem_of_get? _ _ _ hi))
  · exact History.back h i t (isString_iff.1 hi)

open Insertion

/-- Both cases occur in a new context: `let` is a string of it, `zebra` is not. -/
example : Reachable boot ∧ (∃ i, boot.snap.stringMap.get? (str% "let") = some i) ∧
    boot.snap.stringMap.get? (str% "zebra") = none :=
  ⟨History.reachable boot_calm, ⟨9, by decide +kernel⟩, by decide +kernel⟩

/-- The conditions are met by a store with the symbols `f`, `p`, `q`, `a` and `b`, in which `a` is renamed
to `x`. -/
example : ∃ c c1 : Ctx, History (fun s p => ReducesFresh s p ∧ KeepsDefinitions s p) c ∧
    (View.mk c.snap c.delta).conceptFromLabel 60 (str% "a") = .ok (some (.com 92)) ∧
    HasName c.snap 92 (str% "a") ∧
    Updater.relabel 60 (.com 92) (str% "a") (str% "x") c = .ok (.ok (), c1) := by
  have hn : HasName Witness.named2.snap 92 (str% "a") := by
    obtain ⟨y, e, hy, _⟩ := lookup_named_partial Witness.named2_calm Witness.named2_lookup
    cases e
    exact hy
  have hr := Witness.named2_relabel
  cases hx : Updater.relabel 60 (.com 92) (str% "a") (str% "x") Witness.named2 with
  | error e => rw [hx] at hr; cases hr
  | ok p =>
    rw [hx] at hr
    obtain ⟨r, c1⟩ := p
    cases hr
    exact ⟨Witness.named2, c1, Witness.named2_calm, Witness.named2_lookup, hn, hx⟩

/-- What is missing in general: a symbol that is displayed for a concept need not stand for it. After
`let (label_of (p q)) -> (label_of a)` the concept of `p q` is displayed as `a`, which is looked up to another
concept. -/
theorem displayed_symbol_shared : ∃ (c : Ctx) (x y : Nat), Reachable c ∧ x ≠ y ∧
    (View.mk c.snap c.delta).label 60 (.com x) = .ok (some (str% "a")) ∧
    (View.mk c.snap c.delta).conceptFromLabel 60 (str% "a") = .ok (some (.com y)) ∧
    (Context.execute 60 c (str% "p q")).toOption.map Prod.fst = some (str% "a") :=
  ⟨Witness.named3, 89, 92, History.reachable Witness.named3_calm, by decide, Witness.named3_label,
    Witness.named3_lookup, Witness.named3_answer⟩

end Zia.Props

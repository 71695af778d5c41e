import Verif.Spec.Session

/-!
# The answers of a session about words are determined
-/

namespace Zia.Spec
open Relation

/-- The pairs of a session: there is one at most for every word, and no word leads to itself. -/
structure Facts.Sound (L : Facts) : Prop where
  once : ∀ x y z, (x, y) ∈ L → (x, z) ∈ L → y = z
  acyclic : ∀ x, ¬TransGen (fun a b => (a, b) ∈ L) x x

theorem Facts.sound_nil : Facts.Sound [] :=
  ⟨fun _ _ _ h => (nomatch h), fun _ h => by
    obtain ⟨_, h, _⟩ := TransGen.head'_iff.1 h
    cases h⟩

theorem Facts.Sound.without {L : Facts} (h : L.Sound) (x : Str) : (L.without x).Sound := by
  have sub : ∀ {a b}, (a, b) ∈ L.without x → (a, b) ∈ L := fun hm => (List.mem_filter.1 hm).1
  exact ⟨fun a b c h1 h2 => h.once a b c (sub h1) (sub h2), fun a hc => h.acyclic a (TransGen.mono (fun _ _ hm => sub hm) _ _ hc)⟩

/-- A path with one more pair. -/
theorem path_cons {L : Facts} {x y a b : Str} (h : TransGen (fun a b => (a, b) ∈ (x, y) :: L) a b) :
    TransGen (fun a b => (a, b) ∈ L) a b ∨
      ReflTransGen (fun a b => (a, b) ∈ L) a x ∧ ReflTransGen (fun a b => (a, b) ∈ L) y b := by
  induction h with
  | single hp =>
    rcases List.mem_cons.1 hp with e | hp
    · cases e
      exact .inr ⟨.refl, .refl⟩
    · exact .inl (.single hp)
  | tail _ hp ih =>
    rcases List.mem_cons.1 hp with e | hp
    · cases e
      rcases ih with ih | ⟨h1, _⟩
      · exact .inr ⟨ih.to_reflTransGen, .refl⟩
      · exact .inr ⟨h1, .refl⟩
    · rcases ih with ih | ⟨h1, h2⟩
      · exact .inl (ih.tail hp)
      · exact .inr ⟨h1, h2.tail hp⟩

theorem Facts.Sound.cons {L : Facts} (h : L.Sound) {x y : Str} (ha : Allowed L x y) : Facts.Sound ((x, y) :: L) := by
  obtain ⟨hne, no, hcy⟩ := ha
  refine ⟨fun a b c h1 h2 => ?_, fun a hc => ?_⟩
  · rcases List.mem_cons.1 h1 with e1 | h1 <;> rcases List.mem_cons.1 h2 with e2 | h2
    · cases e1; cases e2; rfl
    · cases e1; exact absurd h2 (no c)
    · cases e2; exact absurd h1 (no b)
    · exact h.once a b c h1 h2
  · rcases path_cons hc with hc | ⟨h1, h2⟩
    · exact h.acyclic a hc
    · rcases reflTransGen_iff_eq_or_transGen.1 (h2.trans h1) with e | ht
      · exact hne e
      · exact hcy ht

theorem EndsIn.unique {L : Facts} (h : L.Sound) {x t u : Str} (ht : EndsIn L x t) (hu : EndsIn L x u) : t = u := by
  obtain ⟨h1, h2⟩ := ht
  obtain ⟨h3, h4⟩ := hu
  induction h1 using ReflTransGen.head_induction_on with
  | refl =>
    rcases h3.cases_head with e | ⟨z, hz, _⟩
    · exact e
    · exact absurd hz (h2 z)
  | head hp _ ih =>
    rcases h3.cases_head with rfl | ⟨z, hz, h5⟩
    · exact absurd hp (h4 _)
    · cases h.once _ _ _ hp hz
      exact ih h5

theorem EndsIn.exists {L : Facts} (h : L.Sound) (x : Str) : ∃ t, EndsIn L x t := by
  generalize hn : L.length = n
  induction n using Nat.strongRecOn generalizing L x with
  | _ n ih =>
    by_cases hx : ∀ z, (x, z) ∉ L
    · exact ⟨x, .refl, hx⟩
    · obtain ⟨z, hz⟩ : ∃ z, (x, z) ∈ L := Classical.byContradiction fun h => hx fun z hz => h ⟨z, hz⟩
      have hlt : (L.without x).length < n := by
        rw [← hn]
        exact List.length_filter_lt_length_iff_exists.2 ⟨_, hz, by simp⟩
      obtain ⟨t, h1, h2⟩ := ih _ hlt (h.without x) z rfl
      have h3 : ReflTransGen (fun a b => (a, b) ∈ L) z t := ReflTransGen.mono (fun a b hm => (List.mem_filter.1 hm).1) _ _ h1
      have hne : t ≠ x := by
        rintro rfl
        exact h.acyclic _ (.head' hz h3)
      exact ⟨t, .head hz h3, fun w hw => h2 w (List.mem_filter.2 ⟨hw, by simp [hne]⟩)⟩

theorem OneStep.unique {L : Facts} (h : L.Sound) {x a b : Str} (ha : OneStep L x a) (hb : OneStep L x b) : a = b := by
  rcases ha with ha | ⟨rfl, na⟩ <;> rcases hb with hb | ⟨rfl, nb⟩
  · exact h.once _ _ _ ha hb
  · exact absurd ha (nb _)
  · exact absurd hb (na _)
  · rfl

theorem Facts.Sound.asymm {L : Facts} (h : L.Sound) {x y : Str} (h1 : TransGen (fun a b => (a, b) ∈ L) x y)
    (h2 : TransGen (fun a b => (a, b) ∈ L) y x) : False := h.acyclic _ (h1.trans h2)

theorem no_path {L : Facts} {x y : Str} (hx : ∀ z, (x, z) ∉ L) : ¬TransGen (fun a b => (a, b) ∈ L) x y := by
  intro h
  obtain ⟨z, hz, _⟩ := TransGen.head'_iff.1 h
  exact hx z hz

theorem Verdict.unique {L : Facts} (h : L.Sound) {x y t u : Str} (ht : Verdict L x y t) (hu : Verdict L x y u) : t = u := by
  induction ht with
  | same =>
    cases hu with
    | same => rfl
    | leads ne => exact absurd rfl ne
    | reverse ne => exact absurd rfl ne
    | stuck ne => exact absurd rfl ne
    | moved ne => exact absurd rfl ne
  | leads ne p =>
    cases hu with
    | same => exact absurd rfl ne
    | leads => rfl
    | reverse _ q => exact (h.asymm p q).elim
    | stuck _ q => exact absurd p (no_path q)
    | moved _ q => exact absurd p q
  | reverse ne p =>
    cases hu with
    | same => exact absurd rfl ne
    | leads _ q => exact (h.asymm p q).elim
    | reverse => rfl
    | stuck _ _ q => exact absurd p (no_path q)
    | moved _ _ q => exact absurd p q
  | stuck ne hx hy =>
    cases hu with
    | same => exact absurd rfl ne
    | leads _ q => exact absurd q (no_path hx)
    | reverse _ q => exact absurd q (no_path hy)
    | stuck => rfl
    | moved _ _ _ m =>
      obtain ⟨z, hz | hz⟩ := m
      · exact absurd hz (hx z)
      · exact absurd hz (hy z)
  | moved ne p q m hx hy _ ih =>
    cases hu with
    | same => exact absurd rfl ne
    | leads _ r => exact absurd r p
    | reverse _ r => exact absurd r q
    | stuck _ hx hy =>
      obtain ⟨z, hz | hz⟩ := m
      · exact absurd hz (hx z)
      · exact absurd hz (hy z)
    | moved _ _ _ _ hx' hy' h' =>
      cases hx.unique h hx'
      cases hy.unique h hy'
      exact ih h'

/-- The pairs lead from every word to an end. -/
theorem Facts.Sound.acc {L : Facts} (h : L.Sound) (x : Str) : Acc (fun b a => (a, b) ∈ L) x := by
  obtain ⟨t, h1, h2⟩ := EndsIn.exists h x
  induction h1 using ReflTransGen.head_induction_on with
  | refl => exact ⟨_, fun z hz => absurd hz (h2 z)⟩
  | head hp _ ih =>
    refine ⟨_, fun z hz => ?_⟩
    cases h.once _ _ _ hp hz
    exact ih

theorem Verdict.exists {L : Facts} (h : L.Sound) (x y : Str) : ∃ t, Verdict L x y t := by
  induction h.acc x generalizing y with
  | intro x _ ihx =>
  induction h.acc y with
  | intro y _ ihy =>
    by_cases ne : x = y
    · subst ne
      exact ⟨_, .same⟩
    by_cases p : TransGen (fun a b => (a, b) ∈ L) x y
    · exact ⟨_, .leads ne p⟩
    by_cases q : TransGen (fun a b => (a, b) ∈ L) y x
    · exact ⟨_, .reverse ne q⟩
    by_cases hx : ∃ z, (x, z) ∈ L
    · obtain ⟨x', hx⟩ := hx
      obtain ⟨y', hy⟩ : ∃ y', OneStep L y y' := by
        by_cases hy : ∃ z, (y, z) ∈ L
        · obtain ⟨y', hy⟩ := hy
          exact ⟨y', .inl hy⟩
        · exact ⟨y, .inr ⟨rfl, fun z hz => hy ⟨z, hz⟩⟩⟩
      obtain ⟨t, ht⟩ := ihx x' hx y'
      exact ⟨t, .moved ne p q ⟨x', .inl hx⟩ (.inl hx) hy ht⟩
    · have hx : ∀ z, (x, z) ∉ L := fun z hz => hx ⟨z, hz⟩
      by_cases hy : ∃ z, (y, z) ∈ L
      · obtain ⟨y', hy⟩ := hy
        obtain ⟨t, ht⟩ := ihy y' hy
        exact ⟨t, .moved ne p q ⟨y', .inr hy⟩ (.inr ⟨rfl, hx⟩) (.inl hy) ht⟩
      · exact ⟨_, .stuck ne hx fun z hz => hy ⟨z, hz⟩⟩

/-- The answers are determined. -/
theorem Talk.unique {L : Facts} (h : L.Sound) {said : List Say} {outs outs' : List Str} (h1 : Talk L said outs)
    (h2 : Talk L said outs') : outs = outs' := by
  induction h1 generalizing outs' with
  | nil => cases h2; rfl
  | tell ha _ ih =>
    cases h2 with
    | tell _ t => rw [ih (h.cons ha) t]
    | existing _ hz _ => exact absurd hz (ha.2.1 _)
    | cyclic _ _ hc _ => exact absurd hc ha.2.2
    | itself => exact absurd rfl ha.1
    | idle => exact absurd rfl ha.1
  | existing hne hz _ ih =>
    cases h2 with
    | tell ha _ => exact absurd hz (ha.2.1 _)
    | existing _ hz' t =>
      cases h.once _ _ _ hz hz'
      rw [ih h t]
    | cyclic _ no _ _ => exact absurd hz (no _)
    | itself => exact absurd rfl hne
    | idle => exact absurd rfl hne
  | cyclic hne no hc _ ih =>
    cases h2 with
    | tell ha _ => exact absurd hc ha.2.2
    | existing _ hz _ => exact absurd hz (no _)
    | cyclic _ _ _ t => rw [ih h t]
    | itself => exact absurd rfl hne
    | idle => exact absurd rfl hne
  | itself hz _ ih =>
    cases h2 with
    | tell ha _ => exact absurd rfl ha.1
    | existing hne _ _ => exact absurd rfl hne
    | cyclic hne _ _ _ => exact absurd rfl hne
    | itself _ t => rw [ih (h.without _) t]
    | idle no _ => exact absurd hz (no _)
  | idle no _ ih =>
    cases h2 with
    | tell ha _ => exact absurd rfl ha.1
    | existing hne _ _ => exact absurd rfl hne
    | cyclic hne _ _ _ => exact absurd rfl hne
    | itself hz _ => exact absurd hz (no _)
    | idle _ t => rw [ih h t]
  | forget hz _ ih =>
    cases h2 with
    | forget _ t => rw [ih (h.without _) t]
    | nothing no _ => exact absurd hz (no _)
  | nothing no _ ih =>
    cases h2 with
    | forget hz _ => exact absurd hz (no _)
    | nothing _ t => rw [ih h t]
  | ask ht _ ih =>
    cases h2 with
    | ask ht' t => rw [ih h t, ht.unique h ht']
  | wonder ht _ ih =>
    cases h2 with
    | wonder ht' t => rw [ih h t, ht.unique h ht']
  | pair hx hy _ ih =>
    cases h2 with
    | pair hx' hy' t => rw [ih h t, hx.unique h hx', hy.unique h hy']
  | name _ ih =>
    cases h2 with
    | name t => rw [ih h t]
  | arrow hz ht _ ih =>
    cases h2 with
    | arrow _ ht' t => rw [ih h t, ht.unique h ht']
    | arrowIdle no _ => exact absurd hz (no _)
  | arrowIdle no _ ih =>
    cases h2 with
    | arrow hz _ _ => exact absurd hz (no _)
    | arrowIdle _ t => rw [ih h t]

/-- There are answers to every session. -/
theorem Talk.exists {L : Facts} (h : L.Sound) (said : List Say) : ∃ outs, Talk L said outs := by
  induction said generalizing L with
  | nil => exact ⟨[], .nil⟩
  | cons s said ih =>
    have dec : ∀ x, (∃ z, (x, z) ∈ L) ∨ ∀ z, (x, z) ∉ L := fun x => by
      by_cases hx : ∃ z, (x, z) ∈ L
      · exact .inl hx
      · exact .inr fun z hz => hx ⟨z, hz⟩
    cases s with
    | tell x y =>
      rcases dec x with ⟨z, hz⟩ | no
      · by_cases hne : x = y
        · subst hne
          exact (ih (h.without x)).imp' _ fun _ t => .itself hz t
        · exact (ih h).imp' _ fun _ t => .existing hne hz t
      · by_cases hne : x = y
        · subst hne
          exact (ih h).imp' _ fun _ t => .idle no t
        · by_cases hc : TransGen (fun a b => (a, b) ∈ L) y x
          · exact (ih h).imp' _ fun _ t => .cyclic hne no hc t
          · have ha : Allowed L x y := ⟨hne, no, hc⟩
            exact (ih (h.cons ha)).imp' _ fun _ t => .tell ha t
    | forget x =>
      rcases dec x with ⟨z, hz⟩ | no
      · exact (ih (h.without x)).imp' _ fun _ t => .forget hz t
      · exact (ih h).imp' _ fun _ t => .nothing no t
    | ask x =>
      obtain ⟨t, ht⟩ := EndsIn.exists h x
      exact (ih h).imp' _ fun _ t => .ask ht t
    | wonder x y =>
      obtain ⟨t, ht⟩ := Verdict.exists h x y
      exact (ih h).imp' _ fun _ t => .wonder ht t
    | pair x y =>
      obtain ⟨a, ha⟩ := EndsIn.exists h x
      obtain ⟨b, hb⟩ := EndsIn.exists h y
      exact (ih h).imp' _ fun _ t => .pair ha hb t
    | name x => exact (ih h).imp' _ fun _ t => .name t
    | arrow x =>
      rcases dec x with ⟨z, hz⟩ | no
      · obtain ⟨t, ht⟩ := EndsIn.exists h x
        exact (ih h).imp' _ fun _ t => .arrow hz ht t
      · exact (ih h).imp' _ fun _ t => .arrowIdle no t

theorem Facts.Sound.after {L : Facts} (h : L.Sound) (s : Say) : (L.after s).Sound := by
  cases s with
  | tell x y =>
    simp only [Facts.after]
    split
    · next ha => exact h.cons ha
    · split
      · exact h.without x
      · exact h
  | forget x => exact h.without x
  | ask => exact h
  | wonder => exact h
  | pair => exact h
  | name => exact h
  | arrow => exact h

theorem Facts.Sound.foldl {L : Facts} (h : L.Sound) (said : List Say) : (said.foldl Facts.after L).Sound := by
  induction said generalizing L with
  | nil => exact h
  | cons s said ih => exact ih (h.after s)

theorem Facts.without_same {L : Facts} {x : Str} (h : ∀ z, (x, z) ∉ L) : L.without x = L := by
  refine List.filter_eq_self.2 fun p hp => ?_
  obtain ⟨a, b⟩ := p
  simp only [ne_eq, decide_eq_true_eq]
  rintro rfl
  exact h b hp

/-- The answers of a session are those of its parts. -/
theorem Talk.split {L : Facts} {said rest : List Say} {outs : List Str} (h : Talk L (said ++ rest) outs) :
    ∃ o1 o2, outs = o1 ++ o2 ∧ o1.length = said.length ∧ Talk (said.foldl Facts.after L) rest o2 := by
  induction said generalizing L outs with
  | nil => exact ⟨[], outs, rfl, rfl, h⟩
  | cons s said ih =>
    have step : ∀ {L' out outs'}, L' = L.after s → Talk L' (said ++ rest) outs' → outs = out :: outs' →
        ∃ o1 o2, outs = o1 ++ o2 ∧ o1.length = (s :: said).length ∧ Talk ((s :: said).foldl Facts.after L) rest o2 := by
      rintro _ out _ rfl t rfl
      obtain ⟨o1, o2, rfl, h1, h2⟩ := ih t
      exact ⟨out :: o1, o2, rfl, by simp [h1], h2⟩
    have h : Talk L (s :: (said ++ rest)) outs := h
    generalize hs : s :: (said ++ rest) = all at h
    cases h with
    | nil => cases hs
    | tell ha t => cases hs; exact step (by simp only [Facts.after, if_pos ha]) t rfl
    | existing hne hz t =>
      cases hs
      exact step (by rw [Facts.after, if_neg (fun ha => ha.2.1 _ hz), if_neg hne]) t rfl
    | cyclic hne no hc t =>
      cases hs
      exact step (by rw [Facts.after, if_neg (fun ha => ha.2.2 hc), if_neg hne]) t rfl
    | itself hz t =>
      cases hs
      exact step (by rw [Facts.after, if_neg (fun ha => ha.1 rfl), if_pos rfl]) t rfl
    | idle no t =>
      cases hs
      exact step (by rw [Facts.after, if_neg (fun ha => ha.1 rfl), if_pos rfl, Facts.without_same no]) t rfl
    | forget hz t => cases hs; exact step rfl t rfl
    | nothing no t => cases hs; exact step (by rw [Facts.after, Facts.without_same no]) t rfl
    | ask hz t => cases hs; exact step rfl t rfl
    | wonder hz t => cases hs; exact step rfl t rfl
    | pair hx hy t => cases hs; exact step rfl t rfl
    | name t => cases hs; exact step rfl t rfl
    | arrow hz ht t => cases hs; exact step rfl t rfl
    | arrowIdle no t => cases hs; exact step rfl t rfl

/-- If one comes from `x` to `y`, the answer is `true`. -/
theorem Verdict.led {L : Facts} (h : L.Sound) {x y t : Str} (ht : Verdict L x y t)
    (hp : TransGen (fun a b => (a, b) ∈ L) x y) : t = str% "true" :=
  ht.unique h (.leads (fun e => h.acyclic _ (e ▸ hp)) hp)

/-- The answer if there is no pair for `y`. -/
theorem Verdict.final {L : Facts} {x y t : Str} (ht : Verdict L x y t) (hy : ∀ z, (y, z) ∉ L)
    (hp : ¬TransGen (fun a b => (a, b) ∈ L) x y) :
    x = y ∧ t = str% "false" ∨ ∃ z, EndsIn L x z ∧ t = z ++ str% " -> " ++ y := by
  induction ht with
  | same => exact .inl ⟨rfl, rfl⟩
  | leads _ p => exact absurd p hp
  | reverse _ p => exact absurd p (no_path hy)
  | stuck _ hx => exact .inr ⟨_, ⟨.refl, hx⟩, rfl⟩
  | moved ne p q m hx hy' _ ih =>
    have e := hy'.resolve_left (hy _)
    obtain ⟨rfl, _⟩ := e
    rcases hx with hx | ⟨rfl, nx⟩
    · rcases ih hy (fun r => p (.head hx r)) with ⟨rfl, _⟩ | ⟨z, hz, rfl⟩
      · exact absurd (.single hx) p
      · exact .inr ⟨z, ⟨.head hx hz.1, hz.2⟩, rfl⟩
    · obtain ⟨z, hz | hz⟩ := m
      · exact absurd hz (nx z)
      · exact absurd hz (hy z)

end Zia.Spec

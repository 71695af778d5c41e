import Verif.Spec.Search
import Verif.Lemmas.Syntax
import Verif.Lemmas.Monad

/-!
# Matching expressions with stored rules
-/

namespace Zia

open Spec

set_option linter.unusedSectionVars false

variable [HashOrder]

variable {e : Env}

theorem isFreeVariable_ok {g : CId} {b : Bool} (h : Search.isFreeVariable e g = .ok b) :
    b = true ↔ Generic e g := by
  unfold Search.isFreeVariable at h
  cases hr : e.view.read g with
  | error x => rw [hr] at h; cases h
  | ok c =>
    rw [hr] at h
    simp only [Except.bind_eq_ok, Except.pure_eq_ok, Except.ok.injEq] at h
    obtain ⟨_, rfl, rfl⟩ := h
    rw [Bool.and_eq_true]
    constructor
    · rintro ⟨h1, h2⟩
      refine ⟨c, hr, h1, fun t ht => ?_⟩
      rw [ht] at h2
      simpa using h2
    · rintro ⟨c', hr', h1, h2⟩
      rw [hr] at hr'
      cases hr'
      refine ⟨h1, ?_⟩
      cases ht : e.mask.tail? with
      | none => rfl
      | some t => simpa using h2 t ht

theorem canGeneralise_ok {t : Syn} {g : CId} {b : Bool}
    (h : Search.canGeneralise e t g = .ok b) : b = true ↔ Generic e g ∧ Fixed e t := by
  unfold Search.canGeneralise at h
  simp only [Except.bind_eq_ok] at h
  obtain ⟨f, hf, h⟩ := h
  have hg := isFreeVariable_ok hf
  cases f with
  | false =>
    have hng : ¬ Generic e g := by rw [← hg]; simp
    simp only [Bool.false_eq_true, if_false, Except.pure_eq_ok] at h
    subst h
    simp [hng]
  | true =>
    have hg : Generic e g := hg.1 rfl
    rw [if_pos rfl] at h
    split at h
    · rename_i hb
      cases h
      simp only [Bool.false_eq_true, false_iff]
      rintro ⟨_, hx, _⟩
      exact hx (List.contains_iff_mem.1 hb)
    · rename_i hb
      have hb : t.key ∉ e.bound := fun hm => hb (List.contains_iff_mem.2 hm)
      split at h
      · rename_i hc
        cases h
        refine ⟨fun _ => ⟨hg, hb, ?_⟩, fun _ => rfl⟩
        intro c h'; rw [hc] at h'; cases h'
      · rename_i c hc
        simp only [Except.bind_eq_ok, Except.pure_eq_ok] at h
        obtain ⟨x, hx, rfl⟩ := h
        constructor
        · intro hn
          refine ⟨hg, hb, fun c' hc' => ?_⟩
          rw [hc] at hc'; cases hc'
          exact ⟨x, hx, by simpa using hn⟩
        · rintro ⟨_, _, hy⟩
          obtain ⟨y, hy, hyb⟩ := hy c hc
          rw [hx] at hy; cases hy
          simp [hyb]

/-- Every entry of the first matching is in the second, up to the key of the expression. -/
def Within (m m' : Mask) : Prop :=
  ∀ k u, m.get? k = some u → ∃ u', m'.get? k = some u' ∧ u'.key = u.key

theorem Spec.InstanceOf.mono {m m' : Mask} (hm : Within m m') {t : Syn} {g : CId}
    (h : InstanceOf e m t g) : InstanceOf e m' t g := by
  induction h with
  | «variable» hg hf hp hu hk =>
    obtain ⟨u', hu', hk'⟩ := hm _ _ hu
    exact .variable hg hf hp hu' (hk'.trans hk)
  | constant hg hc => exact .constant hg hc
  | pair hg hf hp he _ _ ihl ihr => exact .pair hg hf hp he ihl ihr

theorem parts_unique {g : CId} {p q : Option (CId × CId)} (h : PartsOf e g p)
    (h' : PartsOf e g q) : p = q := by
  obtain ⟨c, hc, rfl⟩ := h
  obtain ⟨c', hc', rfl⟩ := h'
  rw [hc] at hc'
  cases hc'
  rfl

/-- A matching of one variable. -/
theorem single_match {t : Syn} {g : CId} (hg : Generic e g) (hf : Fixed e t)
    (hp : PartsOf e g none) : AMap.WF ([(g, t)] : Mask) ∧ InstanceOf e [(g, t)] t g ∧
      ∀ k u, AMap.get? ([(g, t)] : Mask) k = some u → VariableIn e k g := by
  refine ⟨by simp [AMap.WF], .variable (u := t) hg hf hp (by simp [AMap.get?]) rfl, ?_⟩
  intro k u hk
  have := AMap.mem_of_get? _ _ _ hk
  simp only [List.mem_singleton, Prod.mk.injEq] at this
  obtain ⟨rfl, rfl⟩ := this
  exact .self hg hp

theorem checkGeneralisation_sound : ∀ (t : Syn) {g : CId} {m : Mask},
    Search.checkGeneralisation e t g = .ok (some m) →
    Generic e g ∧ m.WF ∧ InstanceOf e m t g ∧ ∀ k u, m.get? k = some u → VariableIn e k g := by
  intro t
  induction t with
  | leaf s c l =>
    intro g m h
    unfold Search.checkGeneralisation at h
    simp only [Except.bind_eq_ok] at h
    obtain ⟨b, hb, h⟩ := h
    split at h
    · rename_i hbt
      obtain ⟨hg, hf⟩ := (canGeneralise_ok hb).1 hbt
      simp only [Except.bind_eq_ok] at h
      obtain ⟨x, hx, h⟩ := h
      split at h
      · cases h
      · rename_i hc
        cases h
        exact ⟨hg, single_match hg hf ⟨x, hx, hc⟩⟩
    · cases h
  | branch s c l r f bd ihl ihr =>
    intro g m h
    unfold Search.checkGeneralisation at h
    simp only [Except.bind_eq_ok] at h
    obtain ⟨b, hb, h⟩ := h
    split at h
    · rename_i hbt
      obtain ⟨hg, hf⟩ := (canGeneralise_ok hb).1 hbt
      simp only [Except.bind_eq_ok] at h
      obtain ⟨x, hx, h⟩ := h
      refine ⟨hg, ?_⟩
      split at h
      · rename_i hc
        cases h
        exact single_match hg hf ⟨x, hx, hc⟩
      · rename_i gl gr hc
        have hp : PartsOf e g (some (gl, gr)) := ⟨x, hx, hc⟩
        simp only [Except.bind_eq_ok] at h
        obtain ⟨bl, hbl, br, hbr, h⟩ := h
        have gl' := isFreeVariable_ok hbl
        have gr' := isFreeVariable_ok hbr
        cases bl <;> cases br <;> dsimp only at h
        · split at h
          · rename_i hcc
            cases h
            refine ⟨.nil, .pair hg hf hp rfl (.constant ?_ hcc.1) (.constant ?_ hcc.2), ?_⟩
            · rw [← gl']; simp
            · rw [← gr']; simp
            · intro k u hk; cases hk
          · cases h
        · split at h
          · rename_i hcc
            obtain ⟨_, w, i, v⟩ := ihr h
            refine ⟨w, .pair hg hf hp rfl (.constant ?_ hcc) i, fun k u hk => .right hg hp (v k u hk)⟩
            rw [← gl']; simp
          · cases h
        · split at h
          · rename_i hcc
            obtain ⟨_, w, i, v⟩ := ihl h
            refine ⟨w, .pair hg hf hp rfl i (.constant ?_ hcc), fun k u hk => .left hg hp (v k u hk)⟩
            rw [← gr']; simp
          · cases h
        · simp only [Except.bind_eq_ok] at h
          obtain ⟨lo, hl, ro, hr, h⟩ := h
          cases lo with
          | none => cases h
          | some lm =>
            cases ro with
            | none => cases h
            | some rm =>
              obtain ⟨_, wl, il, vl⟩ := ihl hl
              obtain ⟨_, wr, ir, vr⟩ := ihr hr
              have hm : mergeInto rm lm = some m := by
                simpa only [Except.pure_eq_ok] using h
              have sp := mergeInto_spec lm rm wr wl
              rw [hm] at sp
              obtain ⟨w, hget, hag⟩ := sp
              refine ⟨w, .pair hg hf hp rfl (il.mono ?_) (ir.mono ?_), ?_⟩
              · intro k u hk
                rw [hget k]
                cases hrk : rm.get? k with
                | none => exact ⟨u, hk, rfl⟩
                | some u' => exact ⟨u', rfl, hag k u' u hrk hk⟩
              · intro k u hk
                rw [hget k, hk]
                exact ⟨u, rfl, rfl⟩
              · intro k u hk
                rw [hget k] at hk
                cases hrk : rm.get? k with
                | none => rw [hrk] at hk; exact .left hg hp (vl k u hk)
                | some u' => exact .right hg hp (vr k u' hrk)
    · cases h

theorem instance_generic {t : Syn} {g : CId} {m : Mask} (hg : Generic e g)
    (h : InstanceOf e m t g) : Fixed e t ∧
      ((PartsOf e g none ∧ ∃ u, m.get? g = some u ∧ u.key = t.key) ∨
        ∃ gl gr l r, PartsOf e g (some (gl, gr)) ∧ t.expansion = some (l, r) ∧
          InstanceOf e m l gl ∧ InstanceOf e m r gr) := by
  cases h with
  | «variable» _ hf hp hu hk => exact ⟨hf, .inl ⟨hp, _, hu, hk⟩⟩
  | constant hn _ => exact absurd hg hn
  | pair _ hf hp he hl hr => exact ⟨hf, .inr ⟨_, _, _, _, hp, he, hl, hr⟩⟩

theorem instance_constant {t : Syn} {g : CId} {m : Mask} (hg : ¬ Generic e g)
    (h : InstanceOf e m t g) : t.concept = some g := by
  cases h with
  | «variable» h _ _ _ _ => exact absurd h hg
  | constant _ h => exact h
  | pair h _ _ _ _ _ => exact absurd h hg

theorem checkGeneralisation_complete {m : Mask} : ∀ (t : Syn) {g : CId} {o : Option Mask},
    Generic e g → InstanceOf e m t g → Search.checkGeneralisation e t g = .ok o →
    ∃ m', o = some m' ∧ Within m' m := by
  have single : ∀ {t : Syn} {g : CId} {u : Syn}, m.get? g = some u → u.key = t.key →
      Within [(g, t)] m := by
    intro t g u hu hk k v hv
    have := AMap.mem_of_get? _ _ _ hv
    simp only [List.mem_singleton, Prod.mk.injEq] at this
    obtain ⟨rfl, rfl⟩ := this
    exact ⟨u, hu, hk⟩
  intro t
  induction t with
  | leaf s c l =>
    intro g o hg hi h
    obtain ⟨hf, hi⟩ := instance_generic hg hi
    rcases hi with ⟨hp, u, hu, hk⟩ | ⟨_, _, _, _, _, he, _⟩
    · unfold Search.checkGeneralisation at h
      simp only [Except.bind_eq_ok] at h
      obtain ⟨b, hb, h⟩ := h
      rw [if_pos ((canGeneralise_ok hb).2 ⟨hg, hf⟩)] at h
      simp only [Except.bind_eq_ok] at h
      obtain ⟨x, hx, h⟩ := h
      rw [parts_unique ⟨x, hx, rfl⟩ hp] at h
      cases h
      exact ⟨_, rfl, single hu hk⟩
    · cases he
  | branch s c l r f bd ihl ihr =>
    intro g o hg hi h
    obtain ⟨hf, hi⟩ := instance_generic hg hi
    unfold Search.checkGeneralisation at h
    simp only [Except.bind_eq_ok] at h
    obtain ⟨b, hb, h⟩ := h
    rw [if_pos ((canGeneralise_ok hb).2 ⟨hg, hf⟩)] at h
    simp only [Except.bind_eq_ok] at h
    obtain ⟨x, hx, h⟩ := h
    rcases hi with ⟨hp, u, hu, hk⟩ | ⟨gl, gr, l', r', hp, he, hl, hr⟩
    · rw [parts_unique ⟨x, hx, rfl⟩ hp] at h
      cases h
      exact ⟨_, rfl, single hu hk⟩
    · cases he
      rw [parts_unique ⟨x, hx, rfl⟩ hp] at h
      simp only [Except.bind_eq_ok] at h
      obtain ⟨bl, hbl, br, hbr, h⟩ := h
      have gl' := isFreeVariable_ok hbl
      have gr' := isFreeVariable_ok hbr
      cases bl <;> cases br <;> dsimp only at h
      · rw [if_pos ⟨instance_constant (by rw [← gl']; simp) hl,
          instance_constant (by rw [← gr']; simp) hr⟩] at h
        cases h
        exact ⟨_, rfl, by intro k u hk; cases hk⟩
      · rw [if_pos (instance_constant (by rw [← gl']; simp) hl)] at h
        exact ihr (gr'.1 rfl) hr h
      · rw [if_pos (instance_constant (by rw [← gr']; simp) hr)] at h
        exact ihl (gl'.1 rfl) hl h
      · simp only [Except.bind_eq_ok] at h
        obtain ⟨lo, hlo, ro, hro, h⟩ := h
        obtain ⟨lm, rfl, wl⟩ := ihl (gl'.1 rfl) hl hlo
        obtain ⟨rm, rfl, wr⟩ := ihr (gr'.1 rfl) hr hro
        obtain ⟨_, fl, _, _⟩ := checkGeneralisation_sound l hlo
        obtain ⟨_, fr, _, _⟩ := checkGeneralisation_sound r hro
        have sp := mergeInto_spec lm rm fr fl
        have hm : mergeInto rm lm = o := by
          simpa only [Except.pure_eq_ok] using h
        cases o with
        | none =>
          rw [hm] at sp
          obtain ⟨k, u, v, hu, hv, hne⟩ := sp
          obtain ⟨u', hu', ku⟩ := wr k u hu
          obtain ⟨v', hv', kv⟩ := wl k v hv
          rw [hu'] at hv'
          cases hv'
          exact absurd (ku.symm.trans kv) hne
        | some m' =>
          rw [hm] at sp
          obtain ⟨_, hget, _⟩ := sp
          refine ⟨m', rfl, ?_⟩
          intro k u hk
          rw [hget k] at hk
          cases hrk : rm.get? k with
          | none => rw [hrk] at hk; exact wl k u hk
          | some u' => rw [hrk] at hk; cases hk; exact wr k u hrk

end Zia

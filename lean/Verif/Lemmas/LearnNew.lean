import Verif.Lemmas.LearnStore
import Verif.Lemmas.Teach
import Verif.Lemmas.Rename

/-!
# Teaching a reduction of new words

The words of `let (x (-> y))` that are new are introduced before the reduction is taught.
-/

namespace Zia
open CM Spec
set_option linter.unusedSectionVars false

/-- The pending changes after one word is introduced. -/
def oneName (t : Str) : Delta where
  string := [(t, .create (.unc 0))]
  num := 3
  order := [(.unc 0, .new (.str t)), (.unc 1, .new (.reducesTo (.unc 0))),
    (.unc 2, .new (.right (.unc 1) (.com (builtin .label)) none))]
  concept := [(.unc 0, [.direct (.new (.str t)), .indirect (.reducesFrom (.unc 1))]),
    (.unc 1, [.direct (.new (.reducesTo (.unc 0))), .indirect (.composedOf ⟨.com (builtin .label), .unc 2⟩)]),
    (.unc 2, [.direct (.new (.right (.unc 1) (.com (builtin .label)) none))]),
    (.com (builtin .label), [.indirect (.lefthandOf (.unc 1) (.unc 2))])]

/-- The pending changes after two words are introduced. -/
def twoNames (t u : Str) : Delta where
  string := [(t, .create (.unc 0)), (u, .create (.unc 3))]
  num := 6
  order := (oneName t).order ++ [(.unc 3, .new (.str u)), (.unc 4, .new (.reducesTo (.unc 3))),
    (.unc 5, .new (.right (.unc 4) (.com (builtin .label)) none))]
  concept := [(.unc 0, [.direct (.new (.str t)), .indirect (.reducesFrom (.unc 1))]),
    (.unc 1, [.direct (.new (.reducesTo (.unc 0))), .indirect (.composedOf ⟨.com (builtin .label), .unc 2⟩)]),
    (.unc 2, [.direct (.new (.right (.unc 1) (.com (builtin .label)) none))]),
    (.com (builtin .label), [.indirect (.lefthandOf (.unc 1) (.unc 2)), .indirect (.lefthandOf (.unc 4) (.unc 5))]),
    (.unc 3, [.direct (.new (.str u)), .indirect (.reducesFrom (.unc 4))]),
    (.unc 4, [.direct (.new (.reducesTo (.unc 3))), .indirect (.composedOf ⟨.com (builtin .label), .unc 5⟩)]),
    (.unc 5, [.direct (.new (.right (.unc 4) (.com (builtin .label)) none))])]

theorem introduce_one (s : Snap) (ca : Cache) (vs : AMap Str CId) (b : List Key) (p : Bool) (t : Str) :
    Updater.newLabelledConcept t none (some (.com (builtin .label)))
      ⟨s, .base (Delta.empty 0), ca, vs, b, p⟩ =
      .ok (.ok (.unc 2), ⟨s, .base (oneName t), .empty, vs, b, p⟩) := rfl

theorem introduce_two (s : Snap) (ca : Cache) (vs : AMap Str CId) (b : List Key) (p : Bool) {t u : Str}
    (h : t ≠ u) :
    Updater.newLabelledConcept u none (some (.com (builtin .label)))
      ⟨s, .base (oneName t), ca, vs, b, p⟩ =
      .ok (.ok (.unc 5), ⟨s, .base (twoNames t u), .empty, vs, b, p⟩) := by
  have h1 : ∀ d : Delta, d.string = [(t, .create (.unc 0))] → d.insertString u (.unc 3) =
      .ok { d with string := [(t, .create (.unc 0)), (u, .create (.unc 3))] } := by
    intro d hd
    simp [Delta.insertString, hd, AMap.get?, AMap.insert, h]
  have h2 : (oneName t).updateNew (.str u) = (do
      return (← Delta.insertString ⟨(oneName t).string, 4, (oneName t).order,
        (oneName t).concept ++ [(.unc 3, [.direct (.new (.str u))])]⟩ u (.unc 3), .unc 3)) := rfl
  rw [h1 _ rfl] at h2
  unfold Updater.newLabelledConcept
  simp only [Option.isSome_some, Bool.true_or, if_true]
  have h3 : update (.new (.str u)) ⟨s, .base (oneName t), ca, vs, b, p⟩ = .ok (.ok (.unc 3), ⟨s, .base
      ⟨[(t, .create (.unc 0)), (u, .create (.unc 3))], 4, (oneName t).order ++ [(.unc 3, .new (.str u))],
        (oneName t).concept ++ [(.unc 3, [.direct (.new (.str u))])]⟩, .empty, vs, b, p⟩) := by
    have h4 : (oneName t).update (.new (.str u)) = .ok (⟨[(t, .create (.unc 0)), (u, .create (.unc 3))], 4,
        (oneName t).order ++ [(.unc 3, .new (.str u))],
        (oneName t).concept ++ [(.unc 3, [.direct (.new (.str u))])]⟩, .unc 3) := by
      unfold Delta.update
      dsimp only
      rw [h2]
      rfl
    show (do
      let (d, id) ← ((do let (o, id) ← (oneName t).update (.new (.str u)); return (Nested.base o, id)) :
        Except Fault (Nested × CId))
      return (.ok id, (⟨s, d, .empty, vs, b, p⟩ : Ctx)) : Except Fault (Except ZiaError CId × Ctx)) = _
    rw [h4]
    rfl
  rw [bind_apply, h3]
  rfl

/-- The changes that introduce the words that are new, and the concepts of the words. -/
inductive Shape : Delta → Str → Str → CId → CId → Prop
  | none {x y : Str} (i j : Nat) : Shape (Delta.empty 0) x y (.com i) (.com j)
  | first {x y : Str} (j : Nat) : Shape (oneName x) x y (.unc 2) (.com j)
  | second {x y : Str} (i : Nat) : Shape (oneName y) x y (.com i) (.unc 2)
  | two {x y : Str} : Shape (twoNames x y) x y (.unc 2) (.unc 5)

/-- The built-in concept for labels is the stored one. -/
theorem concreteLoop_skip {v : View} {cc : CCT} {acc : Option (Option CId)}
    {L : List (CId × List CDelta)} {o : Option (Option CId)}
    (h : ∀ p ∈ L, v.maybeCct p.1 = .ok (some cc) →
      ∀ e ∈ p.2, (∀ d, e ≠ .direct (.new d)) ∧ ∀ x, e ≠ .direct (.remove x))
    (ho : v.concreteLoop cc acc L = .ok o) : o = acc := by
  induction L generalizing acc with
  | nil => cases ho; rfl
  | cons p L ih =>
    obtain ⟨id, ds⟩ := p
    have ih := fun acc => ih (acc := acc) fun p hp => h p (List.mem_cons_of_mem _ hp)
    simp only [View.concreteLoop, Except.bind_eq_ok] at ho
    obtain ⟨t, ht, ho⟩ := ho
    split at ho
    · next e =>
      subst e
      rw [concreteStep_keeps (h _ List.mem_cons_self ht)] at ho
      exact ih _ ho
    · exact ih _ ho

/-- Only words are pending: nothing about stored concepts other than the one for labels. -/
structure Pending [HashOrder] (s : Snap) (d : Delta) : Prop where
  coms : ∀ k, k ≠ builtin .label → d.concept.get? (.com k) = none
  two : ∃ m, (View.mk s (.base d)).read (.com (builtin .label)) = .ok m ∧ m.reduction = none ∧ m.string = none
  label : ∀ o, (View.mk s (.base d)).concreteId .label = .ok o → o = some (.com (builtin .label))
  ids : ∀ a m, (View.mk s (.base d)).read a = .ok m → m.id = a

/-- A word that is pending. -/
def Fresh (v : View) (a : CId) (t : Str) : Prop :=
  ∃ k z m mk mz, v.read a = .ok m ∧ m.composition = none ∧ m.string = none ∧ m.reduction = none ∧ m.cct = none ∧
    m.findAsHand (.com (builtin .label)) .right = some k ∧ v.read k = .ok mk ∧
    mk.composition = some (.com (builtin .label), a) ∧ mk.reduction = some z ∧
    v.read z = .ok mz ∧ mz.reduction = none ∧ mz.string = some t

theorem fresh_one (s : Snap) (t : Str) : Fresh ⟨s, .base (oneName t)⟩ (.unc 2) t :=
  ⟨_, _, _, _, _, rfl, rfl, rfl, rfl, rfl, rfl, rfl, rfl, rfl, rfl, rfl, rfl⟩

theorem fresh_first (s : Snap) (t u : Str) : Fresh ⟨s, .base (twoNames t u)⟩ (.unc 2) t :=
  ⟨_, _, _, _, _, rfl, rfl, rfl, rfl, rfl, rfl, rfl, rfl, rfl, rfl, rfl, rfl⟩

theorem fresh_second (s : Snap) (t u : Str) : Fresh ⟨s, .base (twoNames t u)⟩ (.unc 5) u :=
  ⟨_, _, _, _, _, rfl, rfl, rfl, rfl, rfl, rfl, rfl, rfl, rfl, rfl, rfl, rfl⟩

theorem read_id_base {s : Snap} (hs : RefsInv s) {d : Delta} {a : CId} {m : Mixed}
    (h : (View.mk s (.base d)).read a = .ok m) : m.id = a := by
  have st : ∀ x, (View.mk s (.base d)).getConcept a = some x → x.id = a := fun x hx => stored_id hs hx
  simp only [View.read, Except.bind_eq_ok] at h
  obtain ⟨o, ho, h⟩ := h
  cases o with
  | some x =>
    cases h
    unfold View.maybeRead at ho
    split at ho
    · cases ho
    · exact readSteps_id ho st
  | none =>
    cases hg : (View.mk s (.base d)).getConcept a with
    | none => rw [hg] at h; cases h
    | some x => rw [hg] at h; cases h; exact st _ hg

section
variable [HashOrder]

theorem pending_none {s : Snap} (hs : Nameable s) : Pending s (Delta.empty 0) := by
  obtain ⟨cl, hcl, e⟩ := (hs.concrete _).2 rfl
  refine ⟨fun _ _ => rfl, ⟨_, rest_read hcl, ?_, ?_⟩, ?_, fun a m => read_id_base hs.refs⟩
  · show (cl.reduction.map _) = none
    simp [Concept.reduction, e]
  · show cl.string = none
    simp [Concept.string, e]
  · intro o h
    have := rest_label hs
    rw [show Nested.base (Delta.empty 0) = Nested.default from rfl, this] at h
    cases h; rfl

theorem pending_one {s : Snap} (hs : Nameable s) (t : Str) : Pending s (oneName t) := by
  obtain ⟨cl, hcl, e⟩ := (hs.concrete _).2 rfl
  refine ⟨?_, ?_, ?_, fun a m => read_id_base hs.refs⟩
  · intro k hk
    simp [oneName, AMap.get?, Ne.symm hk]
  · refine ⟨.prev cl [(.unc 2, some (.unc 1))] [] [] (cl.composition.map fun p => (.com p.1, .com p.2))
        (cl.reduction.map .com), ?_, ?_, ?_⟩
    · simp only [View.read, View.maybeRead, View.getConcept, hcl]
      rfl
    · show (cl.reduction.map _) = none
      simp [Concept.reduction, e]
    · show cl.string = none
      simp [Concept.string, e]
  · intro o h
    simp only [View.concreteId, Except.bind_eq_ok] at h
    obtain ⟨a, ha, h⟩ := h
    have := concreteLoop_skip (by
      intro p hp hcc e he
      rw [HashOrder.mem_order] at hp
      simp only [Nested.iterConcepts, oneName, List.mem_cons, List.not_mem_nil, or_false] at hp
      rcases hp with rfl | rfl | rfl | rfl
      · cases hcc
      · cases hcc
      · cases hcc
      · simp only [List.mem_cons, List.not_mem_nil, or_false] at he
        subst he
        exact ⟨by simp, by simp⟩) ha
    subst this
    dsimp only at h
    rw [hs.table] at h
    cases h
    rfl

theorem pending_two {s : Snap} (hs : Nameable s) (t u : Str) : Pending s (twoNames t u) := by
  obtain ⟨cl, hcl, e⟩ := (hs.concrete _).2 rfl
  refine ⟨?_, ?_, ?_, fun a m => read_id_base hs.refs⟩
  · intro k hk
    simp [twoNames, AMap.get?, Ne.symm hk]
  · refine ⟨.prev cl [(.unc 2, some (.unc 1)), (.unc 5, some (.unc 4))] [] [] (cl.composition.map fun p => (.com p.1, .com p.2))
        (cl.reduction.map .com), ?_, ?_, ?_⟩
    · simp only [View.read, View.maybeRead, View.getConcept, hcl]
      rfl
    · show (cl.reduction.map _) = none
      simp [Concept.reduction, e]
    · show cl.string = none
      simp [Concept.string, e]
  · intro o h
    simp only [View.concreteId, Except.bind_eq_ok] at h
    obtain ⟨a, ha, h⟩ := h
    have := concreteLoop_skip (by
      intro p hp hcc e he
      rw [HashOrder.mem_order] at hp
      simp only [Nested.iterConcepts, twoNames, List.mem_cons, List.not_mem_nil, or_false] at hp
      rcases hp with rfl | rfl | rfl | rfl | rfl | rfl | rfl
      · cases hcc
      · cases hcc
      · cases hcc
      · simp only [List.mem_cons, List.not_mem_nil, or_false] at he
        rcases he with rfl | rfl <;> exact ⟨by simp, by simp⟩
      · cases hcc
      · cases hcc
      · cases hcc) ha
    subst this
    dsimp only at h
    rw [hs.table] at h
    cases h
    rfl

theorem Pending.read_com {s : Snap} {d : Delta} (h : Pending s d) {k : Nat} (hk : k ≠ builtin .label) :
    (View.mk s (.base d)).read (.com k) = (View.mk s Nested.default).read (.com k) := by
  have : (View.mk s (.base d)).maybeRead (.com k) = (View.mk s Nested.default).maybeRead (.com k) := by
    show (match d.concept.get? (.com k) with
      | none => Except.ok none
      | some ds => View.readSteps _ _ ds) = _
    rw [h.coms k hk]
    rfl
  unfold View.read
  rw [this]
  rfl

theorem Pending.normalForm {s : Snap} {d : Delta} (hs : Nameable s) (h : Pending s d) (n k : Nat) :
    (View.mk s (.base d)).normalForm n (.com k) = (View.mk s Nested.default).normalForm n (.com k) := by
  induction n generalizing k with
  | zero => rfl
  | succ n ih =>
    unfold View.normalForm
    by_cases hk : k = builtin .label
    · subst hk
      obtain ⟨m, h1, h2, _⟩ := h.two
      obtain ⟨m', h1', h2', _⟩ := (pending_none hs).two
      have h1' : (View.mk s Nested.default).read (.com (builtin .label)) = .ok m' := h1'
      rw [h1, h1']
      show (match m.reduction with
        | none => pure none
        | some r => _) = (match m'.reduction with
        | none => pure none
        | some r => _)
      rw [h2, h2']
    · rw [h.read_com hk]
      cases hm : (View.mk s Nested.default).read (.com k) with
      | error e => rfl
      | ok m =>
        obtain ⟨k', c, e, hc, rfl⟩ := rest_read_inv hm
        show (match (Mixed.ofCon c).reduction with
          | none => pure none
          | some r => do return some ((← (View.mk s (.base d)).normalForm n r).getD r)) =
          (match (Mixed.ofCon c).reduction with
          | none => pure none
          | some r => do return some ((← (View.mk s Nested.default).normalForm n r).getD r))
        have e : (Mixed.ofCon c).reduction = c.reduction.map .com := rfl
        rw [e]
        cases c.reduction with
        | none => rfl
        | some r =>
          simp only [Option.map_some]
          rw [ih]

theorem Pending.word {s : Snap} {d : Delta} (hs : Nameable s) (hf : CompFwd (look s.concepts))
    (h : Pending s d) {i : Nat} {t : Str} (hi : i ≠ builtin .label) (hw : PlainWord s i t) {n : Nat}
    {r : Option Str} (hr : (View.mk s (.base d)).label n (.com i) = .ok r) : r = some t := by
  refine hw.label hs hf (n := n) ?_
  rw [← hr]
  cases n with
  | zero => rfl
  | succ n =>
    obtain ⟨k, x, hk, hrk, hx⟩ := hw.name
    obtain ⟨ck, h1, h2⟩ := hk
    rw [composition_eq] at h2
    obtain ⟨_, c, hc, hg⟩ := hf k ck _ _ h1 h2
    have hg : c.findAsHand (builtin .label) .right = some k := hg
    have hv : (View.mk s (.base d)).concreteId .label = .ok (some (.com (builtin .label))) := by
      cases ho : (View.mk s (.base d)).concreteId .label with
      | ok o => rw [h.label o ho]
      | error e =>
        unfold View.label at hr
        unfold View.conceptOfLabel at hr
        rw [ho] at hr
        cases hr
    have e1 : (View.mk s (.base d)).conceptOfLabel (.com i) = .ok (some (.com k)) := by
      unfold View.conceptOfLabel
      rw [hv]
      show (do return (← (View.mk s (.base d)).read (.com i)).findAsHand (.com (builtin .label)) .right) = _
      rw [h.read_com hi, rest_read hc]
      show Except.ok ((Mixed.ofCon c).findAsHand _ _) = _
      rw [ofCon_findAsHand, hg]
      rfl
    have e2 := rest_conceptOfLabel hs hc
    rw [hg] at e2
    have e2 : (View.mk s Nested.default).conceptOfLabel (.com i) = .ok (some (.com k)) := e2
    unfold View.label
    rw [e1, e2]
    show (do match ← (View.mk s Nested.default).normalForm n (.com k) with
      | none => pure none
      | some x => do return (← (View.mk s Nested.default).read x).string) =
      (do match ← (View.mk s (.base d)).normalForm n (.com k) with
      | none => pure none
      | some x => do return (← (View.mk s (.base d)).read x).string)
    rw [h.normalForm hs]
    cases hnf : (View.mk s Nested.default).normalForm n (.com k) with
    | error e => rfl
    | ok o =>
      cases o with
      | none => rfl
      | some x =>
        show (do return (← (View.mk s Nested.default).read x).string) =
          (do return (← (View.mk s (.base d)).read x).string)
        obtain ⟨x', rfl⟩ : ∃ x', x = .com x' := by
          obtain ⟨m, hm, _⟩ := normalForm_inv hnf
          exact ⟨m, hm⟩
        by_cases hx : x' = builtin .label
        · subst hx
          obtain ⟨m, h1, _, h2⟩ := h.two
          obtain ⟨m', h1', _, h2'⟩ := (pending_none hs).two
          have h1' : (View.mk s Nested.default).read (.com (builtin .label)) = .ok m' := h1'
          rw [h1, h1']
          show Except.ok m'.string = Except.ok m.string
          rw [h2, h2']
        · rw [h.read_com hx]

theorem Fresh.label {s : Snap} {d : Delta} (h : Pending s d) {a : CId} {t : Str}
    (hw : Fresh ⟨s, .base d⟩ a t) {n : Nat} {r : Option Str}
    (hr : (View.mk s (.base d)).label n a = .ok r) : r = some t := by
  obtain ⟨k, z, m, mk, mz, h1, _, _, _, _, h2, h3, _, h4, h5, h6, h7⟩ := hw
  cases n with
  | zero => cases hr
  | succ n =>
    have hv : (View.mk s (.base d)).concreteId .label = .ok (some (.com (builtin .label))) := by
      cases ho : (View.mk s (.base d)).concreteId .label with
      | ok o => rw [h.label o ho]
      | error e =>
        unfold View.label at hr
        unfold View.conceptOfLabel at hr
        rw [ho] at hr
        cases hr
    have e1 : (View.mk s (.base d)).conceptOfLabel a = .ok (some k) := by
      unfold View.conceptOfLabel
      rw [hv]
      show (do return (← (View.mk s (.base d)).read a).findAsHand (.com (builtin .label)) .right) = _
      rw [h1]
      exact congrArg Except.ok h2
    unfold View.label at hr
    rw [e1] at hr
    have hr : (do match ← (View.mk s (.base d)).normalForm n k with
      | none => pure none
      | some x => do return (← (View.mk s (.base d)).read x).string) = Except.ok r := hr
    cases n with
    | zero => cases hr
    | succ n =>
      unfold View.normalForm at hr
      rw [h3] at hr
      have hr : (do match ← (match mk.reduction with
            | none => pure none
            | some r => do return some ((← (View.mk s (.base d)).normalForm n r).getD r)) with
        | none => pure none
        | some x => do return (← (View.mk s (.base d)).read x).string) = Except.ok r := hr
      rw [h4] at hr
      cases n with
      | zero => cases hr
      | succ n =>
        have e2 : (View.mk s (.base d)).normalForm (n + 1) z = .ok none := by
          unfold View.normalForm
          rw [h5]
          show (match mz.reduction with
            | none => pure none
            | some r => _) = _
          rw [h6]
          rfl
        dsimp only at hr
        rw [e2] at hr
        have hr : (do return (← (View.mk s (.base d)).read z).string) = Except.ok r := hr
        rw [h5] at hr
        cases hr
        exact h7

/-- A word of the command, stored or pending. -/
def Word (s : Snap) (d : Delta) (a : CId) (t : Str) : Prop :=
  Syn.isVariableName t = false ∧
    ((∃ i, a = .com i ∧ i ≠ builtin .label ∧ PlainWord s i t) ∨ (∃ u, a = .unc u ∧ Fresh ⟨s, .base d⟩ a t))

theorem pending_displayed {s : Snap} {d : Delta} (hs : Nameable s) (hf : CompFwd (look s.concepts))
    (h : Pending s d) {D : CId → Prop} (hD : ∀ a, D a → ∃ t, Word s d a t) :
    Displayed ⟨s, .base d⟩ D := by
  refine ⟨h.ids, ?_, ?_⟩
  · intro a ha
    obtain ⟨t, _, ⟨i, rfl, hi, hw⟩ | ⟨u, rfl, hw⟩⟩ := hD a ha
    · obtain ⟨m, h1, h2⟩ := (words_displayed hs hf (D := (· = .com i)) (by
        rintro _ rfl; exact ⟨_, _, rfl, hw⟩)).plain _ rfl
      exact ⟨m, by rw [h.read_com hi]; exact h1, h2⟩
    · obtain ⟨k, z, m, mk, mz, h1, h2, h3, _⟩ := hw
      exact ⟨m, h1, h2, h3⟩
  · intro a n r ha hr
    obtain ⟨t, hv, ⟨i, rfl, hi, hw⟩ | ⟨u, rfl, hw⟩⟩ := hD a ha
    · exact ⟨t, h.word hs hf hi hw hr, hv⟩
    · exact ⟨t, hw.label h hr, hv⟩

theorem ofCon_unc (c : Con) (u : Nat) (hd : Hand) : (Mixed.ofCon c).findAsHand (.unc u) hd = none := by
  cases hd <;> rfl

theorem ready_pending {c : Ctx} {d : Delta} (hs : Nameable c.snap) (hf : CompFwd (look c.snap.concepts))
    (hr : CompRev (look c.snap.concepts)) (hd : c.delta = .base d) (hp : Pending c.snap d)
    {x y : Str} {ix iy : CId}
    (hc : PlainCache (· ∈ [.com (builtin .letCmd), ix, .com (builtin .reduction), iy]) c.cache) (hl : PlainWord c.snap (builtin .letCmd) (str% "let"))
    (ha : PlainWord c.snap (builtin .reduction) (str% "->")) (hx : Word c.snap d ix x)
    (hy : Word c.snap d iy y) (hb : IsBuiltIn c.snap (builtin .letCmd) .letCmd)
    (hb' : IsBuiltIn c.snap (builtin .reduction) .reduction) (hne : ix ≠ iy)
    (hu : ∀ k j, iy = .com j → ¬ComposedOf c.snap k (builtin .reduction) j) :
    Ready c (.com (builtin .letCmd)) ix (.com (builtin .reduction)) iy := by
  have cct : ∀ k t, k ≠ builtin .label → IsBuiltIn c.snap k t →
      (View.mk c.snap c.delta).cct (.com k) = .ok (some t) := by
    rintro k t hk ⟨ck, h1, h2⟩
    rw [hd]
    show (do return (← (View.mk c.snap (.base d)).read (.com k)).cct) = _
    rw [hp.read_com hk, rest_read h1]
    exact congrArg Except.ok h2
  refine ⟨?_, hc, cct _ _ (by decide) hb, cct _ _ (by decide) hb', hne, ?_⟩
  · rw [hd]
    refine pending_displayed hs hf hp fun a ha => ?_
    simp only [List.mem_cons, List.not_mem_nil, or_false] at ha
    rcases ha with rfl | rfl | rfl | rfl
    exacts [⟨_, by decide, .inl ⟨_, rfl, by decide, hl⟩⟩, ⟨_, hx⟩, ⟨str% "->", by decide, .inl ⟨_, rfl, by decide, by assumption⟩⟩, ⟨_, hy⟩]
  · intro m hm
    rw [hd, hp.read_com (by decide)] at hm
    obtain ⟨k, ck, e, hk, rfl⟩ := rest_read_inv hm
    cases e
    cases iy with
    | unc u => exact ofCon_unc _ _ _
    | com j =>
      rw [ofCon_findAsHand]
      cases hf : ck.findAsHand j .left with
      | none => rfl
      | some w =>
        obtain ⟨cw, h1, h2⟩ := (hr _ ck j w hk).1 hf
        exact absurd ⟨cw, h1, by rw [composition_eq]; exact h2⟩ (hu w j rfl)

theorem string_none {s : Snap} (hs : StrInv s) {t : Str} (h : ∀ k, ¬IsString s k t) {d : Delta}
    (hd : d.string.get? t = none) : (View.mk s (.base d)).stringConcept t = .ok none := by
  have : s.stringMap.get? t = none := by
    cases hg : s.stringMap.get? t with
    | none => rfl
    | some i => exact absurd (isString_iff.2 (hs t i (AMap.mem_of_get? _ _ _ hg))) (h i)
  unfold View.stringConcept Nested.getString
  rw [hd, this]
  rfl

/-- The leaf of a new word. -/
theorem leaf_new {n : Nat} {v : View} {t : Str} {k : Kind} {c c' : Ctx} {L : Syn} {d : Delta}
    (ht : IsSymbol t) (hv : Syn.isVariableName t = false) (hs : StrInv c.snap) (hvs : v = ⟨c.snap, .base (Delta.empty 0)⟩)
    (hn : ∀ k, ¬IsString c.snap k t) (hd : c.delta = .base d) (hst : d.string.get? t = none)
    (hp : Pending c.snap d) (hk : Parser.conceptKind v n t = .ok k)
    (h : leafOf n t k c = .ok (.ok L, c')) :
    ∃ id, Updater.newLabelledConcept t none (some (.com (builtin .label))) c = .ok (.ok id, c') ∧
      Plain id L ∧ Follows c c' := by
  have hsp : ' ' ∉ t := by
    intro hm
    have := (ht.2 _ hm).2.2
    exact absurd this (by decide)
  have hnv : ¬(t.head? = some '_' ∧ t.getLast? = some '_') := by
    rintro ⟨h1, h2⟩
    simp [Syn.isVariableName, h1, h2, hsp] at hv
  have none_of : ∀ d : Delta, d.string.get? t = none →
      (View.mk c.snap (.base d)).conceptFromLabel n t = .ok none := by
    intro d hd
    unfold View.conceptFromLabel
    rw [string_none hs hn hd]
    rfl
  unfold Parser.conceptKind at hk
  rw [if_neg hnv, hvs, none_of _ rfl] at hk
  cases hk
  unfold leafOf NST.fromConceptKind Parser.astFromLeaf at h
  dsimp only at h
  obtain ⟨_, c2, h2, h3⟩ := bind_done h
  have : c2 = c := by
    unfold exclusive at h2
    obtain ⟨_, c3, e1, e2⟩ := bind_done h2
    cases e1
    split at e2
    · cases e2
    · cases e2; rfl
  subst this
  obtain ⟨o, c3, h4, h5⟩ := bind_done h3
  obtain ⟨h4, rfl⟩ := reading_done h4
  rw [hd, none_of _ hst] at h4
  cases h4
  dsimp only at h5
  obtain ⟨o, c4, h6, h7⟩ := bind_done h5
  obtain ⟨h6, rfl⟩ := reading_done h6
  have e := hp.label o (hd ▸ h6)
  subst e
  obtain ⟨id, c5, h8, h9⟩ := bind_done h7
  cases h9
  exact ⟨id, h8, ⟨_, _, rfl, by simp⟩, Updater.newLabelledConcept_ends h6 _ _ h8⟩

/-- What the command makes of the store, new words included. -/
theorem taught_pending {s s' : Snap} {c c' : Ctx} {d : Delta} (hs : Nameable s)
    (hf : CompFwd (look s.concepts)) (hprev : s.prev = [])
    (hd : c.delta = .base d) (ht : Trace s Nested.default (.base d))
    (hin : ∀ p ∈ d.order, Introduces p) {ix iy : CId} {x y a : Str}
    (hx : Word s d ix x) (hy : Word s d iy y)
    (h : Taught c ix iy (.ok a) c') (ha : s.apply c'.delta = .ok s') :
    ∃ i j, (ix = .com i ∨ (∃ u, ix = .unc u) ∧ s.concepts.length ≤ i ∧ HasName s' i x) ∧
      (iy = .com j ∨ (∃ u, iy = .unc u) ∧ s.concepts.length ≤ j ∧ HasName s' j y) ∧ Learnt s s' i j := by
  obtain ⟨_, _, ch, hch, id, hu⟩ := h
  have hch : ch = .create iy ∨ ∃ b, ch = .update b iy :=
    hch.imp_right fun ⟨b, _, h, _⟩ => ⟨b, h⟩
  rw [hd] at hu
  obtain ⟨o, e, hid, hup⟩ := Nested.update_base hu
  have ho := Nested.update_order hu
  rw [e] at ha ho
  obtain ⟨g, g', h1, h2, rfl⟩ := apply_base ha
  have ho : o.order = d.order ++ [(id, .reduce ix ch)] := ho
  have hid : id = ix := hid
  subst hid
  rw [ho, applyAll_snoc] at h1
  obtain ⟨g0, h0, h1⟩ := h1
  obtain ⟨d', e', hnm⟩ := trace_names hs hprev ht hin
  cases e'
  obtain ⟨sim, nm⟩ := hnm g0 h0
  obtain ⟨i, j, mc, red, hi, hj, hsp, hsp', hlen⟩ := reduce_specs sim.refs hch (applyOne_step h1)
  have h2 := applyStrings_only h2
  have hcon : ({ g' with prev := [] } : Snap).concepts = g.concepts := by rw [h2]
  have hsame : specs { g' with prev := [] } = updS (specs g0) i (.abst mc (some j)) := by
    rw [← hsp']
    funext m
    unfold specs look
    rw [hcon]
  have other : ∀ k, k ≠ i → specs { g' with prev := [] } k = specs g0 k := by
    intro k hk
    rw [hsame]; simp [updS, hk]
  have at_i : specs { g' with prev := [] } i = some (.abst mc (some j)) := by
    rw [hsame]; simp [updS]
  have old : ∀ k, k < s.concepts.length → specs g0 k = specs s k := by
    intro k hk
    obtain ⟨c', h1, h2, _⟩ := nm.old k _ (List.getElem?_eq_getElem hk)
    simp [specs, look, h1, h2, List.getElem?_eq_getElem hk]
  -- the first word is not a composition
  have simple : ∀ l r, ¬ComposedOf g0 i l r := by
    rcases hx.2 with ⟨i', rfl, _, hw⟩ | ⟨u, rfl, hw⟩
    · cases hi
      intro l r hc
      have hlt : i < s.concepts.length := by
        obtain ⟨k, x, ⟨ck, hk, hp⟩, _⟩ := hw.name
        rw [composition_eq] at hp
        obtain ⟨_, c, hc, _⟩ := hf k ck _ _ hk hp
        exact lt_of_get hc
      rw [composedOf_specs, old i hlt, ← composedOf_specs] at hc
      exact hw.simple l r hc
    · obtain ⟨k, z, m, mk, mz, h1, h2, _⟩ := hw
      obtain ⟨p, sp, hl, hsp1, hag⟩ := sim.read h1
      cases hl.conv.unique hi
      intro l r hc
      rw [composedOf_specs] at hc
      obtain ⟨sp', e1, e2⟩ := hc
      rw [hsp1] at e1
      cases e1
      have := hag.comp
      rw [e2] at this
      have h2 : m.core.comp = none := h2
      rw [h2] at this
      cases this
  have fresh : ∀ u t q, Fresh ⟨s, .base d⟩ (.unc u) t → g0.convert (.unc u) = .ok q →
      s.concepts.length ≤ q ∧ HasName { g' with prev := [] } q t := by
    rintro u t q ⟨k, z, m, mk, mz, h1, h2, h3, h4, h5, h6, h7, h8, h9, h10, h11, h12⟩ hq
    obtain ⟨q', sp, hl, hsp1, hag⟩ := sim.read h1
    cases hl.conv.unique hq
    obtain ⟨kk, spk, hlk, hspk, hagk⟩ := sim.read h7
    obtain ⟨zz, spz, hlz, hspz, hagz⟩ := sim.read h10
    have hcomp : ComposedOf g0 kk (builtin .label) q := by
      rw [composedOf_specs]
      refine ⟨spk, hspk, ?_⟩
      have := hagk.comp
      rw [show mk.core.comp = some (.com (builtin .label), .unc u) from h8] at this
      cases hp : pairOf spk with
      | none => rw [hp] at this; cases this
      | some p =>
        rw [hp] at this
        cases this with
        | some h =>
          have e1 := h.1.unique (show Conv g0 (.com (builtin .label)) (builtin .label) from rfl)
          have e2 := h.2.unique hq
          rw [← e1, ← e2]
    have hred : ReducesTo g0 kk zz := by
      rw [reducesTo_specs]
      refine ⟨spk, hspk, ?_⟩
      have := hagk.red
      rw [show mk.core.red = some z from h9] at this
      cases hp : redOf spk with
      | none => rw [hp] at this; cases this
      | some p =>
        rw [hp] at this
        cases this with
        | some h => rw [h.unique hlz.conv]
    have hstr : specs g0 zz = some (.str t) := by
      rw [hspz]
      have := hagz.str
      rw [show mz.core.str = some t from h12] at this
      cases spz with
      | str t' => simp at this; rw [this]
      | abst _ _ => cases this
      | concrete _ => cases this
    have hki : kk ≠ i := by rintro rfl; exact simple _ _ hcomp
    have hzi : zz ≠ i := by
      rintro rfl
      rw [hsp] at hstr
      cases hstr
    refine ⟨sim.range _ _ hl, kk, zz, ?_, .single ?_, ?_⟩
    · rw [composedOf_specs, other kk hki, ← composedOf_specs]; exact hcomp
    · rw [reducesTo_specs, other kk hki, ← reducesTo_specs]; exact hred
    · rw [isString_specs, other zz hzi]; exact hstr
  refine ⟨i, j, ?_, ?_, ?_, ?_, ?_, ?_, ?_, ?_⟩
  · rcases hx.2 with ⟨i', rfl, _, hw⟩ | ⟨u, rfl, hw⟩
    · cases hi; exact .inl rfl
    · exact .inr ⟨⟨u, rfl⟩, fresh u x i hw hi⟩
  · rcases hy.2 with ⟨i', rfl, _, hw⟩ | ⟨u, rfl, hw⟩
    · cases hj; exact .inl rfl
    · exact .inr ⟨⟨u, rfl⟩, fresh u y j hw hj⟩
  · rw [hcon, hlen]; exact nm.len
  · intro m
    rw [reducesTo_specs, at_i]
    simp [redOf, eq_comm]
  · intro k m hl hk
    rw [reducesTo_specs, reducesTo_specs, other k hk, old k hl]
  · intro k l r hl
    rw [composedOf_specs, composedOf_specs]
    by_cases hk : k = i
    · subst hk
      rw [at_i, ← old k hl, hsp]
      cases mc <;> simp [pairOf]
    · rw [other k hk, old k hl]
  · intro k t hl
    rw [isString_specs, isString_specs]
    by_cases hk : k = i
    · subst hk
      rw [at_i, ← old k hl, hsp]; simp
    · rw [other k hk, old k hl]
  · intro k t hl
    rw [isBuiltIn_specs, isBuiltIn_specs]
    by_cases hk : k = i
    · subst hk
      rw [at_i, ← old k hl, hsp]; simp
    · rw [other k hk, old k hl]

end
end Zia

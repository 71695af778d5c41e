import Verif.Lemmas.Monad
import Verif.Lemmas.Nest
import Verif.Lemmas.Pieces
import Verif.Spec.Brackets

/-!
# Redundant brackets do not change what is read
-/

namespace Zia
open Spec CM

/-- The kind of a symbol. -/
def kindOf (kind : Str → Except Fault Kind) : Str → Except Fault Kind
  | [] => .ok .new
  | c :: r => do
    let k ← kind [c]
    finish kind [c] k r

/-- The items of a text. -/
def itemsOf (kind : Str → Except Fault Kind) : Bracketed → Except Fault Items
  | .nil => .ok .nil
  | .sym t r => do
    let k ← kindOf kind t
    let r ← itemsOf kind r
    return .sym t k r
  | .group i r => do
    let i ← itemsOf kind i
    let r ← itemsOf kind r
    return .group i r

theorem toksOf_cons (kind : Str → Except Fault Kind) (p : Str) (ps : List Str) : toksOf kind (p :: ps) =
    if p = ['('] then do return .opening :: (← toksOf kind ps)
    else if p = [')'] then do return .closing :: (← toksOf kind ps)
    else match p with
      | [] => toksOf kind ps
      | c :: r => do
        let k ← kind [c]
        let k ← finish kind [c] k r
        return .sym (c :: r) k :: (← toksOf kind ps) := by
  rw [toksOf.eq_def]
  cases p <;> rfl

theorem toksOf_append (kind : Str → Except Fault Kind) (a b : List Str) :
    toksOf kind (a ++ b) = (do
      let x ← toksOf kind a
      let y ← toksOf kind b
      return x ++ y) := by
  induction a with
  | nil => cases h : toksOf kind b <;> simp [toksOf, h, bind, Except.bind, pure, Except.pure]
  | cons p a ih =>
    rw [List.cons_append, toksOf_cons, toksOf_cons]
    by_cases h1 : p = ['(']
    · rw [if_pos h1, if_pos h1, ih]
      cases toksOf kind a <;> cases toksOf kind b <;> rfl
    · rw [if_neg h1, if_neg h1]
      by_cases h2 : p = [')']
      · rw [if_pos h2, if_pos h2, ih]
        cases toksOf kind a <;> cases toksOf kind b <;> rfl
      · rw [if_neg h2, if_neg h2]
        cases p with
        | nil => exact ih
        | cons c r =>
          simp only [ih]
          cases kind [c] with
          | error e => rfl
          | ok k =>
            show (finish kind [c] k r >>= _) = _
            simp only [bind, Except.bind, pure, Except.pure]
            cases finish kind [c] k r with
            | error e => rfl
            | ok k => cases toksOf kind a <;> cases toksOf kind b <;> rfl

theorem toksOf_parts (kind : Str → Except Fault Kind) {x : Bracketed} (h : x.Good) :
    toksOf kind x.pieces = (itemsOf kind x).map Items.write := by
  induction x with
  | nil => rfl
  | sym t r ih =>
    obtain ⟨⟨hne, hs⟩, hr⟩ := h
    rw [Bracketed.pieces, toksOf_cons, if_neg, if_neg, ih hr, itemsOf]
    · cases t with
      | nil => exact absurd rfl hne
      | cons c t =>
        simp only [kindOf]
        cases kind [c] with
        | error e => rfl
        | ok k =>
          simp only [bind, Except.bind, pure, Except.pure]
          cases finish kind [c] k t with
          | error e => rfl
          | ok k => cases itemsOf kind r <;> rfl
    · rintro rfl
      exact (hs ')' (by simp)).2.1 rfl
    · rintro rfl
      exact (hs '(' (by simp)).1 rfl
  | group i r ihi ihr =>
    obtain ⟨_, hi, hr⟩ := h
    have ne : ¬([')'] : Str) = ['('] := by decide
    rw [Bracketed.pieces, toksOf_cons, if_pos rfl, toksOf_append, ihi hi, toksOf_cons, if_neg ne, if_pos rfl, ihr hr, itemsOf]
    cases itemsOf kind i with
    | error e => rfl
    | ok i =>
      cases itemsOf kind r with
      | error e => rfl
      | ok r => simp [Except.map, bind, Except.bind, pure, Except.pure, Items.write]

variable [HashOrder]

/-- What is read for the expressions between brackets. -/
def grouped (n : Nat) : List Syn → CM Syn
  | [l, r] => Parser.astFromPair n l r
  | ts => Parser.astFromList n ts.length ts

/-- The expressions read for a list of items. -/
def readItems (n : Nat) : Items → CM (List Syn)
  | .nil => pure []
  | .sym t k r => do
    let x ← Parser.astFromNested n (NST.fromConceptKind k t)
    let rs ← readItems n r
    return x :: rs
  | .group i r => do
    let x ← readItems n i >>= grouped n
    let rs ← readItems n r
    return x :: rs

theorem grouped_one (n : Nat) (x : Syn) : grouped n [x] = pure x := by
  simp [grouped, Parser.astFromList, Parser.astFromListWith]

theorem astsFromNested_append (n : Nat) (a b : List NST) : Parser.astsFromNested n (a ++ b) = (do
    let x ← Parser.astsFromNested n a
    let y ← Parser.astsFromNested n b
    return x ++ y) := by
  induction a with
  | nil => simp [Parser.astsFromNested]
  | cons c a ih => simp [Parser.astsFromNested, ih]

theorem syntaxList_children (n : Nat) (t : NST) : Parser.syntaxList n t = Parser.astsFromNested n (childrenOf t) := by
  cases t with
  | leaf l s c => simp [Parser.syntaxList, childrenOf, Parser.astsFromNested, Parser.astFromNested]
  | parent cs s c => rfl

theorem astFromNested_grouped (n : Nat) (t : NST) : Parser.astFromNested n t = Parser.syntaxList n t >>= grouped n := by
  cases t with
  | leaf l s c => simp [Parser.syntaxList, Parser.astFromNested, grouped_one]
  | parent cs s c =>
    rw [Parser.astFromNested, Parser.syntaxList]
    congr 1

theorem buildFrom_read (n : Nat) (x : Items) (hf : x.Full) : ∀ (cur : Option NST) (t : NST), buildFrom cur x = some t →
    Parser.astsFromNested n (childrenOf t) = (do
      let a ← (match cur with | none => pure [] | some c => Parser.astsFromNested n (childrenOf c))
      let b ← readItems n x
      return a ++ b) := by
  induction x with
  | nil =>
    intro cur t h
    cases cur with
    | none => cases h
    | some c => cases h; simp [readItems]
  | sym tx k r ih =>
    intro cur t h
    rw [ih hf _ t h]
    cases cur with
    | none =>
      simp only [addTo, readItems, childrenOf, NST.fromConceptKind, Parser.astsFromNested, bind_assoc, pure_bind,
        List.cons_append, List.nil_append]
    | some c =>
      simp only [addTo, readItems, childrenOf_append, astsFromNested_append, Parser.astsFromNested, bind_assoc, pure_bind,
        List.append_assoc, List.cons_append, List.nil_append]
  | group i r ihi ihr =>
    intro cur t h
    obtain ⟨hne, hi, hr⟩ := hf
    obtain ⟨t', ht'⟩ := buildFrom_some i none hi (Or.inr hne)
    simp only [buildFrom, ht'] at h
    have hin : Parser.astFromNested n t' = readItems n i >>= grouped n := by
      rw [astFromNested_grouped, syntaxList_children, ihi hi none t' ht']
      simp only [pure_bind, List.nil_append, bind_pure]
    have hn : Parser.astFromNested n t'.nest = readItems n i >>= grouped n := by
      rw [← hin, astFromNested_grouped, syntaxList_children]
      simp only [NST.nest, childrenOf, Parser.astsFromNested, bind_assoc, pure_bind, grouped_one, bind_pure]
    rw [ihr hr _ t h]
    cases cur with
    | none =>
      simp only [addTo, readItems, childrenOf, NST.nest, Parser.astsFromNested, bind_assoc, pure_bind, hin,
        List.cons_append, List.nil_append]
    | some c =>
      simp only [addTo, readItems, childrenOf_append, astsFromNested_append, Parser.astsFromNested, bind_assoc, pure_bind,
        List.append_assoc, List.cons_append, List.nil_append, hn]

/-- What the parser makes of items that are written out. -/
theorem parse_items (n : Nat) {x : Items} (hf : x.Full) (hne : x ≠ .nil) :
    (do
      let t ← ofR (nest (x.write.map unlex))
      let ts ← Parser.syntaxList n t
      Parser.astFromList n ts.length ts) = (do
      let ts ← readItems n x
      Parser.astFromList n ts.length ts) := by
  have toks_unlex : ∀ ts : List Tok, toks (ts.map unlex) = ts := fun ts => by
    induction ts with
    | nil => rfl
    | cons t ts ih => cases t <;> simp [unlex, toks, ih]
  have h := nest_outcome (x.write.map unlex)
  rw [toks_unlex] at h
  cases hx : nest (x.write.map unlex) with
  | error e =>
    rw [hx] at h
    have hv : Viable x.write 0 := ⟨tokDepth_write x 0, noEmptyGroup_write x hf⟩
    rcases h with ⟨p, r, e1, hr⟩ | ⟨_, d, hd, hv'⟩ | ⟨_, e1⟩
    · rw [e1, show p ++ .closing :: r = p ++ .closing :: r from rfl] at hv
      exact absurd hv (rejects_not_viable hr 0)
    · exact absurd (viable_depth_unique hv' hv) hd
    · exact absurd ((Items.write_eq_nil x).1 e1) hne
  | ok t =>
    rw [hx] at h
    obtain ⟨y, _, _, e1, _, hb⟩ := h
    cases write_injective _ _ e1
    have e : Parser.syntaxList n t = readItems n x := by
      rw [syntaxList_children, buildFrom_read n x hf none t hb]
      simp only [pure_bind, List.nil_append, bind_pure]
    show ((pure t : CM NST) >>= _) = _
    rw [pure_bind, e]

/-- Two lists of items are read in the same way. -/
structure ReadAlike (x y : Items) : Prop where
  full : x.Full ↔ y.Full
  empty : x = .nil ↔ y = .nil
  read : ∀ n, readItems n x = readItems n y

theorem itemsOf_same (kind : Str → Except Fault Kind) {x y : Bracketed} (h : SameWithin x y) :
    (∃ f, itemsOf kind x = .error f ∧ itemsOf kind y = .error f) ∨
    ∃ a b, itemsOf kind x = .ok a ∧ itemsOf kind y = .ok b ∧ ReadAlike a b := by
  induction h with
  | refl x =>
    cases hx : itemsOf kind x with
    | error f => exact .inl ⟨f, rfl, rfl⟩
    | ok a => exact .inr ⟨a, a, rfl, rfl, Iff.rfl, Iff.rfl, fun _ => rfl⟩
  | symm _ ih =>
    rcases ih with ⟨f, h1, h2⟩ | ⟨a, b, h1, h2, r⟩
    · exact .inl ⟨f, h2, h1⟩
    · exact .inr ⟨b, a, h2, h1, r.full.symm, r.empty.symm, fun n => (r.read n).symm⟩
  | trans _ _ ih ih' =>
    rcases ih with ⟨f, h1, h2⟩ | ⟨a, b, h1, h2, r⟩
    · rcases ih' with ⟨f', h3, h4⟩ | ⟨a, b, h3, h4, r⟩
      · rw [h2] at h3; cases h3
        exact .inl ⟨f, h1, h4⟩
      · rw [h2] at h3; cases h3
    · rcases ih' with ⟨f', h3, h4⟩ | ⟨a', b', h3, h4, r'⟩
      · rw [h2] at h3; cases h3
      · rw [h2] at h3; cases h3
        exact .inr ⟨a, b', h1, h4, r.full.trans r'.full, r.empty.trans r'.empty, fun n => (r.read n).trans (r'.read n)⟩
  | word t r =>
    simp only [itemsOf]
    cases kindOf kind t with
    | error f => exact .inl ⟨f, rfl, rfl⟩
    | ok k =>
      cases itemsOf kind r with
      | error f => exact .inl ⟨f, rfl, rfl⟩
      | ok b =>
        refine .inr ⟨_, _, rfl, rfl, ?_, ?_, fun n => ?_⟩
        · simp [Items.Full]
        · simp
        · simp only [readItems, bind_assoc, pure_bind, grouped_one]
  | double i r =>
    simp only [itemsOf]
    cases itemsOf kind i with
    | error f => exact .inl ⟨f, rfl, rfl⟩
    | ok a =>
      cases itemsOf kind r with
      | error f => exact .inl ⟨f, rfl, rfl⟩
      | ok b =>
        refine .inr ⟨_, _, rfl, rfl, ?_, ?_, fun n => ?_⟩
        · simp [Items.Full, and_assoc]
        · simp
        · simp only [readItems, bind_assoc, pure_bind, grouped_one]
  | sym t _ ih =>
    simp only [itemsOf]
    cases kindOf kind t with
    | error f => exact .inl ⟨f, rfl, rfl⟩
    | ok k =>
      rcases ih with ⟨f, h1, h2⟩ | ⟨a, b, h1, h2, r⟩
      · rw [h1, h2]; exact .inl ⟨f, rfl, rfl⟩
      · rw [h1, h2]
        exact .inr ⟨_, _, rfl, rfl, r.full, by simp, fun n => by simp only [readItems, r.read n]⟩
  | group _ _ ih ih' =>
    simp only [itemsOf]
    rcases ih with ⟨f, h1, h2⟩ | ⟨a, b, h1, h2, r⟩
    · rw [h1, h2]; exact .inl ⟨f, rfl, rfl⟩
    · rw [h1, h2]
      rcases ih' with ⟨f, h1, h2⟩ | ⟨a', b', h1, h2, r'⟩
      · rw [h1, h2]; exact .inl ⟨f, rfl, rfl⟩
      · rw [h1, h2]
        exact .inr ⟨_, _, rfl, rfl, by simp [Items.Full, r.full, r'.full, r.empty], by simp,
          fun n => by simp only [readItems, r.read n, r'.read n]⟩

theorem Spec.SameWithin.good {x y : Bracketed} (h : SameWithin x y) : (x.Good ↔ y.Good) ∧ (x = .nil ↔ y = .nil) := by
  induction h with
  | refl x => exact ⟨Iff.rfl, Iff.rfl⟩
  | symm _ ih => exact ⟨ih.1.symm, ih.2.symm⟩
  | trans _ _ ih ih' => exact ⟨ih.1.trans ih'.1, ih.2.trans ih'.2⟩
  | word t r => simp [Bracketed.Good]
  | double i r => simp [Bracketed.Good, and_assoc]
  | sym t _ ih => simp [Bracketed.Good, ih.1]
  | group _ _ ih ih' => simp [Bracketed.Good, ih.1, ih'.1, ih.2]

theorem itemsOf_full (kind : Str → Except Fault Kind) {x : Bracketed} (h : x.Good) {a : Items} (ha : itemsOf kind x = .ok a) :
    a.Full ∧ (a = .nil ↔ x = .nil) := by
  induction x generalizing a with
  | nil => cases ha; exact ⟨trivial, by simp⟩
  | sym t r ih =>
    simp only [itemsOf, Except.bind_eq_ok] at ha
    obtain ⟨k, _, b, hb, e⟩ := ha
    cases e
    exact ⟨(ih h.2 hb).1, by simp⟩
  | group i r ihi ihr =>
    simp only [itemsOf, Except.bind_eq_ok] at ha
    obtain ⟨b, hb, d, hd, e⟩ := ha
    cases e
    exact ⟨⟨fun e => h.1 ((ihi h.2.1 hb).2.1 e), (ihi h.2.1 hb).1, (ihr h.2.2 hd).1⟩, by simp⟩

theorem reading_bind_congr {α β γ : Type} {f : View → Except Fault α} {f' : View → Except Fault β} {F : α → CM γ}
    {F' : β → CM γ} (h : ∀ v, (∃ e, f v = .error e ∧ f' v = .error e) ∨ ∃ a b, f v = .ok a ∧ f' v = .ok b ∧ F a = F' b) :
    (reading f >>= F) = (reading f' >>= F') := by
  funext c
  show (_ : Except Fault _) = _
  rcases h ⟨c.snap, c.delta⟩ with ⟨e, h1, h2⟩ | ⟨a, b, h1, h2, h3⟩ <;>
    simp only [reading, view, ofE, bind, ExceptT.bind, ExceptT.mk, StateT.bind, ExceptT.bindCont, get, getThe,
      MonadStateOf.get, liftM, monadLift, MonadLift.monadLift, ExceptT.lift, StateT.get, pure, StateT.pure, ExceptT.pure,
      Except.bind, Except.pure, Functor.map, StateT.map, Except.map, h1, h2]
  rw [h3]

/-- Texts that differ in redundant brackets are read in the same way. -/
theorem astFromExpression_same (n : Nat) {s s' : Str} {x y : Bracketed} (hx : x.Good) (h : SameWithin x y)
    (es : pieces s = x.pieces) (es' : pieces s' = y.pieces) :
    Parser.astFromExpression n s = Parser.astFromExpression n s' := by
  have hy := h.good.1.1 hx
  rw [astFromExpression_pieces, astFromExpression_pieces, es, es']
  refine reading_bind_congr fun v => ?_
  rw [toksOf_parts _ hx, toksOf_parts _ hy]
  rcases itemsOf_same (Parser.conceptKind v n) h with ⟨f, h1, h2⟩ | ⟨a, b, h1, h2, r⟩
  · rw [h1, h2]
    exact .inl ⟨f, rfl, rfl⟩
  · rw [h1, h2]
    refine .inr ⟨_, _, rfl, rfl, ?_⟩
    by_cases ha : a = .nil
    · have hb := r.empty.1 ha
      subst ha hb
      rfl
    · rw [parse_items n (itemsOf_full _ hx h1).1 ha,
        parse_items n (itemsOf_full _ hy h2).1 (fun e => ha (r.empty.2 e)), r.read n]

end Zia

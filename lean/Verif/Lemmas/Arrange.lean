import Mathlib.Data.List.Perm.Basic
import Verif.Lemmas.Talk

/-!
# Sessions about words in which commands are moved, added or left out
-/

namespace Zia.Spec
open Relation

theorem without_congr {L L' : Facts} (e : ∀ p, p ∈ L ↔ p ∈ L') (x : Str) : ∀ p, p ∈ L.without x ↔ p ∈ L'.without x :=
  fun p => by simp only [Facts.without, List.mem_filter, e p]

theorem Facts.Sound.congr {L L' : Facts} (e : ∀ p, p ∈ L ↔ p ∈ L') (h : L.Sound) : L'.Sound := by
  have er : (fun a b => (a, b) ∈ L') = fun a b => (a, b) ∈ L := by funext a b; exact propext (e (a, b)).symm
  exact ⟨fun x y z h1 h2 => h.once x y z ((e _).2 h1) ((e _).2 h2), fun x hx => h.acyclic x (er ▸ hx)⟩

theorem Verdict.congr {L L' : Facts} (e : ∀ p, p ∈ L ↔ p ∈ L') {x y t : Str} (h : Verdict L x y t) : Verdict L' x y t := by
  have er : (fun a b => (a, b) ∈ L) = fun a b => (a, b) ∈ L' := by funext a b; exact propext (e (a, b))
  induction h with
  | same => exact .same
  | leads ne p => exact .leads ne (er ▸ p)
  | reverse ne p => exact .reverse ne (er ▸ p)
  | stuck ne hx hy => exact .stuck ne (fun z hz => hx z ((e _).2 hz)) fun z hz => hy z ((e _).2 hz)
  | moved ne p q m hx hy _ ih =>
    have step : ∀ {a b}, OneStep L a b → OneStep L' a b := fun h =>
      h.imp (e _).1 fun h => ⟨h.1, fun z hz => h.2 z ((e _).2 hz)⟩
    exact .moved ne (fun hp => p (er ▸ hp)) (fun hp => q (er ▸ hp))
      (m.imp fun z hz => hz.imp (e _).1 (e _).1) (step hx) (step hy) ih

/-- The answers depend on which pairs there are, not on their order. -/
theorem Talk.congr {L L' : Facts} (e : ∀ p, p ∈ L ↔ p ∈ L') {said : List Say} {outs : List Str} (h : Talk L said outs) :
    Talk L' said outs := by
  have re : ∀ {L L' : Facts}, (∀ p, p ∈ L ↔ p ∈ L') → (fun a b => (a, b) ∈ L) = fun a b => (a, b) ∈ L' := fun e => by
    funext a b; exact propext (e (a, b))
  have ends : ∀ {L L' : Facts} {x t}, (∀ p, p ∈ L ↔ p ∈ L') → EndsIn L x t → EndsIn L' x t := fun e h =>
    ⟨re e ▸ h.1, fun z hz => h.2 z ((e _).2 hz)⟩
  induction h generalizing L' with
  | nil => exact .nil
  | tell ha _ ih =>
    refine .tell ⟨ha.1, fun z hz => ha.2.1 z ((e _).2 hz), re e ▸ ha.2.2⟩ (ih fun p => ?_)
    rw [List.mem_cons, List.mem_cons, e p]
  | existing hne hz _ ih => exact .existing hne ((e _).1 hz) (ih e)
  | cyclic hne no hc _ ih => exact .cyclic hne (fun z hz => no z ((e _).2 hz)) (re e ▸ hc) (ih e)
  | itself hz _ ih => exact .itself ((e _).1 hz) (ih (without_congr e _))
  | idle no _ ih => exact .idle (fun z hz => no z ((e _).2 hz)) (ih e)
  | forget hz _ ih => exact .forget ((e _).1 hz) (ih (without_congr e _))
  | nothing no _ ih => exact .nothing (fun z hz => no z ((e _).2 hz)) (ih e)
  | ask ht _ ih => exact .ask (ends e ht) (ih e)
  | wonder ht _ ih => exact .wonder (ht.congr e) (ih e)
  | pair hx hy _ ih => exact .pair (ends e hx) (ends e hy) (ih e)
  | name _ ih => exact .name (ih e)
  | arrow hz ht _ ih => exact .arrow ((e _).1 hz) (ends e ht) (ih e)
  | arrowIdle no _ ih => exact .arrowIdle (fun z hz => no z ((e _).2 hz)) (ih e)

/-- The answers to one command and to what comes after it. -/
theorem Talk.uncons {L : Facts} {s : Say} {rest : List Say} {outs : List Str} (h : Talk L (s :: rest) outs) :
    ∃ a o, outs = a :: o ∧ Talk L [s] [a] ∧ Talk (L.after s) rest o := by
  obtain ⟨o1, o2, rfl, l, t⟩ := Talk.split (said := [s]) h
  match o1, l with
  | [a], _ =>
    refine ⟨a, o2, rfl, ?_, t⟩
    have h : Talk L (s :: rest) (a :: o2) := h
    cases h with
    | tell ha _ => exact .tell ha .nil
    | existing hne hz _ => exact .existing hne hz .nil
    | cyclic hne no hc _ => exact .cyclic hne no hc .nil
    | itself hz _ => exact .itself hz .nil
    | idle no _ => exact .idle no .nil
    | forget hz _ => exact .forget hz .nil
    | nothing no _ => exact .nothing no .nil
    | ask hz _ => exact .ask hz .nil
    | wonder hz _ => exact .wonder hz .nil
    | pair hx hy _ => exact .pair hx hy .nil
    | name _ => exact .name .nil
    | arrow hz ht _ => exact .arrow hz ht .nil
    | arrowIdle no _ => exact .arrowIdle no .nil

/-- The answers to one command before those to others. -/
theorem Talk.cons {L : Facts} {s : Say} {rest : List Say} {a : Str} {o : List Str} (h : Talk L [s] [a])
    (t : Talk (L.after s) rest o) : Talk L (s :: rest) (a :: o) := by
  cases h with
  | tell ha _ => rw [Facts.after, if_pos ha] at t; exact .tell ha t
  | existing hne hz _ => rw [Facts.after, if_neg (fun ha => ha.2.1 _ hz), if_neg hne] at t; exact .existing hne hz t
  | cyclic hne no hc _ => rw [Facts.after, if_neg (fun ha => ha.2.2 hc), if_neg hne] at t; exact .cyclic hne no hc t
  | itself hz _ => rw [Facts.after, if_neg (fun ha => ha.1 rfl), if_pos rfl] at t; exact .itself hz t
  | idle no _ =>
    rw [Facts.after, if_neg (fun ha => ha.1 rfl), if_pos rfl, Facts.without_same no] at t
    exact .idle no t
  | forget hz _ => exact .forget hz t
  | nothing no _ => rw [Facts.after, Facts.without_same no] at t; exact .nothing no t
  | ask hz _ => exact .ask hz t
  | wonder hz _ => exact .wonder hz t
  | pair hx hy _ => exact .pair hx hy t
  | name _ => exact .name t
  | arrow hz ht _ => exact .arrow hz ht t
  | arrowIdle no _ => exact .arrowIdle no t

theorem alreadyReduces_ne (x z : Str) : alreadyReduces x z ≠ [] := by simp [alreadyReduces]
theorem nothingToForget_ne (x : Str) : nothingToForget x ≠ [] := by simp [nothingToForget]
theorem wouldLoop_ne : wouldLoop ≠ [] := by decide

/-- The answers of a session are those of its parts. -/
theorem Talk.splitBoth {L : Facts} {said rest : List Say} {outs : List Str} (h : Talk L (said ++ rest) outs) :
    ∃ o1 o2, outs = o1 ++ o2 ∧ o1.length = said.length ∧ Talk L said o1 ∧ Talk (said.foldl Facts.after L) rest o2 := by
  induction said generalizing L outs with
  | nil => exact ⟨[], outs, rfl, rfl, .nil, h⟩
  | cons s said ih =>
    obtain ⟨a, o, rfl, t1, t2⟩ := Talk.uncons h
    obtain ⟨o1, o2, rfl, l, t3, t4⟩ := ih t2
    exact ⟨a :: o1, o2, rfl, by simp [l], t1.cons t3, t4⟩

/-- Telling that is answered with nothing was allowed. -/
theorem Talk.accepted {L : Facts} {x y : Str} (hne : x ≠ y) (h : Talk L [.tell x y] [[]]) : Allowed L x y := by
  generalize ho : [[]] = outs at h
  cases h with
  | tell ha _ => exact ha
  | existing => exact absurd (List.cons.inj ho).1.symm (alreadyReduces_ne _ _)
  | cyclic => exact absurd (List.cons.inj ho).1.symm wouldLoop_ne
  | itself => exact absurd rfl hne
  | idle => exact absurd rfl hne

/-- A question, or a command that is rejected, leaves what was told as it is. -/
theorem Talk.traceless {L : Facts} {s : Say} {a : Str} (h : Talk L [s] [a]) (ha : s.Question ∨ a ≠ []) : L.after s = L := by
  cases h with
  | tell => exact ha.elim (fun h => h.elim) fun h => absurd rfl h
  | existing hne hz _ => rw [Facts.after, if_neg (fun ha => ha.2.1 _ hz), if_neg hne]
  | cyclic hne no hc _ => rw [Facts.after, if_neg (fun ha => ha.2.2 hc), if_neg hne]
  | itself => exact ha.elim (fun h => h.elim) fun h => absurd rfl h
  | idle no _ => rw [Facts.after, if_neg (fun ha => ha.1 rfl), if_pos rfl, Facts.without_same no]
  | forget => exact ha.elim (fun h => h.elim) fun h => absurd rfl h
  | nothing no _ => rw [Facts.after, Facts.without_same no]
  | ask => rfl
  | wonder => rfl
  | pair => rfl
  | name => rfl
  | arrow => rfl
  | arrowIdle => rfl

/-- What was told and accepted. -/
theorem Talk.allTold {L : Facts} (hL : L.Sound) (hk : (L.map Prod.fst).Nodup) {P : List (Str × Str)}
    (hne : ∀ p ∈ P, p.1 ≠ p.2) {more : List Say} {outs : List Str} (h : Talk L (P.map (fun p => Say.tell p.1 p.2) ++ more) outs)
    (ha : ∀ o ∈ outs.take P.length, o = []) :
    ∃ o, outs = List.replicate P.length [] ++ o ∧ Talk (P.reverse ++ L) more o ∧ Facts.Sound (P.reverse ++ L) ∧
      ((P.reverse ++ L).map Prod.fst).Nodup := by
  induction P generalizing L outs with
  | nil => exact ⟨outs, rfl, h, hL, hk⟩
  | cons p P ih =>
    obtain ⟨x, y⟩ := p
    obtain ⟨a, o, rfl, t1, t2⟩ := Talk.uncons h
    cases ha a (by simp)
    have al := t1.accepted (hne _ (List.mem_cons_self ..))
    rw [Facts.after, if_pos al] at t2
    have hk' : (((x, y) :: L).map Prod.fst).Nodup := by
      rw [List.map_cons, List.nodup_cons]
      refine ⟨fun hm => ?_, hk⟩
      obtain ⟨⟨_, z⟩, hz, rfl⟩ := List.mem_map.1 hm
      exact al.2.1 z hz
    obtain ⟨o, rfl, t, s, k⟩ := ih (hL.cons al) hk' (fun p hp => hne p (List.mem_cons_of_mem _ hp)) t2
      fun o ho => ha o (List.mem_cons_of_mem _ ho)
    have e : ((x, y) :: P).reverse ++ L = P.reverse ++ (x, y) :: L := by simp
    rw [e]
    exact ⟨o, rfl, t, s, k⟩

/-- Pairs that do not contradict each other are accepted in any order. -/
theorem Talk.tellAll {L : Facts} {P : List (Str × Str)} (hs : Facts.Sound (P.reverse ++ L))
    (hk : ((P.reverse ++ L).map Prod.fst).Nodup) {more : List Say} {o : List Str} (h : Talk (P.reverse ++ L) more o) :
    Talk L (P.map (fun p => Say.tell p.1 p.2) ++ more) (List.replicate P.length [] ++ o) := by
  induction P generalizing L with
  | nil => exact h
  | cons p P ih =>
    obtain ⟨x, y⟩ := p
    have e : ((x, y) :: P).reverse ++ L = P.reverse ++ (x, y) :: L := by simp
    rw [e] at hs hk h
    have mono : ∀ {a b}, TransGen (fun a b => (a, b) ∈ L) a b →
        TransGen (fun a b => (a, b) ∈ P.reverse ++ (x, y) :: L) a b := fun ht =>
      TransGen.mono (fun _ _ hm => List.mem_append_right _ (List.mem_cons_of_mem _ hm)) _ _ ht
    have own : (x, y) ∈ P.reverse ++ (x, y) :: L := List.mem_append_right _ (List.mem_cons_self ..)
    refine .tell ⟨?_, fun z hz => ?_, fun hc => hs.acyclic y ((mono hc).tail own)⟩ (ih hs hk h)
    · intro (e : x = y)
      subst e
      exact hs.acyclic x (.single own)
    · rw [List.map_append, List.nodup_append] at hk
      have := hk.2.1
      rw [List.map_cons, List.nodup_cons] at this
      exact this.1 (List.mem_map.2 ⟨_, hz, rfl⟩)

theorem Heard.mono {K K' : List Str} (hs : ∀ x ∈ K, x ∈ K') {said : List Say} (h : Heard K said) : Heard K' said := by
  induction said generalizing K K' with
  | nil => trivial
  | cons s said ih =>
    refine ⟨fun x y e => ⟨hs _ (h.1 x y e).1, hs _ (h.1 x y e).2⟩, ih (fun x hx => ?_) h.2⟩
    rcases List.mem_append.1 hx with hx | hx
    · exact List.mem_append_left _ hx
    · exact List.mem_append_right _ (hs x hx)

theorem Heard.tells {K : List Str} {P : List (Str × Str)} {more : List Say} :
    Heard K (P.map (fun p => Say.tell p.1 p.2) ++ more) ↔ Heard (P.reverse.flatMap (fun p => [p.1, p.2]) ++ K) more := by
  induction P generalizing K with
  | nil => exact Iff.rfl
  | cons p P ih =>
    simp only [List.map_cons, List.cons_append, Heard, ih, List.reverse_cons, List.flatMap_append, List.flatMap_cons,
      List.flatMap_nil, List.append_nil, List.append_assoc, Say.words]
    exact ⟨fun h => h.2, fun h => ⟨fun x y e => (by rcases e with e | e <;> cases e), h⟩⟩

theorem Heard.perm {P P' : List (Str × Str)} (hp : P.Perm P') {more : List Say}
    (h : Heard [] (P.map (fun p => Say.tell p.1 p.2) ++ more)) : Heard [] (P'.map (fun p => Say.tell p.1 p.2) ++ more) := by
  rw [Heard.tells] at h ⊢
  refine h.mono fun x hx => ?_
  simp only [List.append_nil, List.mem_flatMap, List.mem_reverse] at hx ⊢
  obtain ⟨p, hm, hx⟩ := hx
  exact ⟨p, hp.mem_iff.1 hm, hx⟩

end Zia.Spec

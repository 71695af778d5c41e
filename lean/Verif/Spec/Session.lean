import Mathlib.Data.List.Forall2
import Verif.Context
import Verif.Spec.Query

/-!
# Specifications about sessions

A session about words, as somebody who does not know the store would describe it: what was told is a list of
pairs of words, and the answer to a question is found by following the pairs.
-/

namespace Zia.Spec

/-- A command of a session about words. -/
inductive Say
  | /-- `let (x (-> y))` -/ tell (x y : Str)
  | /-- `forget x` -/ forget (x : Str)
  | /-- `x` -/ ask (x : Str)
  | /-- `x (-> y)` -/ wonder (x y : Str)
  | /-- `x y` -/ pair (x y : Str)
  | /-- `label_of x` -/ name (x : Str)
  | /-- `x ->` -/ arrow (x : Str)

/-- The text of a command. -/
def Say.text : Say → Str
  | .tell x y => str% "let (" ++ x ++ str% " (-> " ++ y ++ str% "))"
  | .forget x => str% "forget " ++ x
  | .ask x => x
  | .wonder x y => x ++ str% " (-> " ++ y ++ str% ")"
  | .pair x y => x ++ str% " " ++ y
  | .name x => str% "label_of " ++ x
  | .arrow x => x ++ str% " ->"

/-- A way to write a command. The inner brackets of `let (x (-> y))` and the brackets of `x (-> y)` may be left out. -/
inductive Say.Written : Say → Str → Prop
  | full (s : Say) : Written s s.text
  | tell (x y : Str) : Written (.tell x y) (str% "let (" ++ x ++ str% " -> " ++ y ++ str% ")")
  | wonder (x y : Str) : Written (.wonder x y) (x ++ str% " -> " ++ y)

/-- A way to write the commands of a session. -/
abbrev Written : List Say → List Str → Prop := List.Forall₂ Say.Written

/-- The words of a command. -/
def Say.words : Say → List Str
  | .tell x y => [x, y]
  | .forget x => [x]
  | .ask x => [x]
  | .wonder x y => [x, y]
  | .pair x y => [x, y]
  | .name x => [x]
  | .arrow x => [x]

/-- The commands that only ask. -/
def Say.Question : Say → Prop
  | .tell _ _ => False
  | .forget _ => False
  | .ask _ => True
  | .wonder _ _ => True
  | .pair _ _ => True
  | .name _ => True
  | .arrow _ => True

/-- The words of the questions `x (-> y)` and `x y` are among the words `K` or were mentioned by earlier commands. -/
def Heard : List Str → List Say → Prop
  | _, [] => True
  | K, s :: rest => (∀ x y, s = .wonder x y ∨ s = .pair x y → x ∈ K ∧ y ∈ K) ∧
    Heard (s.words ++ K) rest

/-- What was told and not forgotten: a pair `(x, y)` for every `let (x (-> y))`. -/
abbrev Facts := List (Str × Str)

/-- What is left when the pair of `x` is forgotten. -/
def Facts.without (L : Facts) (x : Str) : Facts := L.filter (fun p => p.1 ≠ x)

/-- From the word `x` one comes to `t`, and not further. -/
def EndsIn (L : Facts) (x t : Str) : Prop :=
  Relation.ReflTransGen (fun a b => (a, b) ∈ L) x t ∧ ∀ z, (t, z) ∉ L

/-- It may be told that `x` reduces to `y`: they are different, there is no pair for `x`, and one does not come to `x`
from `y`. -/
def Allowed (L : Facts) (x y : Str) : Prop :=
  x ≠ y ∧ (∀ z, (x, z) ∉ L) ∧ ¬Relation.TransGen (fun a b => (a, b) ∈ L) y x

open Classical in
/-- What is told and not forgotten after a command. -/
noncomputable def Facts.after (L : Facts) : Say → Facts
  | .tell x y => if Allowed L x y then (x, y) :: L else if x = y then L.without x else L
  | .forget x => L.without x
  | .ask _ => L
  | .wonder _ _ => L
  | .pair _ _ => L
  | .name _ => L
  | .arrow _ => L

/-- The word after one step, if there is a pair for `x`. -/
def OneStep (L : Facts) (x x' : Str) : Prop := (x, x') ∈ L ∨ x' = x ∧ ∀ z, (x, z) ∉ L

/-- The answer to the question `x (-> y)`: `true` if one comes from `x` to `y`, `false` if one comes from `y` to `x` or
they are the same. Otherwise the answer is the one to the question about the next words of both, and if there are none,
the question itself. -/
inductive Verdict (L : Facts) : Str → Str → Str → Prop
  | same {x : Str} : Verdict L x x (str% "false")
  | leads {x y : Str} (ne : x ≠ y) (p : Relation.TransGen (fun a b => (a, b) ∈ L) x y) : Verdict L x y (str% "true")
  | reverse {x y : Str} (ne : x ≠ y) (p : Relation.TransGen (fun a b => (a, b) ∈ L) y x) : Verdict L x y (str% "false")
  | stuck {x y : Str} (ne : x ≠ y) (hx : ∀ z, (x, z) ∉ L) (hy : ∀ z, (y, z) ∉ L) :
      Verdict L x y (x ++ str% " -> " ++ y)
  | moved {x y x' y' out : Str} (ne : x ≠ y) (p : ¬Relation.TransGen (fun a b => (a, b) ∈ L) x y)
      (q : ¬Relation.TransGen (fun a b => (a, b) ∈ L) y x) (m : ∃ z, (x, z) ∈ L ∨ (y, z) ∈ L) (hx : OneStep L x x')
      (hy : OneStep L y y') (h : Verdict L x' y' out) : Verdict L x y out

/-- The answer to `forget x` if there is nothing to forget. -/
def nothingToForget (x : Str) : Str := str% "That reduction rule for " ++ x ++ str% " already exists."

/-- The answer to `let (x (-> y))` if there is a pair `(x, z)`. -/
def alreadyReduces (x z : Str) : Str := x ++ str% " already reduces to " ++ z

/-- The answer to `let (x (-> y))` if one comes to `x` from `y`. -/
def wouldLoop : Str := str% "Cannot allow a chain of reduction rules to loop."

/-- The answer to `label_of x`. -/
def quoted (x : Str) : Str := str% "'" ++ x ++ str% "'"

/-- The answers of a session. To tell that a word reduces to itself is to forget its pair. -/
inductive Talk : Facts → List Say → List Str → Prop
  | nil {L : Facts} : Talk L [] []
  | tell {L : Facts} {x y : Str} {rest : List Say} {outs : List Str} (h : Allowed L x y)
      (t : Talk ((x, y) :: L) rest outs) : Talk L (.tell x y :: rest) ([] :: outs)
  | existing {L : Facts} {x y z : Str} {rest : List Say} {outs : List Str} (hne : x ≠ y) (h : (x, z) ∈ L)
      (t : Talk L rest outs) : Talk L (.tell x y :: rest) (alreadyReduces x z :: outs)
  | cyclic {L : Facts} {x y : Str} {rest : List Say} {outs : List Str} (hne : x ≠ y) (no : ∀ z, (x, z) ∉ L)
      (h : Relation.TransGen (fun a b => (a, b) ∈ L) y x)
      (t : Talk L rest outs) : Talk L (.tell x y :: rest) (wouldLoop :: outs)
  | itself {L : Facts} {x z : Str} {rest : List Say} {outs : List Str} (h : (x, z) ∈ L)
      (t : Talk (L.without x) rest outs) : Talk L (.tell x x :: rest) ([] :: outs)
  | idle {L : Facts} {x : Str} {rest : List Say} {outs : List Str} (h : ∀ z, (x, z) ∉ L)
      (t : Talk L rest outs) : Talk L (.tell x x :: rest) (nothingToForget x :: outs)
  | forget {L : Facts} {x z : Str} {rest : List Say} {outs : List Str} (h : (x, z) ∈ L)
      (t : Talk (L.without x) rest outs) : Talk L (.forget x :: rest) ([] :: outs)
  | nothing {L : Facts} {x : Str} {rest : List Say} {outs : List Str} (h : ∀ z, (x, z) ∉ L)
      (t : Talk L rest outs) : Talk L (.forget x :: rest) (nothingToForget x :: outs)
  | ask {L : Facts} {x out : Str} {rest : List Say} {outs : List Str} (h : EndsIn L x out)
      (t : Talk L rest outs) : Talk L (.ask x :: rest) (out :: outs)
  | wonder {L : Facts} {x y out : Str} {rest : List Say} {outs : List Str} (h : Verdict L x y out)
      (t : Talk L rest outs) : Talk L (.wonder x y :: rest) (out :: outs)
  | pair {L : Facts} {x y a b : Str} {rest : List Say} {outs : List Str} (hx : EndsIn L x a) (hy : EndsIn L y b)
      (t : Talk L rest outs) : Talk L (.pair x y :: rest) ((a ++ str% " " ++ b) :: outs)
  | name {L : Facts} {x : Str} {rest : List Say} {outs : List Str} (t : Talk L rest outs) :
      Talk L (.name x :: rest) (quoted x :: outs)
  | arrow {L : Facts} {x z out : Str} {rest : List Say} {outs : List Str} (hz : (x, z) ∈ L) (h : EndsIn L x out)
      (t : Talk L rest outs) : Talk L (.arrow x :: rest) (out :: outs)
  | arrowIdle {L : Facts} {x : Str} {rest : List Say} {outs : List Str} (no : ∀ z, (x, z) ∉ L)
      (t : Talk L rest outs) : Talk L (.arrow x :: rest) ((x ++ str% " ->") :: outs)

/-- The commands `us` are entered one after the other and answered with `outs`, and after each of them the cache may be
emptied. -/
inductive Clearing [HashOrder] (n : Nat) : Ctx → List Str → List Str → Ctx → Prop
  | nil {c : Ctx} : Clearing n c [] [] c
  | cons {c c1 c2 c3 : Ctx} {u r : Str} {us rs : List Str} (h : Context.execute n c u = .ok (r, c1))
      (hc : c2 = c1 ∨ c2 = { c1 with cache := .empty }) (rest : Clearing n c2 us rs c3) :
      Clearing n c (u :: us) (r :: rs) c3

/-- The commands all of whose words are of the kind `A`. -/
def saidAbout (A : Str → Bool) (said : List Say) : List Say := said.filter (fun s => s.words.all A)

/-- The answers to these commands. -/
def answersAbout (A : Str → Bool) (said : List Say) (outs : List Str) : List Str :=
  ((said.zip outs).filter (fun p => p.1.words.all A)).map (·.2)

end Zia.Spec

import Verif.Spec.Nest

/-! # Helper lemmas about grouping -/

namespace Zia

open Zia.Spec

/-! ## Association lists -/

def lookupN {β} (m : List (Nat × β)) (k : Nat) : Option β := (m.find? (·.1 == k)).map (·.2)

@[simp] theorem lookupN_nil {β} (k : Nat) : lookupN ([] : List (Nat × β)) k = none := rfl

theorem lookupN_cons {β} (a : Nat) (b : β) (m : List (Nat × β)) (k : Nat) :
    lookupN ((a, b) :: m) k = if a = k then some b else lookupN m k := by
  unfold lookupN
  by_cases h : a = k <;> simp [h, List.find?_cons]

theorem lookupN_filter {β} (m : List (Nat × β)) (k k' : Nat) :
    lookupN (m.filter (·.1 != k)) k' = if k = k' then none else lookupN m k' := by
  induction m with
  | nil => simp
  | cons p m ih =>
    obtain ⟨a, b⟩ := p
    by_cases h : a = k
    · simp only [List.filter_cons, h]
      simp only [bne_self_eq_false, Bool.false_eq_true, if_false]
      rw [ih, lookupN_cons]
      by_cases h' : k = k' <;> simp [h']
    · simp only [List.filter_cons]
      have : (a != k) = true := by simp [h]
      simp only [this, if_true]
      rw [lookupN_cons, ih, lookupN_cons]
      by_cases h' : a = k'
      · subst h'
        have : ¬ k = a := fun e => h e.symm
        simp [this]
      · simp [h']

theorem mapRemove_fst {β} (m : List (Nat × β)) (k : Nat) : (mapRemove m k).1 = lookupN m k := rfl

theorem lookupN_mapRemove {β} (m : List (Nat × β)) (k k' : Nat) :
    lookupN (mapRemove m k).2 k' = if k = k' then none else lookupN m k' :=
  lookupN_filter m k k'

/-! ## Items -/

namespace Items

def app : Items → Items → Items
  | .nil, y => y
  | .sym t k r, y => .sym t k (app r y)
  | .group i r, y => .group i (app r y)

@[simp] theorem app_nil (x : Items) : app x .nil = x := by
  induction x with
  | nil => rfl
  | sym t k r ih => simp [app, ih]
  | group i r _ ih => simp [app, ih]

theorem app_ne_nil_right {x y : Items} (h : y ≠ .nil) : app x y ≠ .nil := by
  cases x <;> simp [app, h]

theorem write_app (x y : Items) : (app x y).write = x.write ++ y.write := by
  induction x with
  | nil => rfl
  | sym t k r ih => simp [app, Items.write, ih]
  | group i r _ ih => simp [app, Items.write, ih]

theorem full_app (x y : Items) : (app x y).Full ↔ x.Full ∧ y.Full := by
  induction x with
  | nil => simp [app, Items.Full]
  | sym t k r ih => simp [app, Items.Full, ih]
  | group i r _ ih => simp [app, Items.Full, ih, and_assoc]

theorem shapes_app (x y : Items) : (app x y).shapes = x.shapes ++ y.shapes := by
  induction x with
  | nil => rfl
  | sym t k r ih => simp [app, Items.shapes, ih]
  | group i r _ ih => simp [app, Items.shapes, ih]

theorem symbols_app (x y : Items) : (app x y).symbols = x.symbols ++ y.symbols := by
  induction x with
  | nil => rfl
  | sym t k r ih => simp [app, Items.symbols, ih]
  | group i r _ ih => simp [app, Items.symbols, ih]

theorem text_sym_cons (t k) (r : Items) (h : r ≠ .nil) :
    (Items.sym t k r).text = t ++ ' ' :: r.text := by
  cases r <;> simp [Items.text] at h ⊢

theorem text_group_cons (i r : Items) (h : r ≠ .nil) :
    (Items.group i r).text = '(' :: i.text ++ ')' :: ' ' :: r.text := by
  cases r <;> simp [Items.text] at h ⊢

theorem text_app (x y : Items) (hx : x ≠ .nil) (hy : y ≠ .nil) :
    (app x y).text = x.text ++ ' ' :: y.text := by
  induction x with
  | nil => exact absurd rfl hx
  | sym t k r ih =>
    simp only [app]
    rw [text_sym_cons _ _ _ (app_ne_nil_right hy)]
    by_cases hr : r = .nil
    · subst hr; simp [app, Items.text]
    · rw [ih hr, text_sym_cons _ _ _ hr]; simp
  | group i r _ ih =>
    simp only [app]
    rw [text_group_cons _ _ (app_ne_nil_right hy)]
    by_cases hr : r = .nil
    · subst hr; simp [app, Items.text]
    · rw [ih hr, text_group_cons _ _ hr]; simp

theorem write_eq_nil (x : Items) : x.write = [] ↔ x = .nil := by
  cases x <;> simp [Items.write]

theorem write_symbols (x : Items) : symbolsOf x.write = x.symbols := by
  have happ : ∀ a b, symbolsOf (a ++ b) = symbolsOf a ++ symbolsOf b := by
    intro a b
    induction a with
    | nil => rfl
    | cons t a ih => cases t <;> simp [symbolsOf, ih]
  induction x with
  | nil => rfl
  | sym t k r ih => simp [Items.write, symbolsOf, Items.symbols, ih]
  | group i r ihi ihr => simp [Items.write, symbolsOf, Items.symbols, happ, ihi, ihr]

end Items

theorem tokDepth_append (a b : List Tok) (d : Nat) :
    tokDepth d (a ++ b) = (tokDepth d a).bind (fun d' => tokDepth d' b) := by
  induction a generalizing d with
  | nil => simp [tokDepth]
  | cons x a ih => cases x <;> cases d <;> simp [tokDepth, ih]

theorem tokDepth_write (x : Items) (d : Nat) : tokDepth d x.write = some d := by
  induction x generalizing d with
  | nil => rfl
  | sym t k r ih => simp [Items.write, tokDepth, ih]
  | group i r ihi ihr =>
    simp [Items.write, tokDepth, tokDepth_append, ihi, ihr]

/-- What is written determines the items. -/
theorem write_injective (x y : Items) (h : x.write = y.write) : x = y := by
  -- generalised: two writings followed by nothing or by a closing parenthesis
  have key : ∀ (x y : Items) (a b : List Tok),
      (∀ t k r, a ≠ .sym t k :: r) → (∀ r, a ≠ .opening :: r) →
      (∀ t k r, b ≠ .sym t k :: r) → (∀ r, b ≠ .opening :: r) →
      x.write ++ a = y.write ++ b → x = y ∧ a = b := by
    intro x
    induction x with
    | nil =>
      intro y a b ha1 ha2 hb1 hb2 h
      cases y with
      | nil => exact ⟨rfl, by simpa [Items.write] using h⟩
      | sym t k r => exact absurd (by simpa [Items.write] using h) (ha1 t k (r.write ++ b))
      | group i r =>
        exact absurd (by simpa [Items.write] using h) (ha2 (i.write ++ .closing :: (r.write ++ b)))
    | sym t k r ih =>
      intro y a b ha1 ha2 hb1 hb2 h
      cases y with
      | nil => exact absurd (by simpa [Items.write] using h.symm) (hb1 t k (r.write ++ a))
      | sym t' k' r' =>
        simp only [Items.write, List.cons_append, List.cons.injEq, Tok.sym.injEq] at h
        obtain ⟨⟨rfl, rfl⟩, h⟩ := h
        obtain ⟨rfl, rfl⟩ := ih r' a b ha1 ha2 hb1 hb2 h
        exact ⟨rfl, rfl⟩
      | group i r' => simp [Items.write] at h
    | group i r ihi ihr =>
      intro y a b ha1 ha2 hb1 hb2 h
      cases y with
      | nil =>
        exact absurd (by simpa [Items.write] using h.symm)
          (hb2 (i.write ++ .closing :: (r.write ++ a)))
      | sym t' k' r' => simp [Items.write] at h
      | group i' r' =>
        simp only [Items.write, List.cons_append, List.append_assoc, List.cons.injEq,
          true_and] at h
        obtain ⟨rfl, h'⟩ := ihi i' (.closing :: (r.write ++ a)) (.closing :: (r'.write ++ b))
          (by simp) (by simp) (by simp) (by simp) h
        obtain ⟨rfl, rfl⟩ := ihr r' a b ha1 ha2 hb1 hb2 (List.cons.inj h').2
        exact ⟨rfl, rfl⟩
  exact (key x y [] [] (by simp) (by simp) (by simp) (by simp) (by simpa using h)).1

/-! ## Trees built from items -/

def addTo (cur : Option NST) (x : NST) : NST :=
  match cur with
  | none => x
  | some ns => ns.appendNode x

def buildFrom : Option NST → Items → Option NST
  | cur, .nil => cur
  | cur, .sym t k r => buildFrom (some (addTo cur (NST.fromConceptKind k t))) r
  | cur, .group i r =>
    match buildFrom none i with
    | none => none
    | some x => buildFrom (some (addTo cur x.nest)) r

theorem buildFrom_some (x : Items) (cur : Option NST) (hf : x.Full) (h : cur ≠ none ∨ x ≠ .nil) :
    ∃ t, buildFrom cur x = some t := by
  induction x generalizing cur with
  | nil =>
    cases cur with
    | none => simp at h
    | some t => exact ⟨t, rfl⟩
  | sym t k r ih => exact ih _ hf (Or.inl (by simp))
  | group i r ihi ihr =>
    obtain ⟨h1, h2, h3⟩ := hf
    obtain ⟨t, ht⟩ := ihi none h2 (Or.inr h1)
    simp only [buildFrom, ht]
    exact ihr _ h3 (Or.inl (by simp))

theorem buildFrom_app (x y : Items) (cur : Option NST) (hx : x.Full) :
    buildFrom cur (Items.app x y) = buildFrom (buildFrom cur x) y := by
  induction x generalizing cur with
  | nil => rfl
  | sym t k r ih => simp only [Items.app, buildFrom]; exact ih _ hx
  | group i r _ ihr =>
    simp only [Items.app, buildFrom]
    obtain ⟨h1, h2, h3⟩ := hx
    obtain ⟨t, ht⟩ := buildFrom_some i none h2 (Or.inr h1)
    simp only [ht]; exact ihr _ h3

theorem shapeOf_go_append (a b : List NST) :
    shapeOf.go (a ++ b) = shapeOf.go a ++ shapeOf.go b := by
  induction a with
  | nil => rfl
  | cons x a ih => simp [shapeOf.go, ih]

theorem leavesOf_go_append (a b : List NST) :
    leavesOf.go (a ++ b) = leavesOf.go a ++ leavesOf.go b := by
  induction a with
  | nil => rfl
  | cons x a ih => simp [leavesOf.go, ih]

/-- The children a tree would have after another node is appended, before it. -/
def childrenOf : NST → List NST
  | t@(.leaf ..) => [t]
  | .parent cs _ _ => cs

theorem shapeOf_eq_children (t : NST) (h : childrenOf t ≠ []) :
    shapeOf t = Shape.mk (shapeOf.go (childrenOf t)) := by
  cases t with
  | leaf l s c => rfl
  | parent cs s c => rfl

theorem childrenOf_append (t x : NST) : childrenOf (t.appendNode x) = childrenOf t ++ [x] := by
  cases t <;> rfl

theorem leavesOf_children (t : NST) : leavesOf t = leavesOf.go (childrenOf t) := by
  cases t <;> simp [leavesOf, leavesOf.go, childrenOf]

theorem shapeOf_nest (t : NST) : shapeOf t.nest = shapeOf t := rfl

theorem leavesOf_nest (t : NST) : leavesOf t.nest = leavesOf t := by
  simp [NST.nest, leavesOf, leavesOf.go]

theorem syn_nest (t : NST) : t.nest.syn = '(' :: t.syn ++ [')'] := rfl

theorem syn_appendNode (t x : NST) : (t.appendNode x).syn = t.syn ++ ' ' :: x.syn := by
  cases t <;> rfl

theorem Shape.mk_singleton (s : Shape) : Shape.mk [s] = s := rfl

/-- Meaning of `buildFrom`: shape, text and leaves are those of the items. -/
theorem buildFrom_spec (x : Items) (hf : x.Full) :
    ∀ (cur : Option NST) (t : NST), buildFrom cur x = some t →
    (cur = none ∨ ∃ c, cur = some c ∧ childrenOf c ≠ []) →
    childrenOf t ≠ [] ∧
    shapeOf.go (childrenOf t) =
      (match cur with | none => [] | some c => shapeOf.go (childrenOf c)) ++ x.shapes ∧
    leavesOf t = (match cur with | none => [] | some c => leavesOf c) ++ x.symbols ∧
    t.syn = (match cur with
      | none => x.text
      | some c => if x = .nil then c.syn else c.syn ++ ' ' :: x.text) := by
  induction x with
  | nil =>
    intro cur t h hc
    simp only [buildFrom] at h
    subst h
    rcases hc with hc | ⟨c, hc, hne⟩
    · cases hc
    · cases hc
      simp [hne, Items.shapes, Items.symbols]
  | sym tx k r ih =>
    intro cur t h hc
    simp only [buildFrom] at h
    have hne : childrenOf (addTo cur (NST.fromConceptKind k tx)) ≠ [] := by
      cases cur with
      | none => simp [addTo, NST.fromConceptKind, childrenOf]
      | some c => simp [addTo, childrenOf_append]
    obtain ⟨h1, h2, h3, h4⟩ := ih hf _ t h (Or.inr ⟨_, rfl, hne⟩)
    refine ⟨h1, ?_, ?_, ?_⟩
    · rw [h2]
      cases cur with
      | none => simp [addTo, NST.fromConceptKind, childrenOf, shapeOf.go, shapeOf, Items.shapes]
      | some c =>
        simp only [addTo, childrenOf_append, shapeOf_go_append, Items.shapes]
        simp [NST.fromConceptKind, shapeOf.go, shapeOf]
    · rw [h3]
      cases cur with
      | none => simp [addTo, NST.fromConceptKind, leavesOf, Items.symbols]
      | some c =>
        simp only [addTo, Items.symbols]
        rw [leavesOf_children (c.appendNode _), childrenOf_append, leavesOf_go_append,
          ← leavesOf_children]
        simp [NST.fromConceptKind, leavesOf, leavesOf.go]
    · rw [h4]
      cases cur with
      | none =>
        simp only [addTo]
        by_cases hr : r = .nil
        · subst hr; simp [NST.fromConceptKind, NST.syn, Items.text]
        · simp [hr, NST.fromConceptKind, NST.syn, Items.text_sym_cons _ _ _ hr]
      | some c =>
        simp only [addTo]
        by_cases hr : r = .nil
        · subst hr; simp [NST.fromConceptKind, NST.syn, Items.text, NST.appendNode]
        · simp [hr, NST.fromConceptKind, NST.syn, Items.text_sym_cons _ _ _ hr, NST.appendNode]
  | group i r ihi ihr =>
    intro cur t h hc
    obtain ⟨f1, f2, f3⟩ := hf
    obtain ⟨ti, hti⟩ := buildFrom_some i none f2 (Or.inr f1)
    simp only [buildFrom, hti] at h
    obtain ⟨i1, i2, i3, i4⟩ := ihi f2 none ti hti (Or.inl rfl)
    have hne : childrenOf (addTo cur ti.nest) ≠ [] := by
      cases cur with
      | none => simp [addTo, NST.nest, childrenOf]
      | some c => simp [addTo, childrenOf_append]
    obtain ⟨h1, h2, h3, h4⟩ := ihr f3 _ t h (Or.inr ⟨_, rfl, hne⟩)
    have hsh : shapeOf ti = Shape.mk i.shapes := by
      rw [shapeOf_eq_children ti i1, i2]; simp
    refine ⟨h1, ?_, ?_, ?_⟩
    · rw [h2]
      cases cur with
      | none => simp [addTo, NST.nest, childrenOf, shapeOf.go, Items.shapes, hsh]
      | some c =>
        simp only [addTo, childrenOf_append, shapeOf_go_append, Items.shapes]
        simp [shapeOf.go, shapeOf_nest, hsh]
    · rw [h3]
      cases cur with
      | none => simp [addTo, leavesOf_nest, i3, Items.symbols]
      | some c =>
        simp only [addTo, Items.symbols]
        rw [leavesOf_children (c.appendNode _), childrenOf_append, leavesOf_go_append,
          ← leavesOf_children]
        simp [leavesOf.go, leavesOf_nest, i3]
    · rw [h4]
      simp only at i4
      cases cur with
      | none =>
        simp only [addTo]
        by_cases hr : r = .nil
        · subst hr; simp [syn_nest, Items.text, i4]
        · simp [hr, syn_nest, Items.text_group_cons _ _ hr, i4]
      | some c =>
        simp only [addTo]
        by_cases hr : r = .nil
        · subst hr; simp [syn_nest, syn_appendNode, Items.text, i4]
        · simp [hr, syn_nest, syn_appendNode, Items.text_group_cons _ _ hr, i4]

/-! ## The loop invariant -/

/-- Tokens read so far, given the items of the open groups, innermost first. -/
def readOf : Items → List Items → List Tok
  | cur, [] => cur.write
  | cur, b :: bs => readOf b bs ++ .opening :: cur.write

/-- The items of the open groups, innermost first, are stored at the right depths. -/
def Stored (map : List (Nat × NST)) : List Items → Prop
  | [] => True
  | b :: bs => lookupN map bs.length = buildFrom none b ∧ Stored map bs

structure NestInv (done : List Tok) (st : NestState) (cur : Items) (below : List Items) : Prop where
  read : readOf cur below = done
  dep : st.depth = below.length
  full : ∀ x ∈ cur :: below, x.Full
  stored : Stored st.map (cur :: below)
  above : ∀ d, below.length < d → lookupN st.map d = none
  viable : Viable done below.length
  curNil : cur = .nil ↔ (done = [] ∨ done.getLast? = some .opening)

theorem stored_congr {m m' : List (Nat × NST)} (s : List Items)
    (h : ∀ d, d < s.length → lookupN m d = lookupN m' d) (hs : Stored m s) : Stored m' s := by
  induction s with
  | nil => trivial
  | cons b bs ih =>
    refine ⟨?_, ih (fun d hd => h d (by simp; omega)) hs.2⟩
    rw [← h bs.length (by simp)]; exact hs.1

theorem noEmptyGroup_snoc (ts : List Tok) (x : Tok) :
    NoEmptyGroup (ts ++ [x]) ↔
      NoEmptyGroup ts ∧ ¬ (ts.getLast? = some .opening ∧ x = .closing) := by
  induction ts with
  | nil => simp [NoEmptyGroup]
  | cons a ts ih =>
    cases ts with
    | nil => simp [NoEmptyGroup]
    | cons b ts =>
      simp only [List.cons_append, NoEmptyGroup] at ih ⊢
      rw [ih]
      simp [and_assoc]

theorem viable_snoc (ts : List Tok) (x : Tok) (d : Nat) (h : Viable ts d) :
    (∀ t k, x = .sym t k → Viable (ts ++ [x]) d) ∧
    (x = .opening → Viable (ts ++ [x]) (d + 1)) ∧
    (x = .closing → ∀ d', d = d' + 1 → ts.getLast? ≠ some .opening → Viable (ts ++ [x]) d') := by
  obtain ⟨h1, h2⟩ := h
  refine ⟨?_, ?_, ?_⟩
  · rintro t k rfl
    exact ⟨by simp [tokDepth_append, h1, tokDepth], by rw [noEmptyGroup_snoc]; simp [h2]⟩
  · rintro rfl
    exact ⟨by simp [tokDepth_append, h1, tokDepth], by rw [noEmptyGroup_snoc]; simp [h2]⟩
  · rintro rfl d' rfl hne
    exact ⟨by simp [tokDepth_append, h1, tokDepth], by rw [noEmptyGroup_snoc]; simp [h2, hne]⟩

/-- The token of a lexeme, if it has one. -/
def tokOf (l : Lexeme) : Option Tok :=
  match l.category with
  | .concept k => some (.sym l.text k)
  | .whitespace => none
  | .opening _ => some .opening
  | .closing _ => some .closing

theorem toks_cons (l : Lexeme) (ls : List Lexeme) :
    toks (l :: ls) = (match tokOf l with | none => [] | some t => [t]) ++ toks ls := by
  obtain ⟨t, c⟩ := l
  cases c <;> simp [toks, tokOf]

theorem NestInv.sym {done st cur below} (I : NestInv done st cur below) (t : Str) (k : Kind) :
    NestInv (done ++ [.sym t k])
      { st with map := (st.depth, addTo (lookupN st.map st.depth) (NST.fromConceptKind k t)) ::
          (mapRemove st.map st.depth).2 }
      (Items.app cur (.sym t k .nil)) below := by
  have hfull := I.full cur (by simp)
  refine ⟨?_, I.dep, ?_, ?_, ?_, (viable_snoc _ _ _ I.viable).1 t k rfl, ?_⟩
  · rw [← I.read]
    cases below with
    | nil => simp [readOf, Items.write_app, Items.write]
    | cons b bs => simp [readOf, Items.write_app, Items.write]
  · intro x hx
    simp at hx
    rcases hx with rfl | hx
    · rw [Items.full_app]; exact ⟨hfull, trivial⟩
    · exact I.full x (by simp [hx])
  · have hs := I.stored
    refine ⟨?_, ?_⟩
    · rw [lookupN_cons, if_pos I.dep, buildFrom_app _ _ _ hfull, ← hs.1, I.dep]; rfl
    · refine stored_congr below ?_ hs.2
      intro d hd
      rw [lookupN_cons, lookupN_mapRemove, I.dep]
      have : ¬ below.length = d := by omega
      simp [this]
  · intro d hd
    have hd' : ¬ below.length = d := by omega
    rw [lookupN_cons, lookupN_mapRemove, I.dep]; simp [hd', I.above d hd]
  · constructor
    · intro h; exact absurd h (Items.app_ne_nil_right (by simp))
    · simp

theorem NestInv.opening {done st cur below} (I : NestInv done st cur below) :
    NestInv (done ++ [.opening]) { st with depth := st.depth + 1 } .nil (cur :: below) := by
  refine ⟨?_, by simp [I.dep], ?_, ?_, ?_, (viable_snoc _ _ _ I.viable).2.1 rfl, by simp⟩
  · simp [readOf, I.read, Items.write]
  · intro x hx
    simp only [List.mem_cons] at hx
    rcases hx with rfl | hx
    · trivial
    · exact I.full x (by simp [hx])
  · exact ⟨I.above _ (by simp), I.stored⟩
  · intro d hd; exact I.above d (by simp at hd; omega)

theorem NestInv.closing {done st cur b bs} (I : NestInv done st cur (b :: bs)) (hc : cur ≠ .nil)
    (t : NST) (ht : buildFrom none cur = some t) :
    NestInv (done ++ [.closing])
      { map := (bs.length, addTo (lookupN (mapRemove st.map st.depth).2 bs.length) t.nest) ::
          (mapRemove (mapRemove st.map st.depth).2 bs.length).2
        depth := bs.length }
      (Items.app b (.group cur .nil)) bs := by
  have hb := I.full b (by simp)
  have hcur := I.full cur (by simp)
  have hlast : done.getLast? ≠ some .opening := fun h => hc (I.curNil.2 (Or.inr h))
  refine ⟨?_, rfl, ?_, ?_, ?_, (viable_snoc _ _ _ I.viable).2.2 rfl _ rfl hlast, ?_⟩
  · rw [← I.read]
    cases bs with
    | nil => simp [readOf, Items.write_app, Items.write]
    | cons b' bs => simp [readOf, Items.write_app, Items.write]
  · intro x hx
    simp only [List.mem_cons] at hx
    rcases hx with rfl | hx
    · rw [Items.full_app]; exact ⟨hb, hc, hcur, trivial⟩
    · exact I.full x (by simp [hx])
  · have hs := I.stored
    have hne : ¬ (b :: bs).length = bs.length := by simp
    refine ⟨?_, ?_⟩
    · rw [lookupN_cons, if_pos rfl, buildFrom_app _ _ _ hb, ← hs.2.1, lookupN_mapRemove, I.dep,
        if_neg hne]
      simp [buildFrom, ht]
    · refine stored_congr bs ?_ hs.2.2
      intro d hd
      have h1 : ¬ bs.length = d := by omega
      have h2 : ¬ bs.length + 1 = d := by omega
      rw [lookupN_cons, if_neg h1, lookupN_mapRemove, if_neg h1, lookupN_mapRemove, I.dep]
      simp [h2]
  · intro d hd
    have h1 : ¬ bs.length = d := by omega
    rw [lookupN_cons, if_neg h1, lookupN_mapRemove, if_neg h1, lookupN_mapRemove, I.dep]
    split
    · rfl
    · exact I.above d (by simp at *; omega)
  · constructor
    · intro h; exact absurd h (Items.app_ne_nil_right (by simp))
    · simp

/-- Why a closing parenthesis after the tokens `p` is rejected, with which error. -/
def Rejects (p : List Tok) (e : ZiaError) : Prop :=
  (e = .emptyParentheses ∧ (∃ d, Viable p d) ∧ (p = [] ∨ p.getLast? = some .opening)) ∨
  (e = .unmatchedParentheses ∧ Viable p 0 ∧ p ≠ [] ∧ p.getLast? ≠ some .opening)

theorem nestStep_inv {done st cur below l} (I : NestInv done st cur below) :
    match nestStep st l with
    | .ok st' => ∃ cur' below', NestInv
        (done ++ (match tokOf l with | none => [] | some t => [t])) st' cur' below'
    | .error e => tokOf l = some .closing ∧ Rejects done e := by
  obtain ⟨tx, c⟩ := l
  have hlk : lookupN st.map st.depth = buildFrom none cur := by rw [I.dep]; exact I.stored.1
  cases c with
  | whitespace => exact ⟨cur, below, by simpa [nestStep, tokOf] using I⟩
  | concept k =>
    have := I.sym tx k
    refine ⟨Items.app cur (.sym tx k .nil), below, ?_⟩
    · simp only [tokOf]
      unfold lookupN at this
      cases hx : Option.map (fun x => x.snd) (List.find? (fun x => x.fst == st.depth) st.map) with
      | none => rw [hx] at this; exact this
      | some ns => rw [hx] at this; exact this
  | opening o => exact ⟨.nil, cur :: below, by simpa [nestStep, tokOf] using I.opening⟩
  | closing o =>
    simp only [nestStep, tokOf]
    have hm : mapRemove st.map st.depth = (lookupN st.map st.depth, (mapRemove st.map st.depth).2) :=
      rfl
    rw [hm, hlk]
    by_cases hcn : cur = .nil
    · have hb : buildFrom none cur = none := by rw [hcn]; rfl
      rw [hb]
      exact ⟨trivial, Or.inl ⟨rfl, ⟨_, I.viable⟩, I.curNil.1 hcn⟩⟩
    · obtain ⟨t, ht⟩ := buildFrom_some cur none (I.full cur (by simp)) (Or.inr hcn)
      rw [ht]
      have hnn : ¬ (done = [] ∨ done.getLast? = some .opening) := fun h => hcn (I.curNil.2 h)
      cases below with
      | nil =>
        have hd : st.depth = 0 := I.dep
        simp only [hd, if_true]
        exact ⟨trivial, Or.inr ⟨rfl, I.viable, fun h => hnn (Or.inl h), fun h => hnn (Or.inr h)⟩⟩
      | cons b bs =>
        have hd : st.depth = bs.length + 1 := by simpa using I.dep
        have hd1 : st.depth - 1 = bs.length := by omega
        have := I.closing hcn t ht
        simp only [hd1]
        have hn0 : ¬ st.depth = 0 := by omega
        simp only [hn0, if_false]
        have hm2 : mapRemove (mapRemove st.map st.depth).2 bs.length =
          (lookupN (mapRemove st.map st.depth).2 bs.length,
            (mapRemove (mapRemove st.map st.depth).2 bs.length).2) := rfl
        rw [hm2]
        cases hx : lookupN (mapRemove st.map st.depth).2 bs.length with
        | none => rw [hx] at this; exact ⟨_, _, this⟩
        | some ns => rw [hx] at this; exact ⟨_, _, this⟩

theorem nestLoop_inv (ls : List Lexeme) : ∀ (done : List Tok) (st : NestState) (cur : Items)
    (below : List Items), NestInv done st cur below →
    match nestLoop st ls with
    | .ok st' => ∃ cur' below', NestInv (done ++ toks ls) st' cur' below'
    | .error e => ∃ p r, toks ls = p ++ .closing :: r ∧ Rejects (done ++ p) e := by
  induction ls with
  | nil => intro done st cur below I; exact ⟨cur, below, by simpa [nestLoop, toks] using I⟩
  | cons l ls ih =>
    intro done st cur below I
    have hs := nestStep_inv (l := l) I
    simp only [nestLoop]
    cases hn : nestStep st l with
    | error e =>
      rw [hn] at hs
      obtain ⟨h1, h2⟩ := hs
      refine ⟨[], toks ls, ?_, by simpa using h2⟩
      rw [toks_cons, h1]; rfl
    | ok st1 =>
      rw [hn] at hs
      obtain ⟨cur1, below1, I1⟩ := hs
      have h := ih _ st1 cur1 below1 I1
      show match nestLoop st1 ls with | .ok st' => _ | .error e => _
      cases hl : nestLoop st1 ls with
      | error e =>
        rw [hl] at h
        obtain ⟨p, r, h1, h2⟩ := h
        refine ⟨(match tokOf l with | none => [] | some t => [t]) ++ p, r, ?_, ?_⟩
        · rw [toks_cons, h1]; simp
        · simpa using h2
      | ok st2 =>
        rw [hl] at h
        obtain ⟨c2, b2, I2⟩ := h
        exact ⟨c2, b2, by rw [toks_cons]; simpa using I2⟩

theorem NestInv.init : NestInv [] ⟨[], 0⟩ .nil [] where
  read := rfl
  dep := rfl
  full := by simp [Items.Full]
  stored := ⟨rfl, trivial⟩
  above := by simp
  viable := ⟨rfl, trivial⟩
  curNil := by simp

/-- All outcomes of `nest`. -/
theorem nest_outcome (ls : List Lexeme) :
    match nest ls with
    | .ok t => ∃ items, items ≠ .nil ∧ items.Full ∧ items.write = toks ls ∧
        Viable (toks ls) 0 ∧ buildFrom none items = some t
    | .error e => (∃ p r, toks ls = p ++ .closing :: r ∧ Rejects p e) ∨
        (e = .unmatchedParentheses ∧ ∃ d, d ≠ 0 ∧ Viable (toks ls) d) ∨
        (e = .emptyExpression ∧ toks ls = []) := by
  have h := nestLoop_inv ls [] ⟨[], 0⟩ .nil [] NestInv.init
  unfold nest
  cases hl : nestLoop ⟨[], 0⟩ ls with
  | error e =>
    rw [hl] at h
    obtain ⟨p, r, h1, h2⟩ := h
    exact Or.inl ⟨p, r, h1, by simpa using h2⟩
  | ok st =>
    rw [hl] at h
    obtain ⟨cur, below, I⟩ := h
    simp only [List.nil_append] at I
    show match (if st.depth ≠ 0 then _ else _ : Except ZiaError NST) with | .ok t => _ | .error e => _
    by_cases hd : st.depth = 0
    · simp only [hd, ne_eq, not_true_eq_false, if_false]
      have hb : below = [] := by
        have := I.dep; rw [hd] at this
        cases below with
        | nil => rfl
        | cons _ _ => simp at this
      subst hb
      rw [mapRemove_fst]
      have hlk : lookupN st.map 0 = buildFrom none cur := I.stored.1
      rw [hlk]
      by_cases hc : cur = .nil
      · have : buildFrom none cur = none := by rw [hc]; rfl
        rw [this]
        refine Or.inr (Or.inr ⟨rfl, ?_⟩)
        rw [← I.read, hc]; rfl
      · obtain ⟨t, ht⟩ := buildFrom_some cur none (I.full cur (by simp)) (Or.inr hc)
        rw [ht]
        exact ⟨cur, hc, I.full cur (by simp), I.read, I.viable, ht⟩
    · simp only [hd, ne_eq, not_false_eq_true, if_true]
      exact Or.inr (Or.inl ⟨trivial, below.length, by rw [← I.dep]; exact hd, I.viable⟩)

/-! ## The outcomes exclude each other -/

theorem noEmptyGroup_prefix (a b : List Tok) (h : NoEmptyGroup (a ++ b)) : NoEmptyGroup a := by
  induction a with
  | nil => trivial
  | cons x a ih =>
    cases a with
    | nil => trivial
    | cons y a =>
      simp only [List.cons_append, NoEmptyGroup] at h ⊢
      exact ⟨h.1, ih h.2⟩

theorem viable_prefix (a b : List Tok) (d : Nat) (h : Viable (a ++ b) d) : ∃ d', Viable a d' := by
  obtain ⟨h1, h2⟩ := h
  rw [tokDepth_append] at h1
  cases hx : tokDepth 0 a with
  | none => simp [hx] at h1
  | some d' => exact ⟨d', hx, noEmptyGroup_prefix a b h2⟩

theorem rejects_not_viable {p r : List Tok} {e : ZiaError} (h : Rejects p e) (d : Nat) :
    ¬ Viable (p ++ .closing :: r) d := by
  intro hv
  obtain ⟨d', hv'⟩ := viable_prefix (p ++ [.closing]) r d (by simpa using hv)
  obtain ⟨h1, h2⟩ := hv'
  rw [noEmptyGroup_snoc] at h2
  rcases h with ⟨_, _, h | h⟩ | ⟨_, h, _, _⟩
  · subst h; simp [tokDepth] at h1
  · exact h2.2 ⟨h, rfl⟩
  · rw [tokDepth_append, h.1] at h1; simp [tokDepth] at h1

theorem rejects_viable {p : List Tok} {e : ZiaError} (h : Rejects p e) : ∃ d, Viable p d := by
  rcases h with ⟨_, h, _⟩ | ⟨_, h, _, _⟩
  · exact h
  · exact ⟨_, h⟩

theorem rejects_unique {ts p r p' r' : List Tok} {e e' : ZiaError}
    (h : ts = p ++ .closing :: r) (h' : ts = p' ++ .closing :: r') (hr : Rejects p e)
    (hr' : Rejects p' e') : p = p' ∧ e = e' := by
  have hp : p = p' := by
    rw [h] at h'
    rcases List.append_eq_append_iff.mp h' with ⟨s, h1, h2⟩ | ⟨s, h1, h2⟩
    · cases s with
      | nil => simpa using h1.symm
      | cons x s =>
        simp only [List.cons_append, List.cons.injEq] at h2
        obtain ⟨rfl, h2⟩ := h2
        obtain ⟨d, hv⟩ := rejects_viable hr'
        rw [h1] at hv
        exact absurd hv (rejects_not_viable hr d)
    · cases s with
      | nil => simpa using h1
      | cons x s =>
        simp only [List.cons_append, List.cons.injEq] at h2
        obtain ⟨rfl, h2⟩ := h2
        obtain ⟨d, hv⟩ := rejects_viable hr
        rw [h1] at hv
        exact absurd hv (rejects_not_viable hr' d)
  subst hp
  refine ⟨rfl, ?_⟩
  rcases hr with ⟨h1, _, h3⟩ | ⟨h1, _, h3, h4⟩ <;> rcases hr' with ⟨g1, _, g3⟩ | ⟨g1, _, g3, g4⟩
  · rw [h1, g1]
  · rcases h3 with h3 | h3
    · exact absurd h3 g3
    · exact absurd h3 g4
  · rcases g3 with g3 | g3
    · exact absurd g3 h3
    · exact absurd g3 h4
  · rw [h1, g1]

theorem write_getLast (x : Items) : x.write.getLast? ≠ some .opening := by
  induction x with
  | nil => simp [Items.write]
  | sym t k r ih =>
    simp only [Items.write]
    cases hr : r.write with
    | nil => simp
    | cons a b => rw [hr] at ih; simpa using ih
  | group i r _ ihr =>
    simp only [Items.write, List.cons_append]
    rw [List.getLast?_cons]
    cases hr : r.write with
    | nil => simp
    | cons a b =>
      rw [hr] at ihr
      rw [List.getLast?_cons] at ihr
      simp only [List.getLast?_append, List.getLast?_cons]
      simpa using ihr

theorem noEmptyGroup_append (a b : List Tok) (ha : NoEmptyGroup a) (hb : NoEmptyGroup b)
    (h : a.getLast? ≠ some .opening ∨ b.head? ≠ some .closing) : NoEmptyGroup (a ++ b) := by
  induction a with
  | nil => exact hb
  | cons x a ih =>
    cases a with
    | nil =>
      cases b with
      | nil => trivial
      | cons y b => refine ⟨?_, hb⟩; simp at h; rcases h with h | h <;> simp [h]
    | cons y a => exact ⟨ha.1, ih ha.2 (by simpa using h)⟩

theorem noEmptyGroup_write (x : Items) (hf : x.Full) : NoEmptyGroup x.write := by
  have hhead : ∀ x : Items, x.write.head? ≠ some .closing := by
    intro x; cases x <;> simp [Items.write]
  induction x with
  | nil => trivial
  | sym t k r ih =>
    exact noEmptyGroup_append [.sym t k] r.write trivial (ih hf) (Or.inl (by simp))
  | group i r ihi ihr =>
    obtain ⟨h1, h2, h3⟩ := hf
    have e : (Items.group i r).write = [.opening] ++ (i.write ++ ([.closing] ++ r.write)) := by
      simp [Items.write]
    rw [e]
    have hi : i.write ≠ [] := fun h => h1 ((Items.write_eq_nil i).1 h)
    refine noEmptyGroup_append _ _ trivial ?_ (Or.inr ?_)
    · refine noEmptyGroup_append _ _ (ihi h2) ?_ (Or.inl (write_getLast i))
      exact noEmptyGroup_append _ _ trivial (ihr h3) (Or.inl (by simp))
    · cases hw : i.write with
      | nil => exact absurd hw hi
      | cons a b => have := hhead i; rw [hw] at this; simpa using this

theorem viable_depth_unique {ts : List Tok} {d d' : Nat} (h : Viable ts d) (h' : Viable ts d') :
    d = d' := by
  have := h.1.symm.trans h'.1
  simpa using this

end Zia

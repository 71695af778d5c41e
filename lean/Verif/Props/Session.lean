import Verif.Props.Told
import Verif.Lemmas.SpeechRead
import Verif.Lemmas.InfixAsk
import Verif.Lemmas.CoupleRead
import Verif.Lemmas.Arrowed
import Verif.Lemmas.Talk
import Verif.Witness.Forget
import Verif.Witness.Order
import Verif.Spec.Session

/-!
# Sessions about words
-/

namespace Zia.Props

open Spec CM

section

variable [HashOrder]

/-- A test for words that are found at once. -/
def foundAs (s : Snap) (t : Str) (i : Nat) : Bool :=
  match s.stringMap.get? t with
  | none => false
  | some z => match s.concepts[z]? with
    | none => false
    | some cz => match cz.redFrom with
      | [k] => match s.concepts[k]? with
        | none => false
        | some ck => ck.composition = some (builtin .label, i)
      | _ => false

theorem lookup_of_check {s : Snap} {t : Str} {n i : Nat} (h : foundAs s t i = true)
    (hlab : IsBuiltIn s (builtin .label) .label) (hn : 1 ≤ n) :
    (View.mk s Nested.default).conceptFromLabel n t = .ok (some (.com i)) := by
  unfold foundAs at h
  cases hz : s.stringMap.get? t with
  | none => rw [hz] at h; cases h
  | some z =>
    rw [hz] at h
    dsimp only at h
    cases hcz : s.concepts[z]? with
    | none => rw [hcz] at h; cases h
    | some cz =>
      rw [hcz] at h
      dsimp only at h
      split at h
      · next k hk =>
        split at h
        · cases h
        · next ck hck => exact lookup_single hz hcz hk hck (by simpa using h) hlab hn
      · cases h

/-- The store and the cache during a session: `B` are the strings from before, `K` the words. -/
structure Talking (n : Nat) (B : Str → Prop) (K : List Str) (L : Facts) (c : Ctx) : Prop where
  history : History (fun s p => ReducesFresh s p ∧ KeepsDefinitions s p) c
  speech : Speech n B K L c.snap
  asking : Asking (.rest c.snap) (Means n K c.snap) c

variable {n : Nat} {B : Str → Prop} {K : List Str} {L : Facts} {c : Ctx}

/-- The words may be listed in another way. -/
theorem Talking.same {K' : List Str} (h : Talking n B K L c) (hK : ∀ t, t ∈ K' ↔ t ∈ K) : Talking n B K' L c :=
  ⟨h.history, h.speech.same hK, by rw [Means.same hK]; exact h.asking⟩

/-- The command changed nothing but that it introduced words. -/
theorem Talking.stays {K' : List Str} (h : Talking n B K L c) {g : Snap} {W : Stand g} (P : Pends c W)
    (S : Speech n B K' L g) {u out : Str} {q : Except ZiaError Str} {c3 c' : Ctx}
    (hcmd : Context.command n u c = .ok (q, c3)) (a : Asking W (Means n K' g) c3)
    (he : Context.execute n c u = .ok (out, c')) : Talking n B K' L c' := by
  have hh : History (fun s p => ReducesFresh s p ∧ KeepsDefinitions s p) c' := by
    refine .step h.history he fun r c1 hc1 g p rest before e1 _ => ?_
    rw [hcmd] at hc1
    cases hc1
    rw [a.delta] at e1
    exact P.order p (by rw [e1]; simp) g
  simp only [Context.execute, Context.commit, Except.bind_eq_ok, Except.pure_eq_ok] at he
  obtain ⟨⟨q', c4⟩, hcmd', c5, ⟨s4, ha, rfl⟩, h9⟩ := he
  rw [hcmd] at hcmd'
  cases hcmd'
  cases h9
  rw [a.delta, a.snap, P.snap] at ha
  cases P.commit s4 ha
  exact ⟨hh, S, rfl, rfl, rfl, P.settles.kept a.kept, P.settles.known a.known⟩

/-- The answer to a command. -/
theorem answer_of {u out : Str} {q : Except ZiaError Str} {c3 c' : Ctx} (hcmd : Context.command n u c = .ok (q, c3))
    (he : Context.execute n c u = .ok (out, c')) : out = match q with
      | .ok t => t
      | .error e => e.message := by
  simp only [Context.execute, Context.commit, Except.bind_eq_ok, Except.pure_eq_ok] at he
  obtain ⟨⟨q', c4⟩, hcmd', c5, _, h9⟩ := he
  rw [hcmd] at hcmd'
  cases hcmd'
  cases q <;> cases h9 <;> rfl

/-- The command of a session is carried out. -/
theorem command_of {u out : Str} {c' : Ctx} (he : Context.execute n c u = .ok (out, c')) :
    ∃ q c3, Context.command n u c = .ok (q, c3) := by
  simp only [Context.execute, Except.bind_eq_ok] at he
  obtain ⟨⟨q, c3⟩, h, _⟩ := he
  exact ⟨q, c3, h⟩

/-- A question. -/
theorem Talking.ask (h : Talking n B K L c) {x out : Str} {c' : Ctx} (hx : IsSymbol x)
    (vx : Syn.isVariableName x = false) (bx : ¬B x) (he : Context.execute n c x = .ok (out, c')) :
    EndsIn L x out ∧ Talking n B (x :: K) L c' := by
  obtain ⟨g, W, i, P, S, hi, hp⟩ := h.speech.readWord h.asking (History.unpinned h.history) hx vx bx
  obtain ⟨q, c3, hcmd⟩ := command_of he
  obtain ⟨a, t, rfl, ht⟩ := ask_read S.asked ⟨x, by simp, hi⟩ hp q c3 hcmd
  cases answer_of hcmd he
  exact ⟨S.sound (by simp) hi ht, h.stays P S hcmd a he⟩

/-- The trees of words that are remembered. -/
theorem Talking.trees (h : Talking n B K L c) {k : Nat} {t : Str} {T : Syn} (hk : PlainWord c.snap k t)
    (hv : ¬MayVary c.snap k) (hT : c.cache.syntaxTree? (.com k) = some T) : Plain (.com k) T := by
  have hkept := h.asking.kept
  unfold Cache.syntaxTree? at hT
  have tree : TreeIn (.rest c.snap) k T := by
    cases hf : c.cache.frames with
    | nil => rw [hf] at hT; cases hT
    | cons f fs =>
      rw [hf] at hT
      exact hkept.trees f (by rw [hf]; simp) _ _ hT |>.1 _ rfl
  obtain ⟨kd, rfl, hkd⟩ := tree.named hk hv
  exact ⟨_, _, rfl, hkd⟩

/-- What is told. -/
theorem Talking.tell (h : Talking n B K L c) {u x y : Str} {c' : Ctx} (hu : Learns n u x y c) (hx : IsSymbol x) (hy : IsSymbol y)
    (vx : Syn.isVariableName x = false) (vy : Syn.isVariableName y = false) (bx : ¬B x) (bY : ¬B y)
    (hne : x ≠ y) (once : ∀ z, (x, z) ∉ L)
    (he : Context.execute n c u = .ok ([], c')) : Talking n B (x :: y :: K) ((x, y) :: L) c' := by
  have S := h.speech
  have hd := (History.settled h.history).delta
  have plain : ∀ {t i}, t ∈ K → StandsFor n c.snap t i → PlainWord c.snap i t ∧ Unconnected c.snap i := S.plain
  have builtWord : ∀ {t u}, StandsFor n c.snap u (builtin t) →
      Syn.isVariableName u = false → PlainWord c.snap (builtin t) u := by
    intro t u hu hv
    obtain ⟨_, e, hn, _⟩ := lookup_named_partial (n := n) h.history (by rw [hd]; exact hu)
    cases e
    obtain ⟨k, hk, e⟩ := ((History.concrete h.history).2 (builtin t) t).2 (by cases t <;> exact ⟨_, rfl, rfl⟩)
    refine ⟨hn, ?_, ?_, hv⟩
    · rintro l r ⟨k', hk', hp⟩
      rw [hk] at hk'; cases hk'
      simp [composition_eq, e, pairOf] at hp
    · intro w hw
      rw [isString_specs] at hw
      simp [specs, look, hk, e] at hw
  have redConst : ¬MayVary c.snap (builtin .reduction) := (S.asked.lone.builtins _ (.inr rfl)).1
  obtain ⟨i, j, N, T, U, h', hcache, hnew, hold, hfresh, lx, ly, hi, hj⟩ :=
    told_command (n := n) h.history hu hx hy hne vx vy (by rw [hd]; exact S.letWord) (by rw [hd]; exact S.redWord) (by
      rw [hd]
      by_cases hm : x ∈ K
      · obtain ⟨i, h1, h2, h3, _⟩ := S.word x hm
        exact .inr ⟨i, h1, h2, h3, (S.idle hm h1).2 once⟩
      · exact .inl (S.new bx hm)) (by
      rw [hd]
      by_cases hm : y ∈ K
      · obtain ⟨j, h1, h2, h3, _⟩ := S.word y hm
        refine .inr ⟨j, h1, h2, fun q hq => ?_⟩
        obtain ⟨u, h4, h5, _⟩ := S.path hm h1 hq
        exact ⟨⟨u, (plain h4 h5).1⟩, (plain h4 h5).2⟩
      · exact .inl (S.new bY hm)) (by
      rw [hd]
      by_cases mx : x ∈ K
      · by_cases my : y ∈ K
        · refine .inl fun i j hi hj id t ht hid => ?_
          simp only [List.mem_cons, List.not_mem_nil, or_false] at hid
          rcases hid with rfl | rfl | rfl | rfl
          · exact h.trees (builtWord S.letWord (by decide)) (S.constant _ (by simp)) ht
          · exact h.trees (plain mx hi).1 (plain mx hi).2.constant ht
          · exact h.trees (builtWord S.redWord (by decide)) redConst ht
          · exact h.trees (plain my hj).1 (plain my hj).2.constant ht
        · exact .inr (.inr (S.new bY my))
      · exact .inr (.inl (S.new bx mx))) he
  have hs := S.orderly.names
  have hse := History.settled h'
  have O := orderly_of_history h'
  rw [hse.delta, hd] at hold
  rw [hse.delta] at hfresh lx ly
  rw [hd] at hi hj
  have hfresh : ∀ m t, N[m]? = some t → StandsFor n c'.snap t (c.snap.concepts.length + 3 * m + 2) := hfresh
  have lx : StandsFor n c'.snap x i := lx
  have ly : StandsFor n c'.snap y j := ly
  have hi : StandsFor n c.snap x i ∨ _ := hi
  have hj : StandsFor n c.snap y j ∨ _ := hj
  have look : ∀ {t k}, t ∉ N → (StandsFor n c'.snap t k ↔ StandsFor n c.snap t k) := by
    intro t k ht
    unfold StandsFor
    rw [hold t ht]
  have known : ∀ {t i}, StandsFor n c.snap t i → t ∉ N :=
    fun hi ht => S.known hi (hnew _ ht).2
  have same : ∀ {t i}, StandsFor n c.snap t i → StandsFor n c'.snap t i := fun hi => (look (known hi)).2 hi
  have mentioned : ∀ {t}, t ∈ x :: y :: K → t ∈ N ∨ t ∈ K := by
    intro t ht
    have old : ∀ {t i}, ¬B t → StandsFor n c.snap t i → t ∈ K := by
      intro t i hb hi
      refine Classical.byContradiction fun hm => ?_
      exact S.known hi (S.new hb hm)
    simp only [List.mem_cons] at ht
    rcases ht with rfl | rfl | hm
    · rcases hi with hi | ⟨m, hm, _⟩
      · exact .inr (old bx hi)
      · exact .inl (List.mem_of_getElem? hm)
    · rcases hj with hj | ⟨m, hm, _⟩
      · exact .inr (old bY hj)
      · exact .inl (List.mem_of_getElem? hm)
    · exact .inr hm
  have mentionedN : ∀ {t}, t ∈ K → t ∉ N := by
    intro t ht
    obtain ⟨i, h1, _⟩ := S.word t ht
    exact known h1
  have hword : ∀ t, t ∈ x :: y :: K →
      ∃ i, StandsFor n c'.snap t i ∧ PlainWord c'.snap i t ∧ Unconnected c'.snap i ∧ IsSymbol t := by
    intro t ht
    rcases mentioned ht with hN | hm
    · obtain ⟨m, hm⟩ := List.getElem?_of_mem hN
      refine ⟨_, hfresh m t hm, (T.newWord U hm).1, (T.newWord U hm).2, ?_⟩
      rcases (hnew t hN).1 with rfl | rfl
      exacts [hx, hy]
    · obtain ⟨k, h1, h2, h3, h4⟩ := S.word t hm
      exact ⟨k, same h1, (T.keepsWord U h2 h3).1, (T.keepsWord U h2 h3).2, h4⟩
  have notPair : ∀ l r, ¬ComposedOf c.snap j l r := by
    intro l r hc
    rcases hj with hj | ⟨m, _, e⟩
    · rcases mentioned (t := y) (by simp) with hN | hm
      · exact known hj hN
      · exact (plain hm hj).1.simple l r hc
    · have := composedOf_self hc
      omega
  refine ⟨h', ⟨S.fuel, O, T.noBlanketRule U S.rules S.orderly.redFwd O.redRev, same S.letWord, same S.redWord,
    same S.forgetWord, same S.labelWord, fun t ht => T.constant_of U (S.constant t ht) fun m => ?_, ?_, ?_, ?_, ?_,
    hword, ?_, T.wide U S.orderly notPair S.wide, ?_⟩, ?_⟩
  · have := S.orderly.built_lt t
    omega
  · intro k r hk
    rcases T.composed.1 hk with hk | ⟨m, t, _, _, e, _⟩
    · exact S.left k r hk
    · cases e
  · intro k l hk
    rcases T.composed.1 hk with hk | ⟨m, t, _, _, e, _⟩
    · exact S.right k l hk
    · exact e
  · intro t u hu
    rcases List.mem_cons.1 hu with e | hu
    · cases e
      simp
    · have := S.closed t u hu
      simp [this]
  · intro k t hk
    rcases T.strings.1 hk with hk | ⟨m, hm, _⟩
    · exact (S.strings k t hk).imp_right fun hm => by simp [hm]
    · rcases (hnew t (List.mem_of_getElem? hm)).1 with e | e <;> exact .inr (by simp [e])
  · intro t a ht ha k
    by_cases e : t = x
    · subst e
      cases ha.unique lx
      rw [T.reduces]
      constructor
      · rintro (⟨_, rfl⟩ | ⟨hne, _⟩ | ⟨m, _, _, e, _⟩)
        · exact ⟨y, by simp, ly⟩
        · exact absurd rfl hne
        · rcases T.first with h | ⟨m', _, _, h⟩ <;> omega
      · rintro ⟨u, hu, hl⟩
        rcases List.mem_cons.1 hu with e | hu
        · cases e
          cases hl.unique ly
          exact .inl ⟨rfl, rfl⟩
        · exact absurd hu (once u)
    · have hai : a ≠ i := by
        rintro rfl
        exact e (symbols_distinct_partial (n := n) h' (by rw [hse.delta]; exact ha)
          (by rw [hse.delta]; exact lx))
      have iff : (∃ u, (t, u) ∈ (x, y) :: L ∧ StandsFor n c'.snap u k) ↔
          ∃ u, (t, u) ∈ L ∧ StandsFor n c.snap u k := by
        constructor
        · rintro ⟨u, hu, hl⟩
          rcases List.mem_cons.1 hu with e' | hu
          · cases e'; exact absurd rfl e
          · exact ⟨u, hu, (look (mentionedN (S.closed t u hu).2)).1 hl⟩
        · rintro ⟨u, hu, hl⟩
          exact ⟨u, by simp [hu], same hl⟩
      rw [iff, T.reduces]
      rcases mentioned ht with hN | hm
      · obtain ⟨m, hm⟩ := List.getElem?_of_mem hN
        cases ha.unique (hfresh m t hm)
        constructor
        · rintro (⟨e, _⟩ | ⟨_, hr⟩ | ⟨m', _, _, e, _⟩)
          · exact absurd e hai
          · have := (reducesTo_lt hs.refs hr).1
            omega
          · omega
        · rintro ⟨u, hu, _⟩
          exact absurd hN (mentionedN (S.closed t u hu).1)
      · have ha := (look (mentionedN hm)).1 ha
        rw [← S.reduces t a hm ha k]
        have := Added.hasName_lt hs (plain hm ha).1.name
        constructor
        · rintro (⟨e, _⟩ | ⟨_, hr⟩ | ⟨m', _, _, e, _⟩)
          · exact absurd e hai
          · exact hr
          · omega
        · exact fun hr => .inr (.inl ⟨hai, hr⟩)
  · intro t a ht ha
    rcases mentioned ht with hN | hm
    · obtain ⟨m, hm⟩ := List.getElem?_of_mem hN
      cases ha.unique (hfresh m t hm)
      refine ⟨?_, fun c => ?_⟩
      · rintro rfl
        obtain ⟨_, z, _, _, hz⟩ := (S.wide.names (.associativity, str% "assoc") (by simp [spoken])).name
        exact (hnew _ hN).2 z hz
      · have := S.orderly.built_lt c
        omega
    · exact S.apart t a hm ((look (mentionedN hm)).1 ha)
  · refine ⟨rfl, hse.delta, hse.bound, ?_, ?_⟩
    · rw [hcache]; exact .empty
    · rw [hcache]; exact .empty

/-- What is forgotten, if the word is known. -/
theorem Talking.forgot (h : Talking n B K L c) {x u out : Str} {c' : Ctx} {i : Nat} (hx : x ∈ K)
    (h1 : StandsFor n c.snap x i)
    (W : Ends (Context.command n u) c (ForgotWord (.rest c.snap) (Means n K c.snap) Nested.default i x))
    (he : Context.execute n c u = .ok (out, c')) :
    (∃ z, (x, z) ∈ L) ∧ out = [] ∧ Talking n B K (L.without x) c' ∨
      (∀ z, (x, z) ∉ L) ∧ out = nothingToForget x ∧ Talking n B K L c' := by
  have hs := h.speech.orderly.names
  have hse := History.settled h.history
  have hd := hse.delta
  have S := h.speech
  obtain ⟨q, c3, hcmd⟩ := command_of he
  rcases W q c3 hcmd with ⟨j, hj, rfl, hcache, id, hu⟩ | ⟨hno, a, rfl⟩
  · left
    have hh : History (fun s p => ReducesFresh s p ∧ KeepsDefinitions s p) c' := by
      refine .step h.history he fun r c1 hc1 g p rest before e1 _ => ?_
      rw [hcmd] at hc1
      cases hc1
      have ho := Nested.update_order hu
      have h0 : Nested.default.order = [] := rfl
      rw [h0, e1] at ho
      have hm : p ∈ before ++ p :: rest := by simp
      rw [ho] at hm
      simp only [List.nil_append, List.mem_cons, List.not_mem_nil, or_false] at hm
      subst hm
      exact ⟨trivial, trivial⟩
    simp only [Context.execute, Context.commit, Except.bind_eq_ok, Except.pure_eq_ok] at he
    obtain ⟨⟨q', c4⟩, hcmd', c5, ⟨s4, ha, rfl⟩, h9⟩ := he
    rw [hcmd] at hcmd'
    cases hcmd'
    cases h9
    have hsnap : c3.snap = c.snap := (Context.command_traced n _ c _ c3 hcmd).1
    rw [hsnap] at ha
    have T := lost_of hse.refs hd hj (by rw [hd]; exact hu) ha
    have off : ∀ q t, Relation.ReflTransGen (ReducesTo c.snap) i q → ¬IsString c.snap q t := by
      intro q t hq
      obtain ⟨u, h5, h6, _⟩ := S.path hx h1 hq
      exact (S.plain h5 h6).1.nostring t
    have look : ∀ {t k}, StandsFor n s4 t k ↔ StandsFor n c.snap t k := by
      intro t k
      unfold StandsFor
      rw [T.sameLookup off hs S.orderly.redRev t n]
    obtain ⟨z, hz, _⟩ := (S.reduces x i hx h1 j).1 hj
    refine ⟨⟨z, hz⟩, rfl, hh, ⟨S.fuel, orderly_of_history hh, T.noBlanketRule off S.rules, look.2 S.letWord,
      look.2 S.redWord, look.2 S.forgetWord, look.2 S.labelWord, fun t ht hv => S.constant t ht (T.varies off hv),
      fun k r hk => S.left k r ((T.rest.definitions _ _ _).1 hk),
      fun k l hk => S.right k l ((T.rest.definitions _ _ _).1 hk),
      fun t u hu => S.closed t u (List.mem_filter.1 hu).1, fun k t hk => S.strings k t ((T.rest.strings _ _).1 hk),
      ?_, ?_, T.wide S.orderly off S.wide, fun t k ht hk => S.apart t k ht (look.1 hk)⟩, ?_⟩
    · intro t ht
      obtain ⟨k, h5, h6, h7, h8⟩ := S.word t ht
      exact ⟨k, look.2 h5, (T.keepsWord off h6 h7).1, (T.keepsWord off h6 h7).2, h8⟩
    · intro t k ht hk m
      have hk := look.1 hk
      show ReducesTo s4 k m ↔ ∃ u, (t, u) ∈ L.without x ∧ StandsFor n s4 u m
      simp only [look]
      rw [T.reduces, S.reduces t k ht hk m]
      by_cases e : t = x
      · subst e
        cases h1.unique hk
        simp [Facts.without]
      · have hki : k ≠ i := by
          rintro rfl
          exact e (S.distinct ht hx hk h1)
        simp [Facts.without, e, hki]
    · refine ⟨rfl, rfl, rfl, ?_, ?_⟩
      · show Kept (.rest s4) _ c3.cache
        rw [hcache]; exact .empty
      · show Known (.rest s4) _ c3.cache
        rw [hcache]; exact .empty
  · right
    cases answer_of hcmd he
    exact ⟨(S.idle hx h1).1 hno, rfl, h.stays (.rest S.orderly) S hcmd a he⟩

/-- What is forgotten. -/
theorem Talking.forget (h : Talking n B K L c) {x out : Str} {c' : Ctx} (hx : IsSymbol x)
    (vx : Syn.isVariableName x = false) (bx : ¬B x) (he : Context.execute n c (forgetting x) = .ok (out, c')) :
    (∃ z, (x, z) ∈ L) ∧ out = [] ∧ Talking n B (x :: K) (L.without x) c' ∨
      (∀ z, (x, z) ∉ L) ∧ out = nothingToForget x ∧ Talking n B (x :: K) L c' := by
  have S := h.speech
  by_cases hm : x ∈ K
  · have hK : ∀ t, t ∈ x :: K ↔ t ∈ K := fun t => ⟨fun h => by
      rcases List.mem_cons.1 h with rfl | h
      exacts [hm, h], fun h => by simp [h]⟩
    obtain ⟨i, h1, h2, h3, h4⟩ := S.word x hm
    have hd := (History.settled h.history).delta
    have bf := S.orderly.built .forget
    have W := forget_word S.asked h.asking (History.unpinned h.history) h4 ⟨x, hm, h1⟩ h2 (S.constant _ (by simp))
      (built_simple bf) bf (by rw [hd]; exact S.forgetWord) (by rw [hd]; exact h1)
    rcases h.forgot hm h1 W he with ⟨z, e, h'⟩ | ⟨z, e, h'⟩
    · exact .inl ⟨z, e, h'.same hK⟩
    · exact .inr ⟨z, e, h'.same hK⟩
  · right
    obtain ⟨g, W, i, P, S', hi, hp⟩ := S.readForget h.asking (History.unpinned h.history) hx vx bx hm
    have no : ∀ z, (x, z) ∉ L := fun z hz => hm (S.closed x z hz).1
    obtain ⟨q, c3, hcmd⟩ := command_of he
    have bf := S'.orderly.built .forget
    rcases forget_read S'.asked ⟨x, by simp, hi⟩ (S'.plain (by simp) hi).1 (S'.constant _ (by simp)) (built_simple bf)
      bf hp q c3 hcmd with ⟨j, hj, _⟩ | ⟨_, a, rfl⟩
    · exact absurd hj ((S'.idle (by simp) hi).2 no j)
    · cases answer_of hcmd he
      exact ⟨no, rfl, h.stays P S' hcmd a he⟩

/-- What is told about a word and itself. -/
theorem Talking.itself (h : Talking n B K L c) {u x out : Str} {c' : Ctx} (hu : TellsAs n u x x) (hx : IsSymbol x)
    (vx : Syn.isVariableName x = false) (bx : ¬B x) (he : Context.execute n c u = .ok (out, c')) :
    (∃ z, (x, z) ∈ L) ∧ out = [] ∧ Talking n B (x :: K) (L.without x) c' ∨
      (∀ z, (x, z) ∉ L) ∧ out = nothingToForget x ∧ Talking n B (x :: K) L c' := by
  have S := h.speech
  by_cases hm : x ∈ K
  · have hK : ∀ t, t ∈ x :: K ↔ t ∈ K := fun t => ⟨fun h => by
      rcases List.mem_cons.1 h with rfl | h
      exacts [hm, h], fun h => by simp [h]⟩
    obtain ⟨i, h1, h2, h3, h4⟩ := S.word x hm
    have W := itself_read S.asked S.ties ⟨x, hm, h1⟩ h2 (S.constant _ (by simp))
      (S.readKnown h.asking (History.unpinned h.history) hu hx hx vx vx hm hm h1 h1).1
    rcases h.forgot hm h1 W he with ⟨z, e, h'⟩ | ⟨z, e, h'⟩
    · exact .inl ⟨z, e, h'.same hK⟩
    · exact .inr ⟨z, e, h'.same hK⟩
  · right
    obtain ⟨g, W, i, j, P, S', hi, hj, hp, _⟩ :=
      S.readTold h.asking (History.unpinned h.history) hu hx hx vx vx bx bx (.inl hm)
    cases hi.unique hj
    have no : ∀ z, (x, z) ∉ L := fun z hz => hm (S.closed x z hz).1
    obtain ⟨q, c3, hcmd⟩ := command_of he
    rcases itself_read S'.asked S'.ties ⟨x, by simp, hi⟩ (S'.plain (by simp) hi).1 (S'.constant _ (by simp)) hp q c3 hcmd
      with ⟨j, hj, _⟩ | ⟨_, a, rfl⟩
    · exact absurd hj ((S'.idle (by simp) hi).2 no j)
    · cases answer_of hcmd he
      exact ⟨no, rfl, (h.stays P S' hcmd a he).same (by simp)⟩

/-- What is told. -/
theorem Talking.retell (h : Talking n B K L c) {u x y out : Str} {c' : Ctx} (hu : TellsAs n u x y) (hx : IsSymbol x) (hy : IsSymbol y)
    (vx : Syn.isVariableName x = false) (vy : Syn.isVariableName y = false) (hne : x ≠ y)
    (bx : ¬B x) (bY : ¬B y) (he : Context.execute n c u = .ok (out, c')) :
    Allowed L x y ∧ out = [] ∧ Talking n B (x :: y :: K) ((x, y) :: L) c' ∨
      (∃ z, (x, z) ∈ L ∧ out = alreadyReduces x z) ∧ Talking n B (x :: y :: K) L c' ∨
      (∀ z, (x, z) ∉ L) ∧ Relation.TransGen (fun a b => (a, b) ∈ L) y x ∧ out = wouldLoop ∧
        Talking n B (x :: y :: K) L c' := by
  have S := h.speech
  obtain ⟨q, c3, hcmd⟩ := command_of he
  have main : ∃ (g : Snap) (W : Stand g) (i j : Nat), Pends c W ∧ Speech n B (x :: y :: K) L g ∧ StandsFor n g x i ∧
      StandsFor n g y j ∧ RetoldWord W (Means n (x :: y :: K) g) i j x q c3 ∧ Learns n u x y c := by
    by_cases hm : x ∈ K ∧ y ∈ K
    · obtain ⟨mx, my⟩ := hm
      have hK : ∀ t, t ∈ x :: y :: K ↔ t ∈ K := fun t => ⟨fun h => by
        rcases List.mem_cons.1 h with rfl | h
        · exact mx
        · rcases List.mem_cons.1 h with rfl | h
          exacts [my, h], fun h => by simp [h]⟩
      obtain ⟨i, h1, h2, h3, h4⟩ := S.word x mx
      obtain ⟨j, h5, h6, h7, h8⟩ := S.word y my
      have hij : i ≠ j := by
        rintro rfl
        exact hne (S.distinct mx my h1 h5)
      refine ⟨c.snap, .rest c.snap, i, j, .rest S.orderly, S.same hK, h1, h5, ?_⟩
      rw [Means.same hK]
      obtain ⟨hp, hL⟩ := S.readKnown h.asking (History.unpinned h.history) hu hx hy vx vy mx my h1 h5
      exact ⟨retold_read S.asked S.ties hij ⟨x, mx, h1⟩ ⟨y, my, h5⟩ h2 (S.constant _ (by simp)) hp q c3 hcmd, hL⟩
    · obtain ⟨g, W, i, j, P, S', hi, hj, hp, hL⟩ :=
        S.readTold h.asking (History.unpinned h.history) hu hx hy vx vy bx bY (by
          by_cases mx : x ∈ K
          · exact .inr fun my => hm ⟨mx, my⟩
          · exact .inl mx)
      have hij : i ≠ j := by
        rintro rfl
        exact hne (S'.distinct (by simp) (by simp) hi hj)
      exact ⟨g, W, i, j, P, S', hi, hj, retold_read S'.asked S'.ties hij ⟨x, by simp, hi⟩ ⟨y, by simp, hj⟩
        (S'.plain (by simp) hi).1 (S'.constant _ (by simp)) hp q c3 hcmd, hL⟩
  obtain ⟨g, W, i, j, P, S', hi, hj, hr, hL⟩ := main
  have mx : x ∈ x :: y :: K := by simp
  have my : y ∈ x :: y :: K := by simp
  cases answer_of hcmd he
  rcases hr with ⟨k, z, hk, hz, rfl, a⟩ | ⟨hno, hcy, rfl, a⟩ | ⟨hno, hcy, rfl⟩
  · obtain ⟨u, hu, hl⟩ := (S'.reduces x i mx hi k).1 hk
    cases S'.nameOf (S'.closed x u hu).2 hl hz
    exact .inr (.inl ⟨⟨z, hu, rfl⟩, h.stays P S' hcmd a he⟩)
  · exact .inr (.inr ⟨(S'.idle mx hi).1 hno, (S'.leads my mx hj hi).1 hcy, rfl, h.stays P S' hcmd a he⟩)
  · have no := (S'.idle mx hi).1 hno
    exact .inl ⟨⟨hne, no, fun hc => hcy ((S'.leads my mx hj hi).2 hc)⟩, rfl,
      h.tell hL hx hy vx vy bx bY hne no he⟩

/-- The answer that is found in the store. -/
theorem _root_.Zia.Speech.verdict {s : Snap} (S : Speech n B K L s) {i j : Nat} {v : Bool ⊕ (Nat × Nat)}
    (h : Judgement s i j v) {x y t : Str} (hx : x ∈ K) (hy : y ∈ K) (hi : StandsFor n s x i) (hj : StandsFor n s y j)
    (ht : JudgedText s (Means n K s) t v) : Verdict L x y t := by
  have diff : ∀ {x y : Str} {i j : Nat}, x ∈ K → y ∈ K → StandsFor n s x i → StandsFor n s y j → i ≠ j → x ≠ y := by
    rintro x _ i j _ _ hi hj hne rfl
    exact hne (hi.unique hj)
  have step : ∀ {x : Str} {i i' : Nat}, x ∈ K → StandsFor n s x i → Next s i i' →
      ∃ x', x' ∈ K ∧ StandsFor n s x' i' ∧ OneStep L x x' := by
    rintro x i i' hx hi (h | ⟨rfl, no⟩)
    · obtain ⟨u, hu, hl⟩ := (S.reduces x i hx hi i').1 h
      exact ⟨u, (S.closed x u hu).2, hl, .inl hu⟩
    · exact ⟨x, hx, hi, .inr ⟨rfl, (S.idle hx hi).1 no⟩⟩
  induction h generalizing x y with
  | same =>
    cases S.distinct hx hy hi hj
    cases ht
    exact .same
  | leads ne p =>
    cases ht
    exact .leads (diff hx hy hi hj ne) ((S.leads hx hy hi hj).1 p)
  | reverse ne p =>
    cases ht
    exact .reverse (diff hx hy hi hj ne) ((S.leads hy hx hj hi).1 p)
  | stuck ne ni nj =>
    obtain ⟨a, b, _, _, wa, wb, rfl⟩ := ht
    have ea := S.nameOf hx hi wa
    have eb := S.nameOf hy hj wb
    subst ea eb
    have e : ∀ a b, claimText a b = a ++ str% " -> " ++ b := by intro a b; simp [claimText, arrowText]
    rw [e]
    exact .stuck (diff hx hy hi hj ne) ((S.idle hx hi).1 ni) ((S.idle hy hj).1 nj)
  | moved ne p q m h1 h2 _ ih =>
    obtain ⟨x', hx', hi', sx⟩ := step hx hi h1
    obtain ⟨y', hy', hj', sy⟩ := step hy hj h2
    refine .moved (diff hx hy hi hj ne) (fun h => p ((S.leads hx hy hi hj).2 h))
      (fun h => q ((S.leads hy hx hj hi).2 h)) ?_ sx sy (ih hx' hy' hi' hj' ht)
    obtain ⟨k, hk | hk⟩ := m
    · obtain ⟨u, hu, _⟩ := (S.reduces x _ hx hi k).1 hk
      exact ⟨u, .inl hu⟩
    · obtain ⟨u, hu, _⟩ := (S.reduces y _ hy hj k).1 hk
      exact ⟨u, .inr hu⟩

/-- A question about a reduction. -/
theorem Talking.wonder (h : Talking n B K L c) {u x y out : Str} {c' : Ctx}
    (hu : u = wondering x y ∨ u = bareWondering x y) (hx : IsSymbol x) (hy : IsSymbol y)
    (vx : Syn.isVariableName x = false) (vy : Syn.isVariableName y = false) (mx : x ∈ K) (my : y ∈ K)
    (he : Context.execute n c u = .ok (out, c')) : Verdict L x y out ∧ Talking n B K L c' := by
  have S := h.speech
  obtain ⟨q, c3, hcmd⟩ := command_of he
  obtain ⟨i, h1, _⟩ := S.word x mx
  obtain ⟨j, h2, _⟩ := S.word y my
  have hd := (History.settled h.history).delta
  have hp : AsksWhether c.snap (Means n K c.snap) n u i j c := by
    rcases hu with rfl | rfl
    · exact asksWhether_wondering S.asked S.ties hx hy vx vy h.asking ⟨y, my, h2⟩
        (by rw [hd]; exact S.redWord) (by rw [hd]; exact h1) (by rw [hd]; exact h2)
    · exact asksWhether_bare S.asked S.ties hx hy vx vy h.asking ⟨x, mx, h1⟩ ⟨y, my, h2⟩
        ((Pends.rest S.orderly).ranked S.orderly S.ties.wide)
        (by rw [hd]; exact S.redWord) (by rw [hd]; exact h1) (by rw [hd]; exact h2)
  obtain ⟨a, t, rfl, v, hv, ht⟩ := wonder_read S.asked S.ties ⟨x, mx, h1⟩ ⟨y, my, h2⟩ hp q c3 hcmd
  cases answer_of hcmd he
  exact ⟨S.verdict hv mx my h1 h2 ht, h.stays (.rest S.orderly) S hcmd a he⟩

/-- A question about two words. -/
theorem Talking.pair (h : Talking n B K L c) {x y out : Str} {c' : Ctx} (hx : IsSymbol x) (hy : IsSymbol y)
    (vx : Syn.isVariableName x = false) (vy : Syn.isVariableName y = false) (mx : x ∈ K) (my : y ∈ K)
    (he : Context.execute n c (x ++ str% " " ++ y) = .ok (out, c')) :
    (∃ a b, EndsIn L x a ∧ EndsIn L y b ∧ out = a ++ str% " " ++ b) ∧ Talking n B K L c' := by
  have e : ∀ a b : Str, a ++ str% " " ++ b = coupleText a b := by intro a b; simp [coupleText]
  rw [e] at he
  have S := h.speech
  obtain ⟨q, c3, hcmd⟩ := command_of he
  obtain ⟨i, h1, _⟩ := S.word x mx
  obtain ⟨j, h2, _⟩ := S.word y my
  have hd := (History.settled h.history).delta
  obtain ⟨a, t, rfl, p, q, u, v, r1, r2, e1, e2, _, _, wu, wv, rfl⟩ :=
    couple_word S.asked S.ties hx hy vx vy h.asking ⟨x, mx, h1⟩ ⟨y, my, h2⟩ (by rw [hd]; exact h1)
      (by rw [hd]; exact h2) q c3 hcmd
  cases answer_of hcmd he
  exact ⟨⟨u, v, S.sound mx h1 ⟨p, r1, e1, wu⟩, S.sound my h2 ⟨q, r2, e2, wv⟩, (e u v).symm⟩,
    h.stays (.rest S.orderly) S hcmd a he⟩

/-- A question about the name of a word. -/
theorem Talking.name (h : Talking n B K L c) {x out : Str} {c' : Ctx} (hx : IsSymbol x)
    (vx : Syn.isVariableName x = false) (bx : ¬B x) (he : Context.execute n c (str% "label_of " ++ x) = .ok (out, c')) :
    out = quoted x ∧ Talking n B (x :: K) L c' := by
  have he : Context.execute n c (coupleText (str% "label_of") x) = .ok (out, c') := he
  obtain ⟨g, W, i, P, S, hi, hp⟩ := h.speech.readName h.asking (History.unpinned h.history) hx vx bx
  obtain ⟨q, c3, hcmd⟩ := command_of he
  have bf := S.orderly.built .label
  obtain ⟨a, rfl⟩ := name_read S.asked S.orderly ⟨x, by simp, hi⟩ (S.plain (by simp) hi).1 (S.constant _ (by simp))
    (built_simple bf) bf hp q c3 hcmd
  cases answer_of hcmd he
  exact ⟨rfl, h.stays P S hcmd a he⟩

/-- The question `x ->`. -/
theorem Talking.arrow (h : Talking n B K L c) {x out : Str} {c' : Ctx} (hx : IsSymbol x)
    (vx : Syn.isVariableName x = false) (bx : ¬B x) (he : Context.execute n c (x ++ str% " ->") = .ok (out, c')) :
    ((∃ z, (x, z) ∈ L) ∧ EndsIn L x out ∨ (∀ z, (x, z) ∉ L) ∧ out = x ++ str% " ->") ∧
      Talking n B (x :: K) L c' := by
  have e : x ++ str% " ->" = coupleText x (str% "->") := by simp [coupleText]
  rw [e] at he
  obtain ⟨g, W, i, P, S, hi, hp⟩ := h.speech.readArrow h.asking (History.unpinned h.history) hx vx bx
  have mx : x ∈ x :: K := by simp
  obtain ⟨q, c3, hcmd⟩ := command_of he
  obtain ⟨a, t, rfl, ht⟩ := asked_read S.asked S.ties ⟨x, mx, hi⟩ (S.plain mx hi).1 hp q c3 hcmd
  cases answer_of hcmd he
  refine ⟨?_, h.stays P S hcmd a he⟩
  rcases ht with ⟨⟨j, hj⟩, hn⟩ | ⟨no, rfl⟩
  · obtain ⟨z, hz, _⟩ := (S.reduces x i mx hi j).1 hj
    exact .inl ⟨⟨z, hz⟩, S.sound mx hi hn⟩
  · exact .inr ⟨(S.idle mx hi).1 no, e.symm⟩

theorem run_cons {c c1 c2 : Ctx} {s r : Str} {ss rs : List Str} (h1 : Context.execute n c s = .ok (r, c1))
    (h2 : Context.run n c1 ss = .ok (rs, c2)) : Context.run n c (s :: ss) = .ok (r :: rs, c2) := by
  rw [Context.run, h1]
  show (Context.run n c1 ss >>= _) = _
  rw [h2]
  rfl

/-- A command of a session. -/
theorem Talking.said {s : Say} {u r : Str} {c1 : Ctx} (h : Talking n B K L c)
    (hw : ∀ t ∈ s.words, IsSymbol t ∧ Syn.isVariableName t = false ∧ ¬B t)
    (hh : ∀ x y, s = .wonder x y ∨ s = .pair x y → x ∈ K ∧ y ∈ K) (hu : Say.Written s u)
    (h1 : Context.execute n c u = .ok (r, c1)) :
    ∃ L', Talking n B (s.words ++ K) L' c1 ∧ (s.Question → L' = L) ∧ ∀ rest outs, Talk L' rest outs → Talk L (s :: rest) (r :: outs) := by
  cases s with
  | tell x y =>
    obtain ⟨x1, x2, x3⟩ := hw x (by simp [Say.words])
    obtain ⟨y1, y2, y3⟩ := hw y (by simp [Say.words])
    have hu : TellsAs n u x y := by
      cases hu with
      | full => exact tellsAs_teaching x1 y1
      | tell => exact tellsAs_telling x1 y1
    by_cases hne : x = y
    · subst hne
      rcases h.itself hu x1 x2 x3 h1 with ⟨⟨z, hz⟩, rfl, h'⟩ | ⟨hz, rfl, h'⟩
      · exact ⟨_, h'.same (by simp [Say.words]), fun h => h.elim, fun _ _ => .itself hz⟩
      · exact ⟨_, h'.same (by simp [Say.words]), fun h => h.elim, fun _ _ => .idle hz⟩
    · rcases h.retell hu x1 y1 x2 y2 hne x3 y3 h1 with ⟨hal, rfl, h'⟩ | ⟨⟨z, hz, rfl⟩, h'⟩ | ⟨hno, hcy, rfl, h'⟩
      · exact ⟨_, h', fun h => h.elim, fun _ _ => .tell hal⟩
      · exact ⟨_, h', fun h => h.elim, fun _ _ => .existing hne hz⟩
      · exact ⟨_, h', fun h => h.elim, fun _ _ => .cyclic hne hno hcy⟩
  | forget x =>
    cases hu
    obtain ⟨x1, x2, x3⟩ := hw x (by simp [Say.words])
    rcases h.forget x1 x2 x3 h1 with ⟨⟨z, hz⟩, rfl, h'⟩ | ⟨hz, rfl, h'⟩
    · exact ⟨_, h', fun h => h.elim, fun _ _ => .forget hz⟩
    · exact ⟨_, h', fun h => h.elim, fun _ _ => .nothing hz⟩
  | ask x =>
    cases hu
    obtain ⟨x1, x2, x3⟩ := hw x (by simp [Say.words])
    obtain ⟨e, h'⟩ := h.ask x1 x2 x3 h1
    exact ⟨_, h', fun _ => rfl, fun _ _ => .ask e⟩
  | wonder x y =>
    obtain ⟨x1, x2, x3⟩ := hw x (by simp [Say.words])
    obtain ⟨y1, y2, y3⟩ := hw y (by simp [Say.words])
    obtain ⟨mx, my⟩ := hh x y (.inl rfl)
    have hu : u = wondering x y ∨ u = bareWondering x y := by
      cases hu with
      | full => exact .inl rfl
      | wonder => exact .inr rfl
    obtain ⟨e, h'⟩ := h.wonder hu x1 y1 x2 y2 mx my h1
    refine ⟨_, h'.same fun t => ⟨fun ht => ?_, fun ht => by simp [ht]⟩, fun _ => rfl, fun _ _ => .wonder e⟩
    simp only [Say.words, List.cons_append, List.nil_append, List.mem_cons] at ht
    rcases ht with rfl | rfl | ht
    exacts [mx, my, ht]
  | pair x y =>
    cases hu
    obtain ⟨x1, x2, x3⟩ := hw x (by simp [Say.words])
    obtain ⟨y1, y2, y3⟩ := hw y (by simp [Say.words])
    obtain ⟨mx, my⟩ := hh x y (.inr rfl)
    obtain ⟨⟨a, b, ha, hb, rfl⟩, h'⟩ := h.pair x1 y1 x2 y2 mx my h1
    refine ⟨_, h'.same fun t => ⟨fun ht => ?_, fun ht => by simp [ht]⟩, fun _ => rfl, fun _ _ => .pair ha hb⟩
    simp only [Say.words, List.cons_append, List.nil_append, List.mem_cons] at ht
    rcases ht with rfl | rfl | ht
    exacts [mx, my, ht]
  | name x =>
    cases hu
    obtain ⟨x1, x2, x3⟩ := hw x (by simp [Say.words])
    obtain ⟨rfl, h'⟩ := h.name x1 x2 x3 h1
    exact ⟨_, h', fun _ => rfl, fun _ _ => .name⟩
  | arrow x =>
    cases hu
    obtain ⟨x1, x2, x3⟩ := hw x (by simp [Say.words])
    obtain ⟨e, h'⟩ := h.arrow x1 x2 x3 h1
    rcases e with ⟨⟨z, hz⟩, e⟩ | ⟨no, rfl⟩
    · exact ⟨_, h', fun _ => rfl, fun _ _ => .arrow hz e⟩
    · exact ⟨_, h', fun _ => rfl, fun _ _ => .arrowIdle no⟩

/-- The cache may be emptied. -/
theorem Talking.clear (h : Talking n B K L c) : Talking n B K L { c with cache := .empty } :=
  ⟨.shared _ h.history, h.speech, ⟨h.asking.snap, h.asking.delta, h.asking.bound, .empty, .empty⟩⟩

theorem Clearing.of_run {us outs : List Str} {c' : Ctx} (h : Context.run n c us = .ok (outs, c')) :
    Clearing n c us outs c' := by
  induction us generalizing c outs with
  | nil => cases h; exact .nil
  | cons u us ih =>
    simp only [Context.run, Except.bind_eq_ok] at h
    obtain ⟨⟨r, c1⟩, h1, ⟨rs, c2⟩, h2, h3⟩ := h
    cases h3
    exact .cons h1 (.inl rfl) (ih h2)

/-- A session in which the cache may be emptied between commands. -/
theorem Talking.cleared {said : List Say} {us outs : List Str} {c' : Ctx} (h : Talking n B K L c)
    (hw : ∀ s ∈ said, ∀ t ∈ s.words, IsSymbol t ∧ Syn.isVariableName t = false ∧ ¬B t) (hh : Heard K said)
    (hs : Written said us) (he : Clearing n c us outs c') : Talk L said outs := by
  induction hs generalizing K L c outs with
  | nil => cases he; exact .nil
  | @cons s u said us hu _ ih =>
    cases he with
    | cons h1 hc h2 =>
      obtain ⟨L', h', _, t⟩ := h.said (hw s (by simp)) hh.1 hu h1
      refine t _ _ (ih ?_ (fun q hq => hw q (by simp [hq])) hh.2 h2)
      rcases hc with rfl | rfl
      exacts [h', h'.clear]

/-- A session. -/
theorem Talking.talk {said : List Say} {us outs : List Str} {c' : Ctx} (h : Talking n B K L c)
    (hw : ∀ s ∈ said, ∀ t ∈ s.words, IsSymbol t ∧ Syn.isVariableName t = false ∧ ¬B t) (hh : Heard K said)
    (hs : Written said us) (he : Context.run n c us = .ok (outs, c')) : Talk L said outs :=
  h.cleared hw hh hs (Clearing.of_run he)

end

/-! ## C58: a session about words is answered as its words say -/

set_option maxRecDepth 100000

/-- The compositions of a store. -/
def pairsOf (s : Snap) : List (Nat × Nat × Nat) :=
  s.concepts.zipIdx.filterMap fun p => p.1.composition.map (p.2, ·)

theorem mem_pairsOf {s : Snap} {k l r : Nat} : (k, l, r) ∈ pairsOf s ↔ ComposedOf s k l r := by
  unfold pairsOf ComposedOf
  simp only [List.mem_filterMap, Option.map_eq_some_iff]
  constructor
  · rintro ⟨⟨c, i⟩, h1, ⟨l', r'⟩, h2, e⟩
    cases e
    exact ⟨c, List.mem_zipIdx_iff_getElem?.1 h1, h2⟩
  · rintro ⟨c, h1, h2⟩
    exact ⟨(c, k), List.mem_zipIdx_iff_getElem?.2 h1, (l, r), h2, rfl⟩

/-- A test for concepts that match nothing else. -/
def fixed (s : Snap) (k : Nat) : Bool :=
  decide ((s.concepts[k]?).map (·.isAnonymous) = some false) && !(variableNamed s).contains k

/-- The facts about `->`, `assoc`, `true` and `false` hold of a new context. -/
theorem boot_wide [HashOrder] : Wide boot.snap := by
  have hbl : variableNamed boot.snap = [49, 55, 61] := by decide +kernel
  have hto : noneTo [49, 55, 61] boot.snap = true := by decide +kernel
  have hlab : IsBuiltIn boot.snap (builtin .label) .label := by
    obtain ⟨k, hk, e⟩ := ((History.concrete boot_calm).2 _ _).2
      (show Conc boot0.snap (builtin .label) .label from ⟨_, rfl, rfl⟩)
    exact ⟨k, hk, by simp [Concept.cct, e]⟩
  have hv : ∀ k, fixed boot.snap k = true → ¬MayVary boot.snap k := by
    rintro k h (⟨c, hk, e⟩ | hv)
    · simp [fixed, hk, e] at h
    · have := shown_mem hbl hto hv
      rw [← hbl] at this
      simp only [fixed, Bool.and_eq_true, Bool.not_eq_true'] at h
      rw [List.contains_iff_mem.2 this] at h
      cases h.2
  have word : ∀ {t u}, StandsFor 1 boot.snap u (builtin t) → Syn.isVariableName u = false →
      PlainWord boot.snap (builtin t) u := by
    intro t u hu hv
    obtain ⟨_, e, hn, _⟩ := lookup_named_partial (n := 1) boot_calm (by
      rw [(History.settled boot_calm).delta]; exact hu)
    cases e
    exact plain_of_check hn (by cases t <;> rfl) hv
  refine ⟨?_, fun t ht => hv _ ?_, fun g z hg => hv _ ?_, ?_, ?_, ?_, 77, 76, 5, mem_pairsOf.1 (by decide +kernel),
    mem_pairsOf.1 (by decide +kernel)⟩
  · intro p hp
    simp only [spoken, List.mem_cons, List.not_mem_nil, or_false] at hp
    rcases hp with rfl | rfl | rfl | rfl <;>
      exact word (lookup_of_check (by decide +kernel) hlab (by decide)) (by decide)
  · simp only [List.mem_cons, List.not_mem_nil, or_false] at ht
    rcases ht with rfl | rfl <;> decide +kernel
  · have : ∀ p ∈ pairsOf boot.snap, p.2.1 = builtin .reduction → fixed boot.snap p.1 = true := by decide +kernel
    exact this _ (mem_pairsOf.2 hg) rfl
  · intro g l r z hg
    have : ∀ p ∈ pairsOf boot.snap, ∀ q ∈ pairsOf boot.snap, q.1 = p.2.2 →
        q.2.1 ≠ builtin .reduction ∧ q.2.1 ≠ builtin .label := by decide +kernel
    exact ⟨fun hz => (this _ (mem_pairsOf.2 hg) _ (mem_pairsOf.2 hz) rfl).1 rfl,
      fun hz => (this _ (mem_pairsOf.2 hg) _ (mem_pairsOf.2 hz) rfl).2 rfl⟩
  · intro c r p d p1 p2 h1 h2 h3
    have : ∀ p ∈ pairsOf boot.snap, p.2.1 = builtin .implication → ∀ q ∈ pairsOf boot.snap, q.1 = p.2.2 →
        ∀ t ∈ pairsOf boot.snap, t.1 ≠ q.2.1 := by decide +kernel
    exact this _ (mem_pairsOf.2 h1) rfl _ (mem_pairsOf.2 h2) rfl _ (mem_pairsOf.2 h3) rfl
  · intro t ht k d hk
    have : ∀ p ∈ pairsOf boot.snap, p.2.1 = builtin .tru ∨ p.2.1 = builtin .fls →
        (∃ q ∈ pairsOf boot.snap, q.1 = p.2.2 ∧ q.2.1 ≠ builtin .reduction ∧ fixed boot.snap q.2.1 = true) ∧
        ∀ c ∈ boot.snap.concepts, c.reduction ≠ some p.2.2 := by decide +kernel
    obtain ⟨⟨⟨q, l, r⟩, h1, rfl, h3, h4⟩, h5⟩ := this _ (mem_pairsOf.2 hk) (by
      simp only [List.mem_cons, List.not_mem_nil, or_false] at ht
      rcases ht with rfl | rfl
      exacts [.inl rfl, .inr rfl])
    exact ⟨⟨l, r, mem_pairsOf.1 h1, h3, hv _ h4⟩, fun q ⟨c, hc, e⟩ => h5 c (List.mem_of_getElem? hc) e⟩

theorem boot_talking [HashOrder] {n : Nat} (hn : 1 ≤ n) :
    Talking n (fun t => ∃ k, IsString boot.snap k t) [] [] boot := by
  have hbl : variableNamed boot.snap = [49, 55, 61] := by decide +kernel
  have hto : noneTo [49, 55, 61] boot.snap = true := by decide +kernel
  have hq : NoBlanketRule boot.snap := noBlanketRule_sound hbl (by decide +kernel)
  have hlab : IsBuiltIn boot.snap (builtin .label) .label := by
    obtain ⟨k, hk, e⟩ := ((History.concrete boot_calm).2 _ _).2
      (show Conc boot0.snap (builtin .label) .label from ⟨_, rfl, rfl⟩)
    exact ⟨k, hk, by simp [Concept.cct, e]⟩
  have hse := History.settled boot_calm
  have hv : ∀ k, (boot.snap.concepts[k]?).map (·.isAnonymous) = some false → k ∉ [49, 55, 61] →
      ¬MayVary boot.snap k := by
    rintro k h1 h2 (⟨c, hk, e⟩ | hv)
    · rw [hk] at h1
      simp [e] at h1
    · exact absurd (shown_mem hbl hto hv) h2
  have hcomp : ∀ k l r, ComposedOf boot.snap k l r →
      l ≠ builtin .associativity ∧ (r = builtin .reduction → l = builtin .label) := by
    rintro k l r ⟨c, hk, hp⟩
    have : boot.snap.concepts.all (fun c => match c.composition with
      | some (l, r) => decide (l ≠ builtin .associativity ∧ (r = builtin .reduction → l = builtin .label))
      | none => true) = true := by decide +kernel
    have := List.all_eq_true.1 this c (List.mem_of_getElem? hk)
    rw [hp] at this
    exact of_decide_eq_true this
  refine ⟨boot_calm, ⟨hn, orderly_of_history boot_calm, hq, lookup_of_check (by decide +kernel) hlab hn,
    lookup_of_check (by decide +kernel) hlab hn, lookup_of_check (by decide +kernel) hlab hn,
    lookup_of_check (by decide +kernel) hlab hn, (fun t ht => by
      simp only [List.mem_cons, List.not_mem_nil, or_false] at ht
      rcases ht with rfl | rfl | rfl | rfl <;> exact hv _ (by decide +kernel) (by decide)),
    (fun k r hk => (hcomp k _ r hk).1 rfl), (fun k l hk => (hcomp k l _ hk).2 rfl),
    (fun _ _ h => by cases h), (fun k t hk => .inl ⟨k, hk⟩), (fun _ h => by cases h), (fun _ _ h => by cases h),
    boot_wide, (fun _ _ h => by cases h)⟩,
    ⟨rfl, hse.delta, hse.bound, .empty, .empty⟩⟩

/-- A session may be written with all brackets. -/
theorem written_full (said : List Say) : Written said (said.map Say.text) := by
  induction said with
  | nil => exact .nil
  | cons s said ih => exact .cons (.full s) ih

/-- C58: in a new context, let a session consist of any number of commands of the form `let (x (-> y))`, of
commands `forget x` and `label_of x`, of questions `x` and `x ->`, and of questions `x (-> y)` and `x y` about words
mentioned before, in any order, about words that are not part of the language. Instead of `let (x (-> y))` and `x (-> y)`
one may write `let (x -> y)` and `x -> y`. Then every question `x` is answered with the word to which the pairs told and
not forgotten before it lead, `forget x` is rejected exactly if there is nothing to forget, `let (x (-> y))` is rejected
exactly if there is a pair for `x` or `y` leads to `x`, `let (x (-> x))` acts as `forget x`, questions `x (-> y)` are
answered as the pairs say (`Verdict`), questions `x y` with the answers to `x` and to `y`, questions `x ->` with the answer
to `x` if there is a pair for `x` and with themselves if there is none, and `label_of x` with `x` in quotes. -/
theorem words_session [HashOrder] {n : Nat} (hn : 1 ≤ n) {said : List Say} {us outs : List Str} {c' : Ctx}
    (hw : ∀ s ∈ said, ∀ t ∈ s.words, IsSymbol t ∧ Syn.isVariableName t = false ∧ NewWord boot.snap t)
    (hh : Heard [] said) (hs : Written said us) (he : Context.run n boot us = .ok (outs, c')) : Talk [] said outs :=
  (boot_talking hn).talk (fun s hs t ht => by
    obtain ⟨h1, h2, h3⟩ := hw s hs t ht
    exact ⟨h1, h2, fun ⟨k, hk⟩ => h3 k hk⟩) hh hs he

/-- C30: the part of the claim that holds for sessions about words. Let a session be as in `words_session`, and let the
cache be emptied after any of its commands. Then it is answered in the same way. Missing: other sessions; the claim is
false of them in general (`cache_changes_answer`). -/
theorem words_session_cleared_partial [HashOrder] {n : Nat} (hn : 1 ≤ n) {said : List Say} {us outs : List Str} {c' : Ctx}
    (hw : ∀ s ∈ said, ∀ t ∈ s.words, IsSymbol t ∧ Syn.isVariableName t = false ∧ NewWord boot.snap t)
    (hh : Heard [] said) (hs : Written said us) (he : Clearing n boot us outs c') : Talk [] said outs :=
  (boot_talking hn).cleared (fun s hs t ht => by
    obtain ⟨h1, h2, h3⟩ := hw s hs t ht
    exact ⟨h1, h2, fun ⟨k, hk⟩ => h3 k hk⟩) hh hs he

/-- C58: the answers that `words_session` describes exist for every session and are determined by it. -/
theorem words_session_answers (said : List Say) : ∃ outs, Talk [] said outs ∧ ∀ outs', Talk [] said outs' → outs' = outs := by
  obtain ⟨outs, h⟩ := Talk.exists Facts.sound_nil said
  exact ⟨outs, h, fun _ h' => Talk.unique Facts.sound_nil h' h⟩

/-- C44: the part of the claim that holds for sessions about words. Let a session be as in `words_session`. Then its
answers are the same whatever the order in which hash tables are visited (and whatever the bounds on recursion, and which
brackets are left out). What is missing: other sessions; the claim is false of them in general
(`answers_depend_on_order`). -/
theorem words_session_any_order_partial (order order' : HashOrder) {n m : Nat} (hn : 1 ≤ n) (hm : 1 ≤ m) {said : List Say}
    {us us' outs outs' : List Str} {c c' : Ctx}
    (hw : ∀ s ∈ said, ∀ t ∈ s.words, IsSymbol t ∧ Syn.isVariableName t = false ∧ NewWord boot.snap t)
    (hh : Heard [] said) (hs : Written said us) (hs' : Written said us')
    (he : @Context.run order n boot us = .ok (outs, c)) (he' : @Context.run order' m boot us' = .ok (outs', c')) :
    outs = outs' :=
  Talk.unique Facts.sound_nil (@words_session order _ hn _ _ _ _ hw hh hs he)
    (@words_session order' _ hm _ _ _ _ hw hh hs' he')

/-- The session `let (a (-> b))`, `a` runs with either order. -/
example : ∃ outs c outs' c',
    @Context.run .insertion 60 boot ([Say.tell (str% "a") (str% "b"), .ask (str% "a")].map Say.text) = .ok (outs, c) ∧
    @Context.run Witness.reversed 60 boot ([Say.tell (str% "a") (str% "b"), .ask (str% "a")].map Say.text) =
      .ok (outs', c') ∧ outs = outs' := by
  have h1 : (@Context.run .insertion 60 boot
      ([Say.tell (str% "a") (str% "b"), .ask (str% "a")].map Say.text)).map (·.1) = .ok [[], str% "b"] := by decide +kernel
  have h2 : (@Context.run Witness.reversed 60 boot
      ([Say.tell (str% "a") (str% "b"), .ask (str% "a")].map Say.text)).map (·.1) = .ok [[], str% "b"] := by decide +kernel
  cases e1 : @Context.run .insertion 60 boot ([Say.tell (str% "a") (str% "b"), .ask (str% "a")].map Say.text) with
  | error e => rw [e1] at h1; cases h1
  | ok p =>
    cases e2 : @Context.run Witness.reversed 60 boot
        ([Say.tell (str% "a") (str% "b"), .ask (str% "a")].map Say.text) with
    | error e => rw [e2] at h2; cases h2
    | ok q =>
      refine ⟨p.1, p.2, q.1, q.2, rfl, rfl, ?_⟩
      refine words_session_any_order_partial .insertion Witness.reversed (n := 60) (m := 60) (by decide) (by decide)
        (fun s hs t ht => ?_) (by simp [Heard]) (written_full _) (written_full _) e1 e2
      have a : NewWord boot.snap (str% "a") := newWord_of_check (by decide +kernel)
      have b : NewWord boot.snap (str% "b") := newWord_of_check (by decide +kernel)
      have ok : t = str% "a" ∨ t = str% "b" := by
        simp only [List.mem_cons, List.not_mem_nil, or_false] at hs
        rcases hs with rfl | rfl <;> simp only [Say.words, List.mem_cons, List.not_mem_nil, or_false] at ht
        · exact ht
        · exact .inl ht
      rcases ok with rfl | rfl
      exacts [⟨⟨by decide, by simp [SymbolChar]; decide⟩, by decide, a⟩,
        ⟨⟨by decide, by simp [SymbolChar]; decide⟩, by decide, b⟩]

section

open Insertion

/-- The session `let (a (-> b))`, `let (b (-> c))`, `a`: it is answered with `c`. -/
example : Talk [] [.tell (str% "a") (str% "b"), .tell (str% "b") (str% "c"), .ask (str% "a")] [[], [], str% "c"] := by
  have h3 : (Context.execute 60 Witness.taught2 (str% "a")).map (·.1) = .ok (str% "c") := by decide +kernel
  cases h : Context.execute 60 Witness.taught2 (str% "a") with
  | error e => rw [h] at h3; cases h3
  | ok p =>
    obtain ⟨r, c⟩ := p
    rw [h] at h3
    cases h3
    have he : Context.run 60 boot ([Say.tell (str% "a") (str% "b"), .tell (str% "b") (str% "c"),
        .ask (str% "a")].map Say.text) = .ok ([[], [], str% "c"], c) := by
      have t1 : (Say.tell (str% "a") (str% "b")).text = str% "let (a (-> b))" := by decide
      have t2 : (Say.tell (str% "b") (str% "c")).text = str% "let (b (-> c))" := by decide
      have t3 : (Say.ask (str% "a")).text = str% "a" := by decide
      simp only [List.map_cons, List.map_nil, t1, t2, t3]
      exact run_cons Witness.taught1_eq (run_cons Witness.taught2_eq (run_cons h rfl))
    have ok : ∀ t ∈ [str% "a", str% "b", str% "c"], IsSymbol t ∧ Syn.isVariableName t = false ∧ NewWord boot.snap t := by
      have a : NewWord boot.snap (str% "a") := newWord_of_check (by decide +kernel)
      have b : NewWord boot.snap (str% "b") := newWord_of_check (by decide +kernel)
      have c : NewWord boot.snap (str% "c") := newWord_of_check (by decide +kernel)
      intro t ht
      simp only [List.mem_cons, List.not_mem_nil, or_false] at ht
      rcases ht with rfl | rfl | rfl
      exacts [⟨⟨by decide, by simp [SymbolChar]; decide⟩, by decide, a⟩,
        ⟨⟨by decide, by simp [SymbolChar]; decide⟩, by decide, b⟩,
        ⟨⟨by decide, by simp [SymbolChar]; decide⟩, by decide, c⟩]
    refine words_session (n := 60) (by decide) (fun s hs t ht => ok t ?_) (by simp [Heard]) (written_full _) he
    simp only [List.mem_cons, List.not_mem_nil, or_false] at hs
    rcases hs with rfl | rfl | rfl <;>
      simp only [Say.words, List.mem_cons, List.not_mem_nil, or_false] at ht ⊢
    · exact ht.imp_right .inl
    · exact .inr ht
    · exact .inl ht

/-- The session `let (a (-> b))`, `a` may be run with the cache emptied after the first command: it is answered with
`b`. -/
example : ∃ c, Clearing 60 boot ([Say.tell (str% "a") (str% "b"), .ask (str% "a")].map Say.text) [[], str% "b"] c := by
  have h : (Context.execute 60 { Witness.taught1 with cache := .empty } (str% "a")).map (·.1) = .ok (str% "b") := by
    decide +kernel
  match e : Context.execute 60 { Witness.taught1 with cache := .empty } (str% "a"), h with
  | .ok (r, c), h =>
    cases h
    have t1 : (Say.tell (str% "a") (str% "b")).text = str% "let (a (-> b))" := by decide
    simp only [List.map_cons, List.map_nil, t1]
    exact ⟨c, .cons Witness.taught1_eq (.inr rfl) (.cons e (.inl rfl) .nil)⟩

/-- The session `let (a (-> b))`, `forget a`, `forget a`, `a`: the last is answered with `a` again. -/
example : Talk [] [.tell (str% "a") (str% "b"), .forget (str% "a"), .forget (str% "a"), .ask (str% "a")]
    [[], [], str% "That reduction rule for a already exists.", str% "a"] := by
  have h3 : (Context.execute 60 Witness.forgot3 (str% "a")).map (·.1) = .ok (str% "a") := by decide +kernel
  cases h : Context.execute 60 Witness.forgot3 (str% "a") with
  | error e => rw [h] at h3; cases h3
  | ok p =>
    obtain ⟨r, c⟩ := p
    rw [h] at h3
    cases h3
    have he : Context.run 60 boot ([Say.tell (str% "a") (str% "b"), .forget (str% "a"), .forget (str% "a"),
        .ask (str% "a")].map Say.text) =
        .ok ([[], [], str% "That reduction rule for a already exists.", str% "a"], c) := by
      have t1 : (Say.tell (str% "a") (str% "b")).text = str% "let (a (-> b))" := by decide
      have t2 : (Say.forget (str% "a")).text = str% "forget a" := by decide
      have t3 : (Say.ask (str% "a")).text = str% "a" := by decide
      simp only [List.map_cons, List.map_nil, t1, t2, t3]
      exact run_cons Witness.taught1_eq (run_cons Witness.forgot2_eq (run_cons Witness.forgot3_eq (run_cons h rfl)))
    have ok : ∀ t ∈ [str% "a", str% "b"], IsSymbol t ∧ Syn.isVariableName t = false ∧ NewWord boot.snap t := by
      have a : NewWord boot.snap (str% "a") := newWord_of_check (by decide +kernel)
      have b : NewWord boot.snap (str% "b") := newWord_of_check (by decide +kernel)
      intro t ht
      simp only [List.mem_cons, List.not_mem_nil, or_false] at ht
      rcases ht with rfl | rfl
      exacts [⟨⟨by decide, by simp [SymbolChar]; decide⟩, by decide, a⟩,
        ⟨⟨by decide, by simp [SymbolChar]; decide⟩, by decide, b⟩]
    refine words_session (n := 60) (by decide) (fun s hs t ht => ok t ?_) (by simp [Heard]) (written_full _) he
    simp only [List.mem_cons, List.not_mem_nil, or_false] at hs
    rcases hs with rfl | rfl | rfl | rfl <;>
      simp only [Say.words, List.mem_cons, List.not_mem_nil, or_false] at ht ⊢
    · exact ht
    all_goals exact .inl ht

/-- The session `let (a (-> b))`, `let (b (-> a))`, `let (a (-> b))`, `a`: the second and the third are rejected. -/
example : Talk [] [.tell (str% "a") (str% "b"), .tell (str% "b") (str% "a"), .tell (str% "a") (str% "b"),
      .ask (str% "a")]
    [[], str% "Cannot allow a chain of reduction rules to loop.", str% "a already reduces to b", str% "b"] := by
  have h3 : (Context.run 60 Witness.taught1 [str% "let (b (-> a))", str% "let (a (-> b))", str% "a"]).map (·.1) =
      .ok [str% "Cannot allow a chain of reduction rules to loop.", str% "a already reduces to b", str% "b"] := by
    decide +kernel
  cases h : Context.run 60 Witness.taught1 [str% "let (b (-> a))", str% "let (a (-> b))", str% "a"] with
  | error e => rw [h] at h3; cases h3
  | ok p =>
    obtain ⟨r, c⟩ := p
    rw [h] at h3
    cases h3
    have he : Context.run 60 boot ([Say.tell (str% "a") (str% "b"), .tell (str% "b") (str% "a"),
        .tell (str% "a") (str% "b"), .ask (str% "a")].map Say.text) =
        .ok ([[], str% "Cannot allow a chain of reduction rules to loop.", str% "a already reduces to b", str% "b"],
          c) := by
      have t1 : (Say.tell (str% "a") (str% "b")).text = str% "let (a (-> b))" := by decide
      have t2 : (Say.tell (str% "b") (str% "a")).text = str% "let (b (-> a))" := by decide
      have t3 : (Say.ask (str% "a")).text = str% "a" := by decide
      simp only [List.map_cons, List.map_nil, t1, t2, t3]
      exact run_cons Witness.taught1_eq h
    have ok : ∀ t ∈ [str% "a", str% "b"], IsSymbol t ∧ Syn.isVariableName t = false ∧ NewWord boot.snap t := by
      have a : NewWord boot.snap (str% "a") := newWord_of_check (by decide +kernel)
      have b : NewWord boot.snap (str% "b") := newWord_of_check (by decide +kernel)
      intro t ht
      simp only [List.mem_cons, List.not_mem_nil, or_false] at ht
      rcases ht with rfl | rfl
      exacts [⟨⟨by decide, by simp [SymbolChar]; decide⟩, by decide, a⟩,
        ⟨⟨by decide, by simp [SymbolChar]; decide⟩, by decide, b⟩]
    refine words_session (n := 60) (by decide) (fun s hs t ht => ok t ?_) (by simp [Heard]) (written_full _) he
    simp only [List.mem_cons, List.not_mem_nil, or_false] at hs
    rcases hs with rfl | rfl | rfl | rfl <;>
      simp only [Say.words, List.mem_cons, List.not_mem_nil, or_false] at ht ⊢
    · exact ht
    · exact ht.symm
    · exact ht
    · exact .inl ht

/-- The session `label_of a`, `let (a (-> b))`, `b a`, `label_of a`: the reduction does not change the name. -/
example : Talk [] [.name (str% "a"), .tell (str% "a") (str% "b"), .pair (str% "b") (str% "a"), .name (str% "a")]
    [str% "'a'", [], str% "b b", str% "'a'"] := by
  have h3 : (Context.run 60 boot ([Say.name (str% "a"), .tell (str% "a") (str% "b"), .pair (str% "b") (str% "a"),
      .name (str% "a")].map Say.text)).map (·.1) = .ok [str% "'a'", [], str% "b b", str% "'a'"] := by decide +kernel
  cases h : Context.run 60 boot ([Say.name (str% "a"), .tell (str% "a") (str% "b"), .pair (str% "b") (str% "a"),
      .name (str% "a")].map Say.text) with
  | error e => rw [h] at h3; cases h3
  | ok p =>
    obtain ⟨r, c⟩ := p
    rw [h] at h3
    cases h3
    have ok : ∀ t ∈ [str% "a", str% "b"], IsSymbol t ∧ Syn.isVariableName t = false ∧ NewWord boot.snap t := by
      have a : NewWord boot.snap (str% "a") := newWord_of_check (by decide +kernel)
      have b : NewWord boot.snap (str% "b") := newWord_of_check (by decide +kernel)
      intro t ht
      simp only [List.mem_cons, List.not_mem_nil, or_false] at ht
      rcases ht with rfl | rfl
      exacts [⟨⟨by decide, by simp [SymbolChar]; decide⟩, by decide, a⟩,
        ⟨⟨by decide, by simp [SymbolChar]; decide⟩, by decide, b⟩]
    refine words_session (n := 60) (by decide) (fun s hs t ht => ok t ?_) (by simp [Heard, Say.words]) (written_full _) h
    simp only [List.mem_cons, List.not_mem_nil, or_false] at hs
    rcases hs with rfl | rfl | rfl | rfl <;>
      simp only [Say.words, List.mem_cons, List.not_mem_nil, or_false] at ht ⊢
    · exact .inl ht
    · exact ht
    · exact ht.symm
    · exact .inl ht

/-- The session `let (a (-> b))`, `let (b (-> c))`, `a ->`, `c ->`, `let (c (-> d))`, `c ->`. -/
example : Talk [] [.tell (str% "a") (str% "b"), .tell (str% "b") (str% "c"), .arrow (str% "a"), .arrow (str% "c"),
      .tell (str% "c") (str% "d"), .arrow (str% "c")]
    [[], [], str% "c", str% "c ->", [], str% "d"] := by
  have h3 : (Context.run 60 boot ([Say.tell (str% "a") (str% "b"), .tell (str% "b") (str% "c"), .arrow (str% "a"),
      .arrow (str% "c"), .tell (str% "c") (str% "d"), .arrow (str% "c")].map Say.text)).map (·.1) =
      .ok [[], [], str% "c", str% "c ->", [], str% "d"] := by decide +kernel
  cases h : Context.run 60 boot ([Say.tell (str% "a") (str% "b"), .tell (str% "b") (str% "c"), .arrow (str% "a"),
      .arrow (str% "c"), .tell (str% "c") (str% "d"), .arrow (str% "c")].map Say.text) with
  | error e => rw [h] at h3; cases h3
  | ok p =>
    obtain ⟨r, c⟩ := p
    rw [h] at h3
    cases h3
    have ok : ∀ t ∈ [str% "a", str% "b", str% "c", str% "d"],
        IsSymbol t ∧ Syn.isVariableName t = false ∧ NewWord boot.snap t := by
      have a : NewWord boot.snap (str% "a") := newWord_of_check (by decide +kernel)
      have b : NewWord boot.snap (str% "b") := newWord_of_check (by decide +kernel)
      have c : NewWord boot.snap (str% "c") := newWord_of_check (by decide +kernel)
      have d : NewWord boot.snap (str% "d") := newWord_of_check (by decide +kernel)
      intro t ht
      simp only [List.mem_cons, List.not_mem_nil, or_false] at ht
      rcases ht with rfl | rfl | rfl | rfl
      exacts [⟨⟨by decide, by simp [SymbolChar]; decide⟩, by decide, a⟩,
        ⟨⟨by decide, by simp [SymbolChar]; decide⟩, by decide, b⟩,
        ⟨⟨by decide, by simp [SymbolChar]; decide⟩, by decide, c⟩,
        ⟨⟨by decide, by simp [SymbolChar]; decide⟩, by decide, d⟩]
    refine words_session (n := 60) (by decide) (fun s hs t ht => ok t ?_) (by simp [Heard, Say.words]) (written_full _) h
    simp only [List.mem_cons, List.not_mem_nil, or_false] at hs
    rcases hs with rfl | rfl | rfl | rfl | rfl | rfl <;>
      simp only [Say.words, List.mem_cons, List.not_mem_nil, or_false] at ht ⊢
    · exact ht.imp_right .inl
    · exact .inr (ht.imp_right .inl)
    · exact .inl ht
    · exact .inr (.inr (.inl ht))
    · exact .inr (.inr ht)
    · exact .inr (.inr (.inl ht))

/-- The session `a`, `forget b`, `let (c (-> c))` about words never mentioned before. -/
example : Talk [] [.ask (str% "a"), .forget (str% "b"), .tell (str% "c") (str% "c")]
    [str% "a", str% "That reduction rule for b already exists.", str% "That reduction rule for c already exists."] := by
  have h3 : (Context.run 60 boot ([Say.ask (str% "a"), .forget (str% "b"), .tell (str% "c") (str% "c")].map
      Say.text)).map (·.1) = .ok [str% "a", str% "That reduction rule for b already exists.",
        str% "That reduction rule for c already exists."] := by decide +kernel
  cases h : Context.run 60 boot ([Say.ask (str% "a"), .forget (str% "b"), .tell (str% "c") (str% "c")].map Say.text) with
  | error e => rw [h] at h3; cases h3
  | ok p =>
    obtain ⟨r, c⟩ := p
    rw [h] at h3
    cases h3
    have ok : ∀ t ∈ [str% "a", str% "b", str% "c"], IsSymbol t ∧ Syn.isVariableName t = false ∧ NewWord boot.snap t := by
      have a : NewWord boot.snap (str% "a") := newWord_of_check (by decide +kernel)
      have b : NewWord boot.snap (str% "b") := newWord_of_check (by decide +kernel)
      have c : NewWord boot.snap (str% "c") := newWord_of_check (by decide +kernel)
      intro t ht
      simp only [List.mem_cons, List.not_mem_nil, or_false] at ht
      rcases ht with rfl | rfl | rfl
      exacts [⟨⟨by decide, by simp [SymbolChar]; decide⟩, by decide, a⟩,
        ⟨⟨by decide, by simp [SymbolChar]; decide⟩, by decide, b⟩,
        ⟨⟨by decide, by simp [SymbolChar]; decide⟩, by decide, c⟩]
    refine words_session (n := 60) (by decide) (fun s hs t ht => ok t ?_) (by simp [Heard]) (written_full _) h
    simp only [List.mem_cons, List.not_mem_nil, or_false] at hs
    rcases hs with rfl | rfl | rfl <;>
      simp only [Say.words, List.mem_cons, List.not_mem_nil, or_false] at ht ⊢
    · exact .inl ht
    · exact .inr (.inl ht)
    · exact .inr (.inr (or_self_iff.1 ht))

/-- The session `let (a -> b)`, `let (b (-> c))`, `a -> c`, `c -> a`, `let (c -> a)`, `let (b -> b)`, `a`. -/
example : Talk [] [.tell (str% "a") (str% "b"), .tell (str% "b") (str% "c"), .wonder (str% "a") (str% "c"),
      .wonder (str% "c") (str% "a"), .tell (str% "c") (str% "a"), .tell (str% "b") (str% "b"), .ask (str% "a")]
    [[], [], str% "true", str% "false", str% "Cannot allow a chain of reduction rules to loop.", [], str% "b"] := by
  have h3 : (Context.run 60 boot [str% "let (a -> b)", str% "let (b (-> c))", str% "a -> c", str% "c -> a",
      str% "let (c -> a)", str% "let (b -> b)", str% "a"]).map (·.1) =
      .ok [[], [], str% "true", str% "false", str% "Cannot allow a chain of reduction rules to loop.", [], str% "b"] := by
    decide +kernel
  cases h : Context.run 60 boot [str% "let (a -> b)", str% "let (b (-> c))", str% "a -> c", str% "c -> a",
      str% "let (c -> a)", str% "let (b -> b)", str% "a"] with
  | error e => rw [h] at h3; cases h3
  | ok p =>
    obtain ⟨r, c⟩ := p
    rw [h] at h3
    cases h3
    have ok : ∀ t ∈ [str% "a", str% "b", str% "c"], IsSymbol t ∧ Syn.isVariableName t = false ∧ NewWord boot.snap t := by
      have a : NewWord boot.snap (str% "a") := newWord_of_check (by decide +kernel)
      have b : NewWord boot.snap (str% "b") := newWord_of_check (by decide +kernel)
      have c : NewWord boot.snap (str% "c") := newWord_of_check (by decide +kernel)
      intro t ht
      simp only [List.mem_cons, List.not_mem_nil, or_false] at ht
      rcases ht with rfl | rfl | rfl
      exacts [⟨⟨by decide, by simp [SymbolChar]; decide⟩, by decide, a⟩,
        ⟨⟨by decide, by simp [SymbolChar]; decide⟩, by decide, b⟩,
        ⟨⟨by decide, by simp [SymbolChar]; decide⟩, by decide, c⟩]
    refine words_session (n := 60) (by decide) (fun s hs t ht => ok t ?_) (by simp [Heard, Say.words])
      (.cons (.tell (str% "a") (str% "b")) (.cons (.full _) (.cons (.wonder (str% "a") (str% "c"))
        (.cons (.wonder (str% "c") (str% "a")) (.cons (.tell (str% "c") (str% "a"))
          (.cons (.tell (str% "b") (str% "b")) (.cons (.full _) .nil))))))) h
    simp only [List.mem_cons, List.not_mem_nil, or_false] at hs
    rcases hs with rfl | rfl | rfl | rfl | rfl | rfl | rfl <;>
      simp only [Say.words, List.mem_cons, List.not_mem_nil, or_false] at ht ⊢ <;>
      first | (rcases ht with rfl | rfl <;> simp) | (rcases ht with rfl; simp)

end

end Zia.Props

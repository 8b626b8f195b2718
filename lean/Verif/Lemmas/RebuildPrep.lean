import Verif.Lemmas.RebuildFind
import Verif.Lemmas.RebuildJoin
import Verif.Props.Tree
/-!
# The prepared lexer
-/
set_option linter.unusedSectionVars false
namespace Parce.RB
variable {α L A ρ : Type}
variable [DecidableEq α] [DecidableEq L] [DecidableEq A]

/-! ### Restarting at an event -/

theorem ends_after {lang : Lang α L A ρ} {t : List α} {n j : Nat} {s s' : LState L ρ} {E X : List (Event α L A)}
    (h : Ends lang t n s E) (h' : lexRun lang t j s = (X, some s')) :
    ∃ Z k, E = X ++ Z ∧ n = j + k ∧ Ends lang t k s' Z := by
  have hj : j ≤ n := by
    by_cases hj : j ≤ n
    · exact hj
    · have := h.mono (m := j) (by omega)
      unfold Ends at this
      rw [h'] at this
      simp at this
  have h2 := lexRun_add lang t j (n - j) s s' (by rw [h'])
  rw [h'] at h2
  simp only at h2
  rw [show j + (n - j) = n by omega] at h2
  unfold Ends at h
  rw [h] at h2
  simp only [Prod.mk.injEq] at h2
  refine ⟨_, n - j, h2.1, by omega, ?_⟩
  unfold Ends
  rw [h2.2]

theorem enters_last (ls : List L) : ∀ (b : BState α L A) (l : L), ls.getLast? = some l →
    (ls.foldl BState.enter b).cur = ⟨l, []⟩ := by
  rcases List.eq_nil_or_concat ls with rfl | ⟨ls, x, rfl⟩
  · intro b l h; simp at h
  · intro b l h
    simp only [List.concat_eq_append, List.getLast?_append, List.getLast?_singleton, Option.some_or, Option.some.injEq] at h
    simp [BState.enter, h]

/-- The lexer can be restarted at an event if its tokens are not the first ones in a context that
    is made by a consuming lexicon. -/
theorem fresh_from {lang : Lang α L A ρ} (hl : ∀ l, LexOK (lang.ld l)) (hlm : ∀ l, Leftmost (lang.ld l))
    (hat : ExpandsAtStart lang) {t : List α} {n : Nat} {rl : L} {X : List (Event α L A)} {e : Event α L A}
    {Z : List (Event α L A)} (h : Ends lang t n (LState.start [rl] 0) (X ++ e :: Z))
    (hc : (before rl X e).cur.kids ≠ [] ∨ lang.consume (before rl X e).cur.lex = false)
    {lx : Lexeme α A} {ls : List (Lexeme α A)} (hlx : e.lexemes = lx :: ls) :
    Ends lang t (n + 1) (LState.start (before rl X e).lexs lx.pos) (⟨none, e.lexemes⟩ :: Z) ∧
    ∃ k, Emits lang t (before rl X e).lexs lx.pos e.lexemes k Z := by
  obtain ⟨j, s, s', k, hn, hj, hs, hk⟩ := ends_split h
  have hi := Inv.run hl hlm j _ _ _ (Inv.start (stack := [rl]) (by simp) (Nat.zero_le t.length)) hj
  have hpl : Plainly lang e := by
    intro tg l htg hlast
    have hb : (before rl X e).cur = ⟨l, []⟩ := by
      simp only [before, htg, BState.target]
      exact enters_last _ _ _ hlast
    rw [hb] at hc
    simpa using hc
  obtain ⟨h1, h2⟩ := restart hl hlm hat hi hs hpl hk
  have hst := (lexRun_stack lang t j _ [rl] (start_inv [rl] 0 (by simp)))
  rw [hj] at hst
  have hst2 := hst.2 s rfl
  have hk := (lexRun_stack lang t n _ [rl] (start_inv [rl] 0 (by simp))).1
  unfold Ends at h
  rw [h] at hk
  have hlex := (before_lexs hk).2
  rw [h1, get_eff, ← hst2.1] at hlex
  rw [hlex]
  exact ⟨(h2 lx ls hlx).ends.mono (by omega), _, h2 lx ls hlx⟩

/-! ### The text before the change -/

/-- The situation of an update. -/
structure Sit (lang : Lang α L A ρ) (rl : L) (t0 t1 : List α) (s : Nat) (n0 n1 : Nat)
    (E0 E1 : List (Event α L A)) (cs : List (Node α L A)) : Prop where
  ok : ∀ l, LexOK (lang.ld l)
  leftmost : ∀ l, Leftmost (lang.ld l)
  joins : Joins lang
  ahead : ∀ l, Ahead 9 (lang.ld l)
  within : ∀ t, ExpandsWithin lang t
  moved : ExpandsMoved lang
  atStart : ExpandsAtStart lang
  old : Ends lang t0 n0 (LState.start [rl] 0) E0
  new : Ends lang t1 n1 (LState.start [rl] 0) E1
  built : Built rl E0 cs
  le0 : s ≤ t0.length
  le1 : s ≤ t1.length
  same : t0.take s = t1.take s

variable {lang : Lang α L A ρ} {rl : L} {t0 t1 : List α} {s n0 n1 N : Nat} {E0 E1 : List (Event α L A)}
  {cs : List (Node α L A)}

theorem makeTokens_pos {e : Event α L A} {u : TokN α A} (h : u ∈ makeTokens e.lexemes) : u.lexeme ∈ e.lexemes := by
  have := makeTokens_lexeme e.lexemes
  rw [← this]
  exact List.mem_map.2 ⟨u, h, rfl⟩

theorem built_order {E : List (Event α L A)} (h : Built rl E cs) {X Z : List (Event α L A)} (hE : E = X ++ Z) :
    Ordered (Z.flatMap (fun e => makeTokens e.lexemes)) := by
  have := h.ord
  rw [h.toks, hE, List.flatMap_append] at this
  exact (ordered_app this).2.1

theorem single_group (lxs : List (Lexeme α A)) (h : lxs.length ≠ 1) : ∀ u ∈ makeTokens lxs, u.group ≠ none := by
  intro u hu
  obtain ⟨k, hk⟩ := List.getElem?_of_mem hu
  have := (makeTokens_get hk).2
  rw [if_neg h] at this
  rw [this]
  simp

/-- When nine tokens without group, and another one, lie between an event and the change, the event
    comes again. -/
theorem prefix_same (S : Sit lang rl t0 t1 s n0 n1 E0 E1 cs) {X : List (Event α L A)} {e : Event α L A} {Z : List (Event α L A)}
    (hE : E0 = X ++ e :: Z) {V W : List (TokN α A)} {last : TokN α A}
    (hZ : Z.flatMap (fun e => makeTokens e.lexemes) = V ++ last :: W) (hlast : last.stop ≤ s)
    (hV : 9 ≤ (V.filter (fun u => u.group.isNone)).length) :
    ∃ B1, E1 = X ++ e :: B1 := by
  have hold := S.old
  rw [hE] at hold
  obtain ⟨j, st, st', k, hn, hj, hs, hk⟩ := ends_split hold
  have hi0 := Inv.start (lang := lang) (stack := [rl]) (by simp) (Nat.zero_le t0.length)
  have hi := Inv.run S.ok S.leftmost j _ _ _ hi0 hj
  have hi' := hi.step S.ok S.leftmost hs
  -- the reach of the state after the event
  have hreach : reach lang t0 st' + 9 ≤ s := by
    cases Z with
    | nil => simp at hZ
    | cons z Z' =>
      have hpos : ∀ u ∈ Z'.flatMap (fun e => makeTokens e.lexemes), reach lang t0 st' ≤ u.pos := by
        intro u hu
        obtain ⟨j2, s2, s2', k2, _, hj2, hs2, hk2⟩ := ends_split (X := []) hk
        have hi2 := Inv.run S.ok S.leftmost j2 _ _ _ hi' hj2
        have hi2' := hi2.step S.ok S.leftmost hs2
        have hw := lexRun_within lang t0 S.ok (S.within t0) k2 s2' hi2'.ok hi2'.ne
        rw [hk2] at hw
        have hw2 := (within_pairwise hw).1
        obtain ⟨e2, he2, hu2⟩ := List.mem_flatMap.1 hu
        have h3 := (hw2 u.lexeme (List.mem_flatMap.2 ⟨e2, he2, makeTokens_pos hu2⟩)).1
        have h4 := reach_le_floor S.ok hi2.ok hs2
        have h5 : reach lang t0 st' ≤ reach lang t0 s2 := by
          clear h3 h4 hw hw2
          have key : ∀ (n : Nat) (a b : LState L ρ) (E : List (Event α L A)), Inv lang t0 a →
              lexRun lang t0 n a = (E, some b) → reach lang t0 a ≤ reach lang t0 b := by
            intro n
            induction n with
            | zero => intro a b E _ h; simp only [lexRun, Prod.mk.injEq, Option.some.injEq] at h; rw [h.2]; omega
            | succ n ih =>
              intro a b E ha h
              rw [lexRun] at h
              cases hs : lexStep lang t0 a with
              | none => rw [hs] at h; simp at h
              | some r =>
                obtain ⟨c, ev⟩ := r
                rw [hs] at h
                simp only [Prod.mk.injEq] at h
                have hc := ha.step S.ok S.leftmost hs
                have := ih c b (lexRun lang t0 n c).1 hc (by rw [← h.2])
                have h1 := reach_le_floor S.ok ha.ok hs
                have h2 := floor_le_reach hc.ok
                omega
          exact key _ _ _ _ hi' hj2
        have h6 : u.lexeme.pos = u.pos := rfl
        omega
      have hord : Ordered ((z :: Z').flatMap (fun e => makeTokens e.lexemes)) :=
        built_order S.built (X := X ++ [e]) (by rw [hE]; simp)
      rw [List.flatMap_cons] at hZ hord
      -- the tokens of the first event
      have hM : ∃ V', V = makeTokens z.lexemes ++ V' ∧ 8 ≤ V'.length := by
        have hcount : ((makeTokens z.lexemes).filter (fun u => u.group.isNone)).length ≤ 1 := by
          by_cases h1 : z.lexemes.length = 1
          · refine Nat.le_trans (List.length_filter_le _ _) ?_
            rw [makeTokens_length, h1]; omega
          · have : (makeTokens z.lexemes).filter (fun u => u.group.isNone) = [] := by
              rw [List.filter_eq_nil_iff]
              intro u hu
              have := single_group _ h1 u hu
              cases hg : u.group with
              | none => exact absurd hg this
              | some g => simp
            rw [this]; simp
        rcases List.append_eq_append_iff.1 hZ with ⟨a', h1, h2⟩ | ⟨c', h1, h2⟩
        · refine ⟨a', h1, ?_⟩
          rw [h1, List.filter_append, List.length_append] at hV
          have := List.length_filter_le (fun u : TokN α A => u.group.isNone) a'
          omega
        · rw [h1, List.filter_append, List.length_append] at hcount
          omega
      obtain ⟨V', rfl, hV'⟩ := hM
      rw [List.append_assoc] at hZ
      have hZ' := List.append_cancel_left hZ
      have := ordered_len V' last (reach lang t0 st') (by
        have := (ordered_app hord).2.1
        rw [hZ', show V' ++ last :: W = (V' ++ [last]) ++ W by simp] at this
        exact (ordered_app this).1) (by
        intro x hx
        apply hpos
        rw [hZ', show V' ++ last :: W = (V' ++ [last]) ++ W by simp]
        exact List.mem_append_left _ hx)
      omega
  have hrun : lexRun lang t0 (j + 1) (LState.start [rl] 0) = (X ++ [e], some st') := by
    have := lexRun_add lang t0 j 1 (LState.start [rl] 0) st (by rw [hj])
    rw [this, hj]
    simp [lexRun, hs]
  have h1 := (run_local S.ok S.ahead (by omega) S.same S.le0 S.le1 (j + 1) _ _ _ hi0.ok hrun hreach).1
  obtain ⟨B1, _, h2, _⟩ := ends_after S.new h1
  exact ⟨B1, by rw [h2]; simp⟩

/-! ### Events and leaves -/

theorem ordered_split {a b a' b' : List (TokN α A)} {u : TokN α A} (h : Ordered (a ++ u :: b)) (h' : a ++ u :: b = a' ++ u :: b') :
    a = a' ∧ b = b' := by
  have hlen := List.length_pos_iff.2 (h.1 u (by simp))
  rcases List.append_eq_append_iff.1 h' with ⟨c, h1, h2⟩ | ⟨c, h1, h2⟩
  · cases c with
    | nil => simp only [List.append_nil, List.nil_append, List.cons.injEq, true_and] at h1 h2; exact ⟨h1.symm, h2⟩
    | cons x c =>
      simp only [List.cons_append, List.cons.injEq] at h2
      have := (ordered_app (a := [u]) (b := b) (ordered_app h).2.1).2.2 u (by simp) u (by rw [h2.2]; simp)
      simp only [TokN.stop] at this; omega
  · cases c with
    | nil => simp only [List.append_nil, List.nil_append, List.cons.injEq, true_and] at h1 h2; exact ⟨h1, h2.symm⟩
    | cons x c =>
      simp only [List.cons_append, List.cons.injEq] at h2
      rw [h1, ← h2.1] at h
      have := (ordered_app h).2.2 u (by simp) u (by simp)
      simp only [TokN.stop] at this; omega

/-- A token that is the first of its group and not the first of a context of a consuming lexicon. -/
theorem leaf_event {E : List (Event α L A)} (h : Built rl E cs) {q : Leaf α A}
    (hq : (Node.ctx rl cs).at q.1 = some (.tok q.2)) (hg : q.2.group = none ∨ q.2.group = some 0)
    (hf : firstConsume lang (.ctx rl cs) q.1 = false) :
    ∃ X e Z p i, E = X ++ e :: Z ∧ e.lexemes.head? = some q.2.lexeme ∧ (q.2.group = none → e.lexemes = [q.2.lexeme]) ∧
      q.1 = p ++ [i] ∧ Cut (.ctx rl cs) p i (before rl X e) ∧ ancLexs (.ctx rl cs) q.1 = (before rl X e).lexs ∧
      ((before rl X e).cur.kids ≠ [] ∨ lang.consume (before rl X e).cur.lex = false) ∧
      closeR (before rl X e) (pull (⟨none, e.lexemes⟩ :: Z) []) = .ctx rl cs := by
  obtain ⟨X, e, Z, hE, h1, h2, h3⟩ := h.leaf hq hg
  obtain ⟨hc, hcl, _⟩ := h.cut hE
  have hanc : ancLexs (.ctx rl cs) q.1 = (before rl X e).lexs := by
    rw [ancLexs, h3, List.dropLast_concat, hc.lexs]
  refine ⟨X, e, Z, _, _, hE, h1, h2, h3, hc, hanc, ?_, hcl⟩
  by_cases hk : (before rl X e).cur.kids = []
  · right
    rw [firstConsume, hanc] at hf
    rw [h3] at hf
    simp only [hk, List.length_nil] at hf
    simpa [BState.lexs] using hf
  · exact Or.inl hk

theorem leaves_toks : (leavesL [] 0 cs).map (·.2) = toksL cs := leavesL_toks cs [] 0

/-- The first token of the tree. -/
theorem first_leaf {E : List (Event α L A)} (h : Built rl E cs) {q : Leaf α A} {rest : List (Leaf α A)}
    (hq : leavesL [] 0 cs = q :: rest) :
    (Node.ctx rl cs).at q.1 = some (.tok q.2) ∧ (q.2.group = none ∨ q.2.group = some 0) ∧
    ∃ p i, q.1 = p ++ [i] ∧ Cut (.ctx rl cs) p i (pend (b00 rl) (startFac (.ctx rl cs) q)) := by
  have hat : (Node.ctx rl cs).at q.1 = some (.tok q.2) := leaf_mem.1 (by rw [hq]; simp)
  have htoks := leaves_toks (cs := cs)
  rw [hq, h.toks, List.map_cons] at htoks
  obtain ⟨e, Z, hE⟩ : ∃ e Z, E = e :: Z := by
    cases E with
    | nil => simp at htoks
    | cons e Z => exact ⟨e, Z, rfl⟩
  have hne := h.ne e (by rw [hE]; simp)
  have hm0 : (makeTokens e.lexemes)[0]? = some q.2 := by
    rw [hE, List.flatMap_cons] at htoks
    cases hm : makeTokens e.lexemes with
    | nil =>
      have := makeTokens_length e.lexemes
      rw [hm] at this
      exact absurd (List.length_eq_zero_iff.1 this.symm) hne
    | cons x xs => rw [hm] at htoks; simp only [List.cons_append, List.cons.injEq] at htoks; simp [htoks.1]
  have hg : q.2.group = none ∨ q.2.group = some 0 := by
    have := (makeTokens_get hm0).2
    rw [this]
    split
    · exact Or.inl rfl
    · right; split <;> simp
  refine ⟨hat, hg, ?_⟩
  obtain ⟨hc, _, hk⟩ := h.cut (X := []) (e := e) (Z := Z) (by simpa using hE)
  have hp := (leaf_unique h.wf.1 h.ord hat (hk 0 q.2 hm0) rfl).1
  rw [Nat.add_zero] at hp
  refine ⟨_, _, hp, ?_⟩
  have hb0 : before rl [] e = (b00 rl).target e.target := rfl
  have hback : back (.ctx rl cs) q.1 = [] := by
    obtain ⟨after, h1⟩ := back_split h.wf.1 h.ord hat
    have := (leaves_split_unique (a := []) (q := q.1) (t := q.2) (t' := q.2) (b := rest) (by simpa using hq) h1).1
    simpa using this.symm
  have hkeep := h.keeps
  rw [hE] at hkeep
  have hanc : ancLexs (.ctx rl cs) q.1 = (before rl [] e).lexs := by
    rw [ancLexs, hp, List.dropLast_concat, hc.lexs]
  -- the target of the first event
  have hpush : ∃ ls : List L, before rl [] e = ls.foldl BState.enter (b00 rl) := by
    cases ht : e.target with
    | none => exact ⟨[], by rw [hb0, ht]; rfl⟩
    | some tg =>
      have := hkeep.1 tg ht
      simp only [List.length_cons, List.length_nil] at this
      have h0 : tg.pop = 0 := by omega
      exact ⟨tg.push, by rw [hb0, ht]; simp [BState.target, h0, BState.leaves]⟩
  obtain ⟨ls, hls⟩ := hpush
  have hpend : pend (b00 rl) (startFac (.ctx rl cs) q) = before rl [] e := by
    rcases List.eq_nil_or_concat ls with rfl | ⟨ls', x, rfl⟩
    · have : startFac (.ctx rl cs) q = Factory.init := by
        unfold startFac
        rw [if_neg]
        rintro ⟨_, h2, _⟩
        rw [hp, hls] at h2
        simp [b00, pathOf] at h2
      rw [this, pend_init, hls]
      rfl
    · have hlex : (before rl [] e).lexs = (ls'.concat x).reverse ++ [rl] := by
        rw [hls, (enters_lexs _ _).1]; rfl
      have hfac : startFac (.ctx rl cs) q = Factory.init.push (ls'.concat x) := by
        unfold startFac
        rw [if_pos]
        · rw [hanc, hlex]; simp
        · refine ⟨?_, ?_, by rw [hback]; rfl⟩
          · rw [hp, hls]; simp [BState.enter]
          · have := congrArg List.length hlex
            simp only [BState.lexs, List.length_cons, List.length_map, List.length_append, List.length_reverse,
              List.concat_eq_append, List.length_nil] at this
            rw [hp]
            simp only [pathOf, List.length_append, List.length_reverse, List.length_map, List.length_cons, List.length_nil]
            omega
      rw [hfac, hls]
      simp [pend, Factory.push, Factory.init, BState.leaves]
  rw [hpend]
  exact hc

/-! ### The loop -/

/-- What a prepared lexer is good for: the events are the last ones of lexing the new text, and
    the tree built from the events before is the old tree up to and including the returned tokens. -/
def PrepOK (rl : L) (cs : List (Node α L A)) (s : Nat) (E1 : List (Event α L A)) (pr : Prepared α L A) : Prop :=
  ∃ P, E1 = P ++ pr.events ∧ Good (.ctx rl cs) pr.prev (P.foldl BState.event (b00 rl)) ∧
    ∀ u ∈ pr.prev.toks, u.stop ≤ s

theorem replay_prep (ho : Ordered (toksL cs)) {b : BState α L A} {old o1 o2 : List (EvT α L A)} {p : EvT α L A} {last : TokN α A}
    (hr : Replay (.ctx rl cs) b old) (hl : old = [] ∨ ∃ ts, toksB (replay b old) = ts ++ [last]) (hs : last.stop ≤ s)
    (ho1 : old = o1 ++ p :: o2) :
    Good (.ctx rl cs) p (replay b (o1 ++ [p])) ∧ ∀ u ∈ p.toks, u.stop ≤ s := by
  have hg : Good (.ctx rl cs) p (replay b (o1 ++ [p])) := by
    rw [ho1, show o1 ++ p :: o2 = o1 ++ ([p] ++ o2) by simp] at hr
    have := (hr.split.2).split.1
    rw [replay_append]
    exact this.1
  refine ⟨hg, fun u hu => ?_⟩
  obtain ⟨ts, hts⟩ : ∃ ts, toksB (replay b old) = ts ++ [last] := by
    rcases hl with h | h
    · rw [h] at ho1; simp at ho1
    · exact h
  obtain ⟨x, hx⟩ : ∃ x, Good (.ctx rl cs) x (replay b old) := by
    rcases List.eq_nil_or_concat old with h | ⟨o, x, h⟩
    · rw [h] at ho1; simp at ho1
    · rw [List.concat_eq_append] at h
      refine ⟨x, ?_⟩
      rw [h, replay_append]
      rw [h] at hr
      exact hr.split.2.1
  obtain ⟨_, _, _, hcut, _⟩ := hx
  obtain ⟨rest, hrest⟩ := hcut.toks
  have hord : Ordered (ts ++ [last]) := by
    rw [← hts]
    have h1 : Ordered (Node.ctx rl cs).toks := ho
    rw [hrest] at h1
    exact (ordered_app h1).1
  have hmem : u ∈ ts ++ [last] := by
    rw [← hts, toksB_replay]
    refine List.mem_append_right _ (List.mem_flatMap.2 ⟨p, by rw [ho1]; simp, ?_⟩)
    obtain ⟨_, _, _, _, _, _, h5, _⟩ := hg
    rw [h5]; exact hu
  rcases List.mem_append.1 hmem with h | h
  · have := (ordered_app hord).2.2 u h last (by simp)
    have h2 : last.pos ≤ last.stop := by simp [TokN.stop]
    omega
  · simp only [List.mem_singleton] at h
    rw [h]; exact hs

/-- Starting from the beginning. -/
theorem first_prep (S : Sit lang rl t0 t1 s n0 n1 E0 E1 cs) {q last : Leaf α A} {rest : List (Leaf α A)}
    (hq : leavesL [] 0 cs = q :: rest) (hlat : (Node.ctx rl cs).at last.1 = some (.tok last.2)) (hls : last.2.stop ≤ s)
    (hgl : last.2.group = none ∨ ∃ g, last.2.group = some g ∧ g < 0) {evs : List (Event α L A)} {p : EvT α L A} {fin : List L}
    (h : compareEvents (eventsWithTokens (.ctx rl cs) q last) E1 none = some (evs, p)) :
    PrepOK rl cs s E1 ⟨evs, fin, p⟩ := by
  obtain ⟨hat, hg, pp, i, hp, hcut⟩ := first_leaf S.built hq
  obtain ⟨h1, h2⟩ := eventsWithTokens_ok S.built.wf S.built.ord q last hat hlat hg hgl pp i hp (b00 rl) hcut
  rcases compare_ok _ _ _ _ _ h with ⟨h3, _⟩ | ⟨o1, o2, h3, h4⟩
  · simp at h3
  · obtain ⟨h5, h6⟩ := replay_prep S.built.ord h1 h2 hls h3
    refine ⟨o1.map EvT.ev ++ [p.ev], by rw [h4]; simp, ?_, h6⟩
    simpa [replay] using h5

theorem startFac_init {q : List Nat} {t : TokN α A} (ho : Ordered (toksL cs)) (hf : FullL cs) (hq : (Node.ctx rl cs).at q = some (.tok t))
    {nxt : Leaf α A} {rem : List (Leaf α A)} (hb : back (.ctx rl cs) q = nxt :: rem) :
    startFac (.ctx rl cs) (q, t) = Factory.init := by
  unfold startFac
  rw [if_neg]
  rintro ⟨_, _, h3⟩
  simp only [hb, List.all_cons, Bool.and_eq_true] at h3
  have h4 := (back_of_back hf ho hq (pre := []) (by simpa using hb)).1
  have := ho.1 nxt.2 (by simpa [Node.toks] using at_mem_toks h4)
  simp only [List.isEmpty_iff] at h3
  exact this h3.1

/-- The start token that has been found by going back ten tokens. -/
theorem start_token (S : Sit lang rl t0 t1 s n0 n1 E0 E1 cs) {last cur nxt : Leaf α A} {D pre rem : List (Leaf α A)}
    (hlat : (Node.ctx rl cs).at last.1 = some (.tok last.2)) (hls : last.2.stop ≤ s)
    (hb : back (.ctx rl cs) last.1 = D ++ (pre ++ cur :: nxt :: rem)) (hok : startOk lang (.ctx rl cs) cur = true)
    (hpre : (pre.filter (startOk lang (.ctx rl cs))).length + 1 = 10) :
    0 < cur.2.pos ∧ (Node.ctx rl cs).at cur.1 = some (.tok cur.2) ∧ cur.2.group = none ∧
    startFac (.ctx rl cs) cur = Factory.init ∧
    ∃ X e B1 p i, E1 = X ++ e :: B1 ∧ X ≠ [] ∧ (∀ x ∈ X, ∀ lx ∈ x.lexemes, lx.pos < cur.2.pos) ∧ (∀ x ∈ X, x.lexemes ≠ []) ∧
      e.lexemes = [cur.2.lexeme] ∧ cur.1 = p ++ [i] ∧ Cut (.ctx rl cs) p i (before rl X e) ∧
      Ends lang t1 (n1 + 1) (LState.start (ancLexs (.ctx rl cs) cur.1) cur.2.pos) (⟨none, e.lexemes⟩ :: B1) := by
  have hf := S.built.wf.1
  have ho := S.built.ord
  obtain ⟨hcat, hcb⟩ := back_of_back hf ho hlat (pre := D ++ pre) (c := cur) (post := nxt :: rem) (by rw [hb]; simp)
  simp only [startOk, Bool.and_eq_true, Option.isNone_iff_eq_none, Bool.not_eq_true'] at hok
  obtain ⟨X, e, Z, p, i, hE, h1, h2, h3, hc, hanc, hcons, hcl⟩ := leaf_event (lang := lang) S.built hcat (Or.inl hok.1) hok.2
  have helx := h2 hok.1
  have hmk : makeTokens e.lexemes = [cur.2] := by
    have hmk0 := makeTokens_lexeme e.lexemes
    rw [helx] at hmk0
    cases hm : makeTokens e.lexemes with
    | nil => rw [helx] at hm; rw [hm] at hmk0; simp at hmk0
    | cons x xs =>
      have hx := (S.built.cut hE).2.2 0 x (by rw [hm]; rfl)
      rw [Nat.add_zero] at hx
      have hp2 : cur.1 = pathOf (before rl X e).up ++ [(before rl X e).cur.kids.length] := by
        have hxl : x.lexeme = cur.2.lexeme := by rw [helx] at hm; rw [hm] at hmk0; simp at hmk0; exact hmk0.1
        exact (leaf_unique hf ho hcat hx (by have := congrArg Lexeme.pos hxl; exact this.symm)).1
      rw [← hp2, hcat] at hx
      have hlen := makeTokens_length e.lexemes
      rw [hm, helx] at hlen
      simp only [List.length_cons, List.length_nil, Nat.zero_add, Nat.add_eq_right, List.length_eq_zero_iff] at hlen
      simp only [Option.some.injEq, Node.tok.injEq] at hx
      rw [hlen, hx]
  obtain ⟨after, hafter⟩ := back_split hf ho hcat
  rw [hcb] at hafter
  have htoks := leaves_toks (cs := cs)
  have hall : X.flatMap (fun e => makeTokens e.lexemes) ++ cur.2 :: Z.flatMap (fun e => makeTokens e.lexemes) =
      ((nxt :: rem).reverse.map (·.2)) ++ cur.2 :: after.map (·.2) := by
    rw [hafter, S.built.toks, hE] at htoks
    simp only [List.map_append, List.map_cons, List.flatMap_append, List.flatMap_cons, hmk] at htoks
    exact htoks.symm
  have hordX : Ordered (X.flatMap (fun e => makeTokens e.lexemes) ++ cur.2 :: Z.flatMap (fun e => makeTokens e.lexemes)) := by
    have := S.built.ord
    rw [S.built.toks, hE] at this
    simpa [hmk] using this
  obtain ⟨hX, hZ⟩ := ordered_split hordX hall
  obtain ⟨W, hW⟩ := back_split hf ho hlat
  rw [hb] at hW
  have hW2 : leavesL [] 0 cs = (nxt :: rem).reverse ++ cur :: (pre.reverse ++ D.reverse ++ last :: W) := by
    rw [hW]; simp
  have hafter2 := (leaves_split_unique (q := cur.1) (t := cur.2) (t' := cur.2) hafter hW2).2.1
  obtain ⟨B1, hB1⟩ := prefix_same S hE (V := (pre.reverse ++ D.reverse).map (·.2)) (W := W.map (·.2)) (last := last.2)
    (by rw [hZ, hafter2]; simp) hls (by
      rw [List.filter_map, List.length_map, List.filter_append, List.length_append, List.filter_reverse, List.length_reverse]
      have : (pre.filter (startOk lang (.ctx rl cs))).length ≤ (pre.filter ((fun u : TokN α A => u.group.isNone) ∘ (·.2))).length := by
        clear hpre hb hW hW2 hafter2
        induction pre with
        | nil => simp
        | cons x xs ih =>
          by_cases hx : startOk lang (.ctx rl cs) x = true
          · rw [List.filter_cons_of_pos hx]
            have : ((fun u : TokN α A => u.group.isNone) ∘ (·.2)) x = true := by
              simp only [startOk, Bool.and_eq_true] at hx
              exact hx.1
            rw [List.filter_cons_of_pos this]
            simpa using ih
          · rw [List.filter_cons_of_neg hx]
            refine Nat.le_trans ih ?_
            rw [List.filter_cons]
            split
            · simp
            · exact Nat.le_refl _
      omega)
  have hposn : nxt.2.stop ≤ cur.2.pos := by
    rw [hX] at hordX
    exact (ordered_app hordX).2.2 nxt.2 (by simp) cur.2 (by simp)
  have hnt : nxt.2.text ≠ [] := by
    rw [hX] at hordX
    exact hordX.1 nxt.2 (by simp)
  have hnl := List.length_pos_iff.2 hnt
  refine ⟨by simp only [TokN.stop] at hposn; omega, hcat, hok.1, startFac_init ho hf hcat hcb, X, e, B1, p, i, hB1, ?_, ?_, ?_, helx, h3, hc, ?_⟩
  · intro hX0
    rw [hX0] at hX
    simp at hX
  · intro x hx lx hlx
    have : lx ∈ (makeTokens x.lexemes).map TokN.lexeme := by rw [makeTokens_lexeme]; exact hlx
    obtain ⟨u, hu, rfl⟩ := List.mem_map.1 this
    have h5 := (ordered_app hordX).2.2 u (List.mem_flatMap.2 ⟨x, hx, hu⟩) cur.2 (by simp)
    have h6 := List.length_pos_iff.2 (hordX.1 u (List.mem_append_left _ (List.mem_flatMap.2 ⟨x, hx, hu⟩)))
    simp only [TokN.stop] at h5
    simp only [TokN.lexeme]
    omega
  · intro x hx
    exact S.built.ne x (by rw [hE]; simp [hx])
  · rw [hanc]
    have hnew := S.new
    rw [hB1] at hnew
    exact (fresh_from S.ok S.leftmost S.atStart hnew hcons (lx := cur.2.lexeme) (ls := []) helx).1

/-- The loop of `get_prepared_lexer`. -/
theorem prepLoop_ok (S : Sit lang rl t0 t1 s n0 n1 E0 E1 cs) (hN : n1 + 1 ≤ N) {last : Leaf α A}
    (hlat : (Node.ctx rl cs).at last.1 = some (.tok last.2)) (hls : last.2.stop ≤ s)
    (hgl : last.2.group = none ∨ ∃ g, last.2.group = some g ∧ g < 0) :
    ∀ (fuel : Nat) (st0 : Leaf α A) (goBack : List (Leaf α A)) (pr : Prepared α L A),
    (∃ D, back (.ctx rl cs) last.1 = D ++ goBack) →
    (goBack = [] → compareEvents (eventsWithTokens (.ctx rl cs) st0 last) E1 none = none ∨
      ∃ rest, leavesL [] 0 cs = st0 :: rest) →
    prepLoop lang N (.ctx rl cs) rl t1 last fuel st0 goBack = some pr → PrepOK rl cs s E1 pr := by
  have hf := S.built.wf.1
  have ho := S.built.ord
  have hall : (lexAll lang t1 N (LState.start [rl] 0)).1 = E1 := S.new.all (by omega)
  intro fuel
  induction fuel with
  | zero => intro st0 goBack pr _ _ h; simp [prepLoop] at h
  | succ fuel ih =>
    intro st0 goBack pr ⟨D, hD⟩ hJ h
    cases goBack with
    | nil =>
      simp only [prepLoop, Bool.false_eq_true, if_false, ne_eq, not_true] at h
      cases hc : compareEvents (eventsWithTokens (.ctx rl cs) st0 last) (lexAll lang t1 N (LState.start [rl] 0)).1 none with
      | none => rw [hc] at h; simp at h
      | some r =>
        obtain ⟨evs, p⟩ := r
        rw [hc] at h
        simp only [Option.some.injEq] at h
        subst h
        rw [hall] at hc
        rcases hJ rfl with hJ | ⟨rest, hrest⟩
        · rw [hJ] at hc; simp at hc
        · exact first_prep S hrest hlat hls hgl hc
    | cons c rest =>
      simp only [prepLoop] at h
      generalize hsk : seek (startOk lang (.ctx rl cs)) c rest 10 = r at h
      obtain ⟨cur, rem, b⟩ := r
      cases b with
      | false =>
        obtain ⟨pre, hpre⟩ := seek_false _ _ _ _ _ _ hsk
        simp only [Bool.false_eq_true, if_false, ne_eq, not_true] at h
        cases hc : compareEvents (eventsWithTokens (.ctx rl cs) cur last) (lexAll lang t1 N (LState.start [rl] 0)).1 none with
        | none => rw [hc] at h; simp at h
        | some r =>
          obtain ⟨evs, p⟩ := r
          rw [hc] at h
          simp only [Option.some.injEq] at h
          subst h
          rw [hall] at hc
          obtain ⟨hcat, hcb⟩ := back_of_back hf ho hlat (pre := D ++ pre) (c := cur) (post := []) (by rw [hD, hpre]; simp)
          obtain ⟨after, hafter⟩ := back_split hf ho hcat
          rw [hcb] at hafter
          exact first_prep S (q := cur) (rest := after) (by simpa using hafter) hlat hls hgl hc
      | true =>
        obtain ⟨pre, nxt, hpre, hok, hcnt⟩ := seek_true _ _ _ _ _ _ (by omega) hsk
        obtain ⟨hpos, hcat, hgrp, hfac, X, e, B1, p, i, hE1, hXne, hXpos, hXlx, helx, hcp, hcut, hends⟩ :=
          start_token S hlat hls (D := D) (pre := pre) (nxt := nxt) (rem := rem) (by rw [hD, hpre]) hok hcnt
        have hpos' : cur.2.pos ≠ 0 := by omega
        simp only [if_true, ne_eq, hpos', not_false_eq_true] at h
        rw [hends.all hN] at h
        cases hc : compareEvents (eventsWithTokens (.ctx rl cs) cur last) (⟨none, e.lexemes⟩ :: B1) none with
        | none =>
          rw [hc] at h
          simp only at h
          refine ih cur rem pr ⟨D ++ pre ++ [cur, nxt], by rw [hD, hpre]; simp⟩ (fun _ => Or.inl ?_) h
          cases X with
          | nil => exact absurd rfl hXne
          | cons x X =>
            rw [hE1]
            cases hev : eventsWithTokens (.ctx rl cs) cur last with
            | nil => rfl
            | cons y ys =>
              have hy := (eventsWithTokens_head S.built.wf ho cur last hcat hlat hev).2.2
              simp only [List.cons_append, compareEvents]
              rw [if_neg]
              · rfl
              · intro hyx
                rw [hyx] at hy
                cases hxl : x.lexemes with
                | nil => exact hXlx x (by simp) hxl
                | cons lx ls =>
                  rw [hxl] at hy
                  simp only [List.head?_cons, Option.some.injEq] at hy
                  have := hXpos x (by simp) lx (by rw [hxl]; simp)
                  rw [hy] at this
                  simp [TokN.lexeme] at this
        | some r =>
          obtain ⟨evs, pv⟩ := r
          rw [hc] at h
          simp only [Option.some.injEq] at h
          subst h
          obtain ⟨h1, h2⟩ := eventsWithTokens_ok S.built.wf ho cur last hcat hlat (Or.inl hgrp) hgl p i hcp (before rl X e)
            (by rw [hfac, pend_init]; exact hcut)
          rcases compare_ok _ _ _ _ _ hc with ⟨h3, _⟩ | ⟨o1, o2, h3, h4⟩
          · simp at h3
          · obtain ⟨h5, h6⟩ := replay_prep ho h1 h2 hls h3
            cases o1 with
            | nil =>
              simp only [List.map_nil, List.nil_append, List.cons.injEq] at h4
              refine ⟨X ++ [e], by rw [hE1, h4.2]; simp, ?_, h6⟩
              have hx : (X ++ [e]).foldl BState.event (b00 rl) = replay (before rl X e) ([] ++ [pv]) := by
                rw [List.foldl_append]
                simp only [replay, List.nil_append, List.map_cons, List.map_nil, List.foldl_cons, List.foldl_nil, ← h4.1]
                rfl
              rw [hx]; exact h5
            | cons o o1 =>
              simp only [List.map_cons, List.cons_append, List.cons.injEq] at h4
              refine ⟨X ++ e :: (o1.map EvT.ev ++ [pv.ev]), by rw [hE1, h4.2]; simp, ?_, h6⟩
              have hx : (X ++ e :: (o1.map EvT.ev ++ [pv.ev])).foldl BState.event (b00 rl) =
                  replay (before rl X e) (o :: o1 ++ [pv]) := by
                rw [List.foldl_append, List.foldl_cons]
                simp only [replay, List.cons_append, List.map_cons, List.map_append, List.map_nil, List.foldl_cons, ← h4.1]
                rfl
              rw [hx]; exact h5

/-- `get_prepared_lexer`. -/
theorem prepared_ok (S : Sit lang rl t0 t1 s n0 n1 E0 E1 cs) (hN : n1 + 1 ≤ N) {pr : Prepared α L A}
    (h : prepared lang N rl cs t1 s = some pr) : PrepOK rl cs s E1 pr := by
  have hf := S.built.wf.1
  have ho := S.built.ord
  unfold prepared at h
  cases hfb : findBefore s (sizeL cs + 1) [] cs with
  | none => rw [hfb] at h; simp at h
  | some tok =>
    obtain ⟨r, h1, h2, h3⟩ := findBefore_ok (rl := rl) _ _ _ _ hfb
    rw [List.nil_append] at h1
    rw [← h1] at h2
    rw [hfb] at h
    simp only at h
    obtain ⟨after, hafter⟩ := back_split hf ho h2
    by_cases hig : inGroup tok.2 = true
    · rw [if_pos hig] at h
      cases hdw : (back (.ctx rl cs) tok.1).dropWhile (fun q => inGroup q.2) with
      | nil => rw [hdw] at h; simp at h
      | cons q rest =>
        rw [hdw] at h
        simp only at h
        split at h
        · simp at h
        · have hsplit := List.takeWhile_append_dropWhile (p := fun q : Leaf α A => inGroup q.2) (l := back (.ctx rl cs) tok.1)
          rw [hdw] at hsplit
          obtain ⟨hqat, hqb⟩ := back_of_back hf ho h2 hsplit.symm
          have hqg : q.2.group = none ∨ ∃ g, q.2.group = some g ∧ g < 0 := by
            have := List.head?_dropWhile_not (fun q : Leaf α A => inGroup q.2) (back (.ctx rl cs) tok.1)
            rw [hdw] at this
            simp only [List.head?_cons, inGroup] at this
            cases hg : q.2.group with
            | none => exact Or.inl rfl
            | some g => rw [hg] at this; simp at this; exact Or.inr ⟨g, rfl, by omega⟩
          have hlt : q.2.stop ≤ tok.2.pos ∧ q.2.text ≠ [] := by
            have htoks := leaves_toks (cs := cs)
            rw [hafter, ← hsplit] at htoks
            have ho' := ho
            rw [← htoks] at ho'
            simp only [List.map_append, List.map_cons] at ho'
            refine ⟨(ordered_app ho').2.2 q.2 (by simp) tok.2 (by simp), ho'.1 q.2 (by simp)⟩
          have hqlen := List.length_pos_iff.2 hlt.2
          have hlt1 := hlt.1
          simp only [TokN.stop] at hlt1
          refine prepLoop_ok S hN hqat ?_ hqg _ _ _ _ ⟨[], by simpa using hqb⟩ (fun _ => Or.inl ?_) h
          · simp only [TokN.stop] at h3 ⊢; omega
          · have hne : eventsWithTokens (.ctx rl cs) tok q = [] := by
              unfold eventsWithTokens commonAncestor
              rw [if_neg, if_neg]
              · omega
              · intro he
                rw [he, hqat] at h2
                simp only [Option.some.injEq, Node.tok.injEq] at h2
                rw [h2] at hlt1 hqlen; omega
            rw [hne]; rfl
    · rw [if_neg hig] at h
      simp only at h
      split at h
      · simp at h
      · have hg : tok.2.group = none ∨ ∃ g, tok.2.group = some g ∧ g < 0 := by
          simp only [inGroup] at hig
          cases hg : tok.2.group with
          | none => exact Or.inl rfl
          | some g => rw [hg] at hig; simp at hig; exact Or.inr ⟨g, rfl, hig⟩
        refine prepLoop_ok S hN h2 h3 hg _ _ _ _ ⟨[], by simp⟩ (fun hb => Or.inr ?_) h
        rw [hb] at hafter
        exact ⟨after, by simpa using hafter⟩

end Parce.RB

import Verif.Lemmas.RebuildAll
/-!
# The events of a tree
-/
set_option linter.unusedSectionVars false
namespace Parce.RB
variable {α L A ρ : Type}

theorem closeUp_fullL : ∀ (fs : List (Frame α L A)) (n : Node α L A) (R : List (List (Node α L A))),
    FullL (closeUp n fs R).kids → FullL n.kids := by
  intro fs
  induction fs with
  | nil => intro n R h; exact h
  | cons f fs ih =>
    intro n R h
    have h1 := ih (.ctx f.lex (f.kids ++ n :: R.headD [])) R.tail h
    simp only [Node.kids] at h1
    have h2 := ((FullL_append _ _).1 h1).2.1
    exact Full.kids h2

theorem toksL_nil {xs : List (Node α L A)} (h : FullL xs) (ht : toksL xs = []) : xs = [] := by
  cases xs with
  | nil => rfl
  | cons x xs =>
    exfalso
    simp only [toksL, List.append_eq_nil_iff] at ht
    exact (full_toks x h.1).1 ht.1

theorem closeUp_complete : ∀ (fs : List (Frame α L A)) (n : Node α L A) (R : List (List (Node α L A))),
    FullL (closeUp n fs R).kids → (closeUp n fs R).toks = doneT fs ++ n.toks → closeUp n fs R = closeUp n fs [] := by
  intro fs
  induction fs with
  | nil => intro n R _ _; rfl
  | cons f fs ih =>
    intro n R hf ht
    have h1 := closeUp_fullL fs (.ctx f.lex (f.kids ++ n :: R.headD [])) R.tail hf
    simp only [Node.kids] at h1
    have h2 := ((FullL_append _ _).1 h1).2.2
    obtain ⟨rest, h3⟩ := closeUp_toks (.ctx f.lex (f.kids ++ n :: R.headD [])) fs R.tail
    have ht' : (closeUp (.ctx f.lex (f.kids ++ n :: R.headD [])) fs R.tail).toks = doneT (f :: fs) ++ n.toks := ht
    rw [h3] at ht'
    simp only [doneT, Node.toks, toksL_append, toksL, List.append_assoc] at ht'
    have h4' : (n.toks ++ (toksL (R.headD []) ++ rest)) = n.toks ++ [] := by simpa using ht'
    have h5 := List.append_cancel_left h4'
    simp only [List.append_eq_nil_iff] at h5
    have h6 := toksL_nil h2 h5.1
    have h7 := ih (.ctx f.lex (f.kids ++ n :: R.headD [])) R.tail hf (by
      rw [h3, h5.2, List.append_nil])
    show closeUp (.ctx f.lex (f.kids ++ n :: R.headD [])) fs R.tail = closeUp (.ctx f.lex (f.kids ++ n :: [])) fs []
    rw [h7, h6]

theorem close_complete {root : Node α L A} {b : BState α L A} {R : List (List (Node α L A))} (h : closeR b R = root) (hf : FullL root.kids)
    (ht : root.toks = toksB b) : b.close = root := by
  rw [close_eq]
  have h0 := h
  simp only [closeR] at h
  have h1 : FullL (closeUp (.ctx b.cur.lex (b.cur.kids ++ R.headD [])) b.up R.tail).kids := by rw [h]; exact hf
  have h2 := closeUp_fullL _ _ _ h1
  simp only [Node.kids] at h2
  obtain ⟨rest, h3⟩ := closeUp_toks (.ctx b.cur.lex (b.cur.kids ++ R.headD [])) b.up R.tail
  rw [h, ht] at h3
  simp only [toksB, doneT, Node.toks, toksL_append, List.append_assoc] at h3
  have h4 := List.append_cancel_left h3
  have h4' : toksL b.cur.kids ++ [] = toksL b.cur.kids ++ (toksL (R.headD []) ++ rest) := by simpa using h4
  have h5 := (List.append_cancel_left h4').symm
  simp only [List.append_eq_nil_iff] at h5
  have h6 := toksL_nil ((FullL_append _ _).1 h2).2 h5.1
  rw [← h, h6]
  simp only [closeR]
  rw [h6] at h1 h
  refine (closeUp_complete b.up _ R.tail h1 ?_).symm
  rw [h, ht]
  simp [toksB, doneT, Node.toks]

variable [DecidableEq α] [DecidableEq L] [DecidableEq A]

/-- The events of some tokens are those of the tokens from the first to the last one. -/
theorem events_range {rl : L} {cs : List (Node α L A)} (hw : WF cs) (ho : Ordered (toksL cs)) (start last : Leaf α A)
    (hs : (Node.ctx rl cs).at start.1 = some (.tok start.2)) (hl : (Node.ctx rl cs).at last.1 = some (.tok last.2))
    (hgs : start.2.group = none ∨ start.2.group = some 0)
    (hgl : last.2.group = none ∨ ∃ g, last.2.group = some g ∧ g < 0) (hle : start.2.pos ≤ last.2.pos) (p : List Nat) (i : Nat)
    (hp : start.1 = p ++ [i]) (b : BState α L A) (hcut : Cut (.ctx rl cs) p i (pend b (startFac (.ctx rl cs) start))) :
    (∃ post, toksL cs = toksB b ++ (eventsWithTokens (.ctx rl cs) start last).flatMap (·.toks) ++ post) ∧
    ((eventsWithTokens (.ctx rl cs) start last).flatMap (·.toks)).head? = some start.2 ∧
    ((eventsWithTokens (.ctx rl cs) start last).flatMap (·.toks)).getLast? = some last.2 ∧
    (∃ q j, Cut (.ctx rl cs) q j (replay b (eventsWithTokens (.ctx rl cs) start last))) ∧
    ∀ x ∈ eventsWithTokens (.ctx rl cs) start last, x.toks ≠ [] ∧ x.ev.lexemes = x.toks.map TokN.lexeme ∧
      makeTokens x.ev.lexemes = x.toks := by
  obtain ⟨h1, h2⟩ := eventsWithTokens_ok2 hw ho start last hs hl hgs hgl p i hp b hcut
  have hstart : ∃ post, toksL cs = toksB b ++ start.2 :: post := by
    have h3 := hcut.add (k := 1)
    obtain ⟨_, _, h6⟩ := at_snoc (hp ▸ hs)
    have h7 : (((Node.ctx rl cs).kidsAt p).drop i).take 1 = [.tok start.2] := by
      rw [List.drop_eq_getElem?_toList_append, h6]; simp
    rw [h7] at h3
    obtain ⟨post, h8⟩ := h3.toks
    refine ⟨post, ?_⟩
    simp only [Node.toks] at h8
    rw [h8, ← toksB_pend (startFac (.ctx rl cs) start) b]
    simp [addN, toksB, doneT, toksL_append, toksL, Node.toks]
  obtain ⟨sp, hsp⟩ := hstart
  have h2 : ∃ ts, toksB (replay b (eventsWithTokens (.ctx rl cs) start last)) = ts ++ [last.2] := by
    rcases h2 with ⟨_, h3, h4⟩ | h2
    · exact absurd (leaf_unique hw.1 ho hs hl (by omega)).1 h3
    · exact h2
  have hne : eventsWithTokens (.ctx rl cs) start last ≠ [] := by
    intro h
    rw [h] at h2
    obtain ⟨ts, h2⟩ := h2
    have h3 : toksB b = ts ++ [last.2] := h2
    rw [h3] at hsp
    have ho' := ho
    rw [hsp] at ho'
    have h5 := (ordered_app ho').2.2 last.2 (by simp) start.2 (by simp)
    have h6 := List.length_pos_iff.2 (ho.1 last.2 (by rw [hsp]; simp))
    simp only [TokN.stop] at h5
    omega
  generalize hE : eventsWithTokens (.ctx rl cs) start last = evs at h1 h2 hne
  have hall : ∀ (evs : List (EvT α L A)) (b : BState α L A), Replay (.ctx rl cs) b evs →
      (∀ x ∈ evs, x.toks ≠ [] ∧ x.ev.lexemes = x.toks.map TokN.lexeme ∧ makeTokens x.ev.lexemes = x.toks) ∧
      (evs ≠ [] → ∃ q j, Cut (.ctx rl cs) q j (replay b evs)) := by
    intro evs
    induction evs with
    | nil => intro b _; simp
    | cons x xs ih =>
      intro b h
      obtain ⟨⟨q, j, g1, g2, g3, g4, g5, g6⟩, hr⟩ := h
      obtain ⟨i1, i2⟩ := ih _ hr
      refine ⟨?_, fun _ => ?_⟩
      · intro y hy
        rcases List.mem_cons.1 hy with rfl | hy
        · exact ⟨g3, g4, g5⟩
        · exact i1 y hy
      · cases xs with
        | nil => exact ⟨q, _, g2⟩
        | cons y ys => exact i2 (by simp)
  obtain ⟨ha, hc⟩ := hall _ _ h1
  obtain ⟨q, j, hcut'⟩ := hc hne
  have hflat : evs.flatMap (fun x => makeTokens x.ev.lexemes) = evs.flatMap (·.toks) := by
    clear hE h1 h2 hne hc hcut'
    induction evs with
    | nil => rfl
    | cons x xs ih =>
      simp only [List.flatMap_cons]
      rw [(ha x (by simp)).2.2, ih (fun y hy => ha y (by simp [hy]))]
  have ht := toksB_replay evs b
  rw [hflat] at ht
  obtain ⟨post, hpost⟩ := hcut'.toks
  simp only [Node.toks] at hpost
  have hlast : (evs.flatMap (·.toks)).getLast? = some last.2 := by
    obtain ⟨ts, h2⟩ := h2
    rw [ht] at h2
    have hn : evs.flatMap (·.toks) ≠ [] := by
      cases evs with
      | nil => exact absurd rfl hne
      | cons x xs =>
        simp only [List.flatMap_cons, ne_eq, List.append_eq_nil_iff]
        intro h; exact (ha x (by simp)).1 h.1
    have h3 := congrArg List.getLast? h2
    rw [List.getLast?_append, List.getLast?_eq_some_getLast hn] at h3
    rw [List.getLast?_eq_some_getLast hn]
    simpa using h3
  refine ⟨⟨post, by rw [hpost, ht]⟩, ?_, hlast, ⟨q, j, hcut'⟩, ha⟩
  cases evs with
  | nil => exact absurd rfl hne
  | cons x xs =>
    have h9 := hpost
    rw [ht, hsp, List.append_assoc] at h9
    have h10 := List.append_cancel_left h9
    have g1 := (ha x (by simp)).1
    cases hx : x.toks with
    | nil => exact absurd hx g1
    | cons y ys =>
      simp only [List.flatMap_cons, hx, List.cons_append, List.cons.injEq] at h10
      simp [hx, h10.1]

theorem built_run (lang : Lang α L A ρ) (hl : ∀ l, LexOK (lang.ld l)) (rl : L) (t : List α) (hw : ExpandsWithin lang t) (n : Nat) :
    Built rl (lexRun lang t n (LState.start [rl] 0)).1 (buildTree lang rl t 0 n).kids := by
  have hk : KeepsRoot [rl] (lexRun lang t n (LState.start [rl] 0)).1 :=
    (lexRun_stack lang t n _ [rl] (start_inv [rl] 0 (by simp))).1
  have hne := lexRun_lexemes_ne lang t n (LState.start [rl] 0)
  have hfull := C22_no_empty_contexts lang rl t 0 n
  have hord := C22_built_ordered lang rl t hl hw 0 (Nat.zero_le _) n
  have hpc := build_pieces rl (lexRun lang t n (LState.start [rl] 0)).1
  unfold buildTree at hfull hord ⊢
  generalize (lexRun lang t n (LState.start [rl] 0)).1 = E0 at *
  obtain ⟨k, hkk⟩ := build_root rl E0 hk
  rw [hkk] at hfull hord hpc ⊢
  simp only [Node.kids, Node.toks] at hfull hord ⊢
  refine ⟨hk, hne, hkk, ⟨hfull, hpc (rl, k) (by simp [Node.ctxs]), fun c hc => hpc c ?_⟩, hord⟩
  simp only [Node.ctxs, List.mem_cons]
  exact Or.inr hc

theorem start_cut {rl : L} {E : List (Event α L A)} {cs : List (Node α L A)} (h : Built rl E cs) (start : Leaf α A)
    (hs : (Node.ctx rl cs).at start.1 = some (.tok start.2)) :
    ∃ p i b, start.1 = p ++ [i] ∧ Cut (.ctx rl cs) p i (pend b (startFac (.ctx rl cs) start)) ∧
      (∀ rest, toksL cs = start.2 :: rest → b = b00 rl) := by
  obtain ⟨after, hsplit⟩ := back_split (rl := rl) h.wf.1 h.ord hs
  cases hb : back (.ctx rl cs) start.1 with
  | nil =>
    rw [hb] at hsplit
    obtain ⟨_, _, p, i, h1, h2⟩ := first_leaf h (q := start) (rest := after) hsplit
    exact ⟨p, i, b00 rl, h1, h2, fun _ _ => rfl⟩
  | cons nxt rem =>
    have hsf := startFac_init h.ord h.wf.1 hs hb
    obtain ⟨p, i, hp⟩ : ∃ p i, start.1 = p ++ [i] := by
      rcases List.eq_nil_or_concat start.1 with h1 | ⟨p, i, h1⟩
      · rw [h1] at hs; simp [Node.at] at hs
      · exact ⟨p, i, by rw [h1, List.concat_eq_append]⟩
    obtain ⟨l, h1, _⟩ := at_snoc (hp ▸ hs)
    have h2 := anc_at [] (.ctx rl cs) p
    rw [h1] at h2
    cases ha : anc [] (.ctx rl cs) p with
    | none => rw [ha] at h2; simp at h2
    | some r =>
      obtain ⟨m, up⟩ := r
      rw [ha] at h2
      simp only [Option.map_some, Option.some.injEq] at h2
      refine ⟨p, i, ⟨⟨l, ((Node.ctx rl cs).kidsAt p).take i⟩, up⟩, hp, ?_, ?_⟩
      · rw [show startFac (.ctx rl cs) start = Factory.init from hsf, pend_init]
        exact ⟨l, _, up, by rw [ha, h2], rfl⟩
      · intro rest hr
        exfalso
        have ht := leaves_toks (cs := cs)
        rw [hsplit, hb] at ht
        simp only [List.reverse_cons, List.append_assoc, List.map_append, List.map_cons, List.map_nil, List.cons_append,
          List.nil_append, List.map_reverse] at ht
        have ho := h.ord
        rw [← ht] at ho
        have ho2 := ordered_app ho
        have h3 := ho2.2.2
        have h4 := (ordered_app (a := [nxt.2]) ho2.2.1).2.2 nxt.2 (by simp) start.2 (by simp)
        have h5 := List.length_pos_iff.2 (ho.1 nxt.2 (by simp))
        simp only [TokN.stop] at h4
        rw [hr] at ht
        have ho3 := h.ord
        rw [hr] at ho3
        have hmem : nxt.2 ∈ start.2 :: rest := by rw [← ht]; simp
        rcases List.mem_cons.1 hmem with h6 | h6
        · rw [h6] at h4 h5; omega
        · have := (ordered_app (a := [start.2]) ho3).2.2 start.2 (by simp) nxt.2 h6
          simp only [TokN.stop] at this
          omega

/-- The last token of a tree is not in the middle of a group. -/
theorem last_group {rl : L} {E : List (Event α L A)} {cs : List (Node α L A)} (h : Built rl E cs) {u : TokN α A}
    (hu : (toksL cs).getLast? = some u) : u.group = none ∨ ∃ g, u.group = some g ∧ g < 0 := by
  rw [h.toks] at hu
  rcases List.eq_nil_or_concat E with h1 | ⟨E', e, h1⟩
  · rw [h1] at hu; simp at hu
  · rw [List.concat_eq_append] at h1
    have hne := h.ne e (by rw [h1]; simp)
    rw [h1, List.flatMap_append] at hu
    simp only [List.flatMap_cons, List.flatMap_nil, List.append_nil] at hu
    have hlen : (makeTokens e.lexemes).length = e.lexemes.length := makeTokens_length _
    have hpos := List.length_pos_iff.2 hne
    have hn : makeTokens e.lexemes ≠ [] := by
      intro h2; rw [h2] at hlen; simp at hlen; omega
    rw [List.getLast?_append, List.getLast?_eq_some_getLast hn] at hu
    simp only [Option.some_or, Option.some.injEq] at hu
    have hk : (makeTokens e.lexemes)[e.lexemes.length - 1]? = some u := by
      rw [← hlen, ← List.getLast?_eq_getElem?, List.getLast?_eq_some_getLast hn, hu]
    have hg := (makeTokens_get hk).2
    by_cases h1 : e.lexemes.length = 1
    · rw [if_pos h1] at hg; exact Or.inl hg
    · rw [if_neg h1, if_pos (by omega)] at hg
      exact Or.inr ⟨_, hg, by omega⟩

end Parce.RB

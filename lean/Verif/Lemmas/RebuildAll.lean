import Verif.Lemmas.RebuildTail
/-!
# Rebuilding a tree gives the tree of the new text
-/
set_option linter.unusedSectionVars false
namespace Parce.RB
variable {α L A ρ : Type} [DecidableEq α] [DecidableEq L] [DecidableEq A]
variable {lang : Lang α L A ρ} {rl : L} {t0 t1 : List α} {s n0 n1 N : Nat} {E0 E1 : List (Event α L A)}
  {cs : List (Node α L A)}

theorem build_root (rl : L) (E : List (Event α L A)) (hk : KeepsRoot [rl] E) : ∃ k, buildEvents rl E = .ctx rl k := by
  have h1 : buildEvents rl E = closeR (b00 rl) (pull E []) := by
    rw [← closeR_events E (b00 rl) hk, ← close_eq]; rfl
  rw [h1]
  exact closeR_root rfl _

theorem built_of (hl : ∀ l, LexOK (lang.ld l)) (hw : ExpandsWithin lang t0) (h : Ends lang t0 n0 (LState.start [rl] 0) E0) :
    Built rl E0 (buildTree lang rl t0 0 n0).kids := by
  have hE : (lexRun lang t0 n0 (LState.start [rl] 0)).1 = E0 := by rw [h]
  have hk : KeepsRoot [rl] E0 := by
    have := (lexRun_stack lang t0 n0 _ [rl] (start_inv [rl] 0 (by simp))).1
    rwa [hE] at this
  have hne := lexRun_lexemes_ne lang t0 n0 (LState.start [rl] 0)
  have hfull := C22_no_empty_contexts lang rl t0 0 n0
  have hord := C22_built_ordered lang rl t0 hl hw 0 (Nat.zero_le _) n0
  rw [hE] at hne
  have hpc := build_pieces rl E0
  unfold buildTree at hfull hord ⊢
  rw [hE] at hfull hord ⊢
  obtain ⟨k, hkk⟩ := build_root rl E0 hk
  rw [hkk] at hfull hord hpc ⊢
  simp only [Node.kids, Node.toks] at hfull hord ⊢
  refine ⟨hk, hne, hkk, ⟨hfull, hpc (rl, k) (by simp [Node.ctxs]), fun c hc => hpc c ?_⟩, hord⟩
  simp only [Node.ctxs, List.mem_cons]
  exact Or.inr hc

/-- `replace_tree` for the result of a build with the same root lexicon. -/
theorem replaceTree_same {same : L → L → Bool} (hs : same rl rl = true) {r : BuildResult α L A} {st et : List Nat}
    (hr : ∃ k, r.tree = .ctx rl k)
    (h1 : (if r.start ≠ 0 then (findTokenLeftTrail cs r.start).map (·.2) else some []) = some st)
    (h2 : (if r.lexicons.isNone then (findTokenTrail cs r.stop).map (·.2) else some []) = some et) :
    replaceTree same ⟨some rl, cs⟩ (some r) = (replaceAt r.offset cs r.tree.kids st et).map (fun cs => ⟨some rl, cs⟩) := by
  obtain ⟨k, hk⟩ := hr
  simp only [replaceTree, hk, hs, if_true, h1, h2, Node.kids]

theorem rebuild_ok (S : Sit lang rl t0 t1 s n0 n1 E0 E1 cs) {removed : Nat} {ins : List α} (hrem : s + removed ≤ t0.length)
    (ht1 : t1 = t0.take s ++ ins ++ t0.drop (s + removed)) (hN : n1 + 1 ≤ N) {same : L → L → Bool} (hs : same rl rl = true) :
    rebuild lang same N ⟨some rl, cs⟩ ⟨t1, none, s, removed, ins.length⟩ = some ⟨some rl, (buildEvents rl E1).kids⟩ := by
  have hf := S.built.wf.1
  have ho := S.built.ord
  have hk : KeepsRoot [rl] E1 := by
    have := (lexRun_stack lang t1 n1 _ [rl] (start_inv [rl] 0 (by simp))).1
    rwa [S.new] at this
  unfold rebuild buildNew buildNewWith
  simp only [Option.getD_some]
  generalize htl : (if s + ins.length < t1.length then tailGen lang rl cs (s + removed) else []) = tail
  have htail : ∀ q ∈ tail, TailOK lang rl cs (s + removed) q := by
    intro q hq
    rw [← htl] at hq
    split at hq
    · exact tailGen_ok hf ho hq
    · simp at hq
  cases hp : prepared lang N rl cs t1 s with
  | none =>
    simp only
    have hev : (lexAll lang t1 N (LState.start [rl] 0)).1 = E1 := S.new.all (by omega)
    rw [hev]
    have hr : Ready rl cs s [] (b00 rl) (b00 rl) := Or.inl ⟨rfl, rfl⟩
    have hb00 : (⟨⟨rl, []⟩, []⟩ : BState α L A) = b00 rl := rfl
    rw [hb00]
    rcases hbl : buildLoop lang (.ctx rl cs) ((ins.length : Int) - removed) tail E1 (b00 rl) with ⟨b', _ | q⟩
    · simp only
      obtain ⟨h1, h2⟩ := finish_none (P := []) (d := 0) (by simpa using hk) rfl hr hbl
      rw [replaceTree_same hs h1 (st := []) (et := []) (by simp) (by simp)]
      rw [h2]; simp
    · simp only
      obtain ⟨h1, h2, h3⟩ := finish_some S hrem ht1 htail (P := []) (X := E1) (by simp) rfl hr hbl
      rw [replaceTree_same hs h1 (st := []) (et := q.1) (by simp) (by simpa using h2)]
      rw [h3]; simp
  | some pr =>
    simp only
    obtain ⟨P, hE1, ⟨p, j, hpath, hcut, hne, _, _, hat⟩, hstop⟩ := prepared_ok S hN hp
    obtain ⟨ts, u, hts⟩ : ∃ ts u, pr.prev.toks = ts ++ [u] := by
      rcases List.eq_nil_or_concat pr.prev.toks with h | ⟨ts, u, h⟩
      · exact absurd h hne
      · exact ⟨ts, u, by rw [h, List.concat_eq_append]⟩
    have hu : (Node.ctx rl cs).at (p ++ [j + ts.length]) = some (.tok u) := hat ts.length u (by rw [hts]; simp)
    have hus : u.stop ≤ s := hstop u (by rw [hts]; simp)
    have hulen := List.length_pos_iff.2 (ho.1 u (by simpa [Node.toks] using at_mem_toks hu))
    have hu0 : u.stop ≠ 0 := by simp only [TokN.stop]; omega
    have hlast : (pr.prev.toks.getLast?.map TokN.stop).getD 0 = u.stop := by rw [hts]; simp
    have hmin : min s u.stop = u.stop := by omega
    rw [hts] at hcut
    simp only [List.length_append, List.length_cons, List.length_nil, Nat.zero_add] at hcut
    have hcut : Cut (.ctx rl cs) p (j + ts.length + 1) (P.foldl BState.event (b00 rl)) := by
      have : j + ts.length + 1 = j + (ts.length + 1) := by omega
      rw [this]; exact hcut
    have hanc : ancLexs (.ctx rl cs) pr.prev.path = (P.foldl BState.event (b00 rl)).lexs := by
      rw [ancLexs, hpath, List.dropLast_concat, hcut.lexs]
    have hup := hcut.up_length
    generalize hF : P.foldl BState.event (b00 rl) = F at hcut hanc hup
    have hchain : chain (ancLexs (.ctx rl cs) pr.prev.path) rl = (⟨⟨F.cur.lex, []⟩, emptyFrames (F.up.map (·.lex))⟩ : BState α L A) := by
      rw [hanc]; rfl
    generalize hb0 : (⟨⟨F.cur.lex, []⟩, emptyFrames (F.up.map (·.lex))⟩ : BState α L A) = b0 at hchain
    rw [hchain, hlast, hmin]
    have hr : Ready rl cs s (p ++ [j + ts.length]) F b0 := by
      rw [← hb0]
      refine Or.inr ⟨p, j + ts.length, u, F.up.map (·.lex), rfl, hcut, hu, hus, rfl, rfl, by simp [hup], ?_⟩
      simp [BState.lexs, emptyFrames]
    have hst : (if u.stop ≠ 0 then (findTokenLeftTrail cs u.stop).map (·.2) else some []) = some (p ++ [j + ts.length]) := by
      rw [if_pos hu0]; exact find_left_trail hf ho hu
    rcases hbl : buildLoop lang (.ctx rl cs) ((ins.length : Int) - removed) tail pr.events b0 with ⟨b', _ | q⟩
    · obtain ⟨h1, h2⟩ := finish_none (P := P) (d := 0) (by rw [← hE1]; exact hk) hF.symm hr hbl
      rw [replaceTree_same hs h1 (et := []) hst (by simp)]
      rw [h2, ← hE1]; simp
    · obtain ⟨h1, h2, h3⟩ := finish_some S hrem ht1 htail hE1 hF.symm hr hbl
      rw [replaceTree_same hs h1 (et := q.1) hst (by simpa using h2)]
      rw [h3]; simp

theorem buildLoop_nil (root : Node α L A) (d : Int) : ∀ (E : List (Event α L A)) (b : BState α L A),
    buildLoop lang root d [] E b = (E.foldl BState.event b, none) := by
  intro E
  induction E with
  | nil => intro b; rfl
  | cons e es ih =>
    intro b
    simp only [buildLoop, List.dropWhile_nil, List.foldl_cons]
    split <;> exact ih _

theorem replaceAt_nil (d : Int) (ts : List (Node α L A)) : replaceAt d cs ts [] [] = some ts := by
  have hh : replaceHere d cs ts [] [] = some ts := by simp [replaceHere, replaceStart, joinFirst, sliceEnd]
  cases ts with
  | nil => exact hh
  | cons x xs => cases x <;> cases xs <;> exact hh

/-- A new root lexicon: everything is built anew. -/
theorem rebuild_root (old : Option L) {l : L} {same : L → L → Bool} (hsame : ∀ l', old = some l' → same l l' = true → l' = l)
    (h1 : Ends lang t1 n1 (LState.start [l] 0) E1) (hN : n1 ≤ N) (x y z : Nat) :
    rebuild lang same N ⟨old, cs⟩ ⟨t1, some (some l), x, y, z⟩ = some ⟨some l, (buildEvents l E1).kids⟩ := by
  have hk : KeepsRoot [l] E1 := by
    have := (lexRun_stack lang t1 n1 _ [l] (start_inv [l] 0 (by simp))).1
    rwa [h1] at this
  have hprep : ∀ l', prepared lang N l' cs t1 0 = none := by
    intro l'
    simp only [prepared, if_true]
    split
    · rfl
    · split <;> rfl
  have hlt : ¬ (0 + t1.length < t1.length) := by omega
  have hev : (lexAll lang t1 N (LState.start [l] 0)).1 = E1 := h1.all hN
  obtain ⟨k, hkk⟩ := build_root l E1 hk
  have hclose : (E1.foldl BState.event (b00 l)).close = .ctx l (buildEvents l E1).kids := by
    rw [hkk]; exact hkk
  have hnew : buildNewWith lang N old cs l t1 0 0 t1.length =
      ⟨.ctx l (buildEvents l E1).kids, 0, t1.length, 0, some (lexAll lang t1 N (LState.start [l] 0)).2.reverse.tail⟩ := by
    unfold buildNewWith
    simp only [hlt, if_false]
    have hb00 : (⟨⟨l, []⟩, []⟩ : BState α L A) = b00 l := rfl
    cases old with
    | none => simp only [hev, hb00, buildLoop_nil, hclose]
    | some l' => simp only [hprep, hev, hb00, buildLoop_nil, hclose]
  unfold rebuild
  simp only [buildNew, hnew]
  cases old with
  | none => rfl
  | some l' =>
    simp only [replaceTree]
    by_cases hs : same l l' = true
    · rw [if_pos hs]
      simp [replaceAt_nil, hsame l' rfl hs]
    · rw [if_neg hs]

/-! ### Languages -/

/-- What both kinds of languages have in common. -/
structure Usable (lang : Lang α L A ρ) : Prop where
  ok : ∀ l, LexOK (lang.ld l)
  leftmost : ∀ l, Leftmost (lang.ld l)
  joins : Joins lang
  ahead : ∀ l, Ahead 9 (lang.ld l)
  within : ∀ t, ExpandsWithin lang t
  moved : ExpandsMoved lang
  atStart : ExpandsAtStart lang

theorem Restartable.usable {lang : Lang α L A ρ} (h : Restartable 9 lang) : Usable lang :=
  ⟨h.ok, h.leftmost, joins_forward h.ok h.behind h.moved, h.ahead, h.within, h.moved, h.atStart⟩

theorem Restartable1.usable {lang : Lang α L A ρ} (h : Restartable1 9 lang) : Usable lang :=
  ⟨h.ok, h.leftmost, joins_behind h.ok h.behind h.determined h.within h.moved h.atStart, h.ahead, h.within, h.moved, h.atStart⟩

theorem Usable.sit {lang : Lang α L A ρ} (hl : Usable lang) {root : L} {t : List α} {e : Edit α}
    (hfit : e.start + e.removed ≤ t.length) {n0 n1 : Nat} (h0 : Finished lang root t n0) (h1 : Finished lang root (Edit.run t e) n1) :
    Sit lang root t (Edit.run t e) e.start n0 n1 (lexRun lang t n0 (LState.start [root] 0)).1
      (lexRun lang (Edit.run t e) n1 (LState.start [root] 0)).1 (buildTree lang root t 0 n0).kids := by
  have fin : ∀ (t : List α) (n : Nat), Finished lang root t n →
      Ends lang t n (LState.start [root] 0) (lexRun lang t n (LState.start [root] 0)).1 := by
    intro t n h
    simp only [Finished, Option.isNone_iff_eq_none] at h
    exact Prod.ext rfl h
  refine ⟨hl.ok, hl.leftmost, hl.joins, hl.ahead, hl.within, hl.moved, hl.atStart, fin _ _ h0, fin _ _ h1,
    built_of hl.ok (hl.within t) (fin _ _ h0), by omega, ?_, ?_⟩
  · simp only [Edit.run, List.length_append, List.length_take]; omega
  · simp only [Edit.run, List.append_assoc]
    exact (List.take_left' (by rw [List.length_take]; omega)).symm

end Parce.RB

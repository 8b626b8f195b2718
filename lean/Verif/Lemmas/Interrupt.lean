import Verif.Lemmas.RebuildAll
import Verif.Model.Interrupt
/-!
# Changes that arrive while the new tree is built
-/
set_option linter.unusedSectionVars false
namespace Parce.RB
variable {α L A ρ : Type} [DecidableEq α] [DecidableEq L] [DecidableEq A]
variable {lang : Lang α L A ρ} {rl : L} {t0 t1 : List α} {m n0 n1 N : Nat} {E0 E1 : List (Event α L A)}
  {cs : List (Node α L A)}

/-! ### The loop up to a change -/

theorem loopTo {root : Node α L A} {d : Int} : ∀ (X : List (Event α L A)) (k : Nat) (tail : List (Leaf α A)) (b b' : BState α L A),
    (buildLoopTo lang root d k tail X b = (b', .done) → buildLoop lang root d tail X b = (b', none)) ∧
    (∀ q, buildLoopTo lang root d k tail X b = (b', .tail q) → buildLoop lang root d tail X b = (b', some q)) ∧
    (∀ rest, buildLoopTo lang root d k tail X b = (b', .change rest) →
      rest <:+ tail ∧ k < X.length ∧ ∃ X1 X2, X = X1 ++ X2 ∧ b' = X1.foldl BState.event b) := by
  intro X
  induction X with
  | nil =>
    intro k tail b b'
    simp only [buildLoopTo, buildLoop, Prod.mk.injEq]
    simp
  | cons e es ih =>
    intro k tail b b'
    have go : ∀ (tail' : List (Leaf α A)) (r : BState α L A × LoopEnd α A), tail' <:+ tail →
        r = (match k with
          | 0 => (b.event e, .change tail')
          | k + 1 => buildLoopTo lang root d k tail' es (b.event e)) →
        (r = (b', .done) → buildLoop lang root d tail' es (b.event e) = (b', none)) ∧
        (∀ q, r = (b', .tail q) → buildLoop lang root d tail' es (b.event e) = (b', some q)) ∧
        (∀ rest, r = (b', .change rest) →
          rest <:+ tail ∧ k < (e :: es).length ∧ ∃ X1 X2, e :: es = X1 ++ X2 ∧ b' = X1.foldl BState.event b) := by
      intro tail' r hsub hr
      cases k with
      | zero =>
        subst hr
        refine ⟨by simp, by simp, ?_⟩
        intro rest h
        simp only [Prod.mk.injEq, LoopEnd.change.injEq] at h
        obtain ⟨rfl, rfl⟩ := h
        exact ⟨hsub, by simp, [e], es, rfl, rfl⟩
      | succ k =>
        subst hr
        obtain ⟨h1, h2, h3⟩ := ih k tail' (b.event e) b'
        refine ⟨h1, h2, fun rest h => ?_⟩
        obtain ⟨h4, hk, X1, X2, h5, h6⟩ := h3 rest h
        exact ⟨h4.trans hsub, by simpa using hk, e :: X1, X2, by rw [h5]; rfl, h6⟩
    simp only [buildLoopTo, buildLoop]
    cases hlx : e.lexemes.head? with
    | none => exact go tail _ (List.suffix_refl _) rfl
    | some lx =>
      simp only
      have hsuf : tail.dropWhile (fun q => decide ((q.2.pos : Int) < (lx.pos : Int) - d)) <:+ tail := List.dropWhile_suffix _
      cases hdw : tail.dropWhile (fun q => decide ((q.2.pos : Int) < (lx.pos : Int) - d)) with
      | nil => exact go [] _ List.nil_suffix rfl
      | cons q' rest =>
        simp only
        rw [hdw] at hsuf
        by_cases hc : (lx.pos : Int) - d = q'.2.pos ∧ lx.text = q'.2.text ∧ lx.act = q'.2.act ∧
            (b.target e.target).cur.lex :: (b.target e.target).up.map (·.lex) = ancLexs root q'.1 ∧
            ((b.target e.target).cur.kids ≠ [] ∨ lang.consume (b.target e.target).cur.lex = false)
        · simp only [if_pos hc]
          refine ⟨by simp, ?_, by simp⟩
          intro q h
          simp only [Prod.mk.injEq, LoopEnd.tail.injEq] at h
          simp [h]
        · simp only [if_neg hc]
          exact go _ _ hsuf rfl

/-! ### The start of the loop -/

/-- The events to come continue the events of the new text. -/
def Starts (rl : L) (cs : List (Node α L A)) (m : Nat) (E1 : List (Event α L A)) (b : Begun α L A) : Prop :=
  ∃ P st, E1 = P ++ b.events ∧ Ready rl cs m st (P.foldl BState.event (b00 rl)) b.tree ∧
    (if b.lowest ≠ 0 then (findTokenLeftTrail cs b.lowest).map (·.2) else some []) = some st ∧ b.lowest ≤ m ∧ toksB b.tree = []

theorem begin_ok {s : Build α L A} (S : Sit lang rl t0 s.text (min s.lowest s.start) n0 n1 E0 E1 cs) (hN : n1 + 1 ≤ N) (hrl : s.root = rl) :
    Starts rl cs (min s.lowest s.start) E1 (begin lang N (some rl) cs s) := by
  have hf := S.built.wf.1
  have ho := S.built.ord
  unfold begin
  simp only [Option.bind_some, Option.getD_some, hrl]
  cases hp : prepared lang N rl cs s.text (min s.lowest s.start) with
  | none =>
    simp only
    have hev : (lexAll lang s.text N (LState.start [rl] 0)).1 = E1 := S.new.all (by omega)
    refine ⟨[], [], by rw [hev]; rfl, Or.inl ⟨rfl, rfl⟩, by simp, Nat.zero_le _, rfl⟩
  | some pr =>
    simp only
    obtain ⟨P, hE1, ⟨p, j, hpath, hcut, hne, _, _, hat⟩, hstop⟩ := prepared_ok S hN hp
    obtain ⟨ts, u, hts⟩ : ∃ ts u, pr.prev.toks = ts ++ [u] := by
      rcases List.eq_nil_or_concat pr.prev.toks with h | ⟨ts, u, h⟩
      · exact absurd h hne
      · exact ⟨ts, u, by rw [h, List.concat_eq_append]⟩
    have hu : (Node.ctx rl cs).at (p ++ [j + ts.length]) = some (.tok u) := hat ts.length u (by rw [hts]; simp)
    have hus : u.stop ≤ min s.lowest s.start := hstop u (by rw [hts]; simp)
    have hulen := List.length_pos_iff.2 (ho.1 u (by simpa [Node.toks] using at_mem_toks hu))
    have hu0 : u.stop ≠ 0 := by simp only [TokN.stop]; omega
    have hlast : (pr.prev.toks.getLast?.map TokN.stop).getD 0 = u.stop := by rw [hts]; simp
    have hmin : min s.lowest u.stop = u.stop := by omega
    rw [hts] at hcut
    simp only [List.length_append, List.length_cons, List.length_nil, Nat.zero_add] at hcut
    have hcut : Cut (.ctx rl cs) p (j + ts.length + 1) (P.foldl BState.event (b00 rl)) := by
      have : j + ts.length + 1 = j + (ts.length + 1) := by omega
      rw [this]; exact hcut
    have hanc : ancLexs (.ctx rl cs) pr.prev.path = (P.foldl BState.event (b00 rl)).lexs := by
      rw [ancLexs, hpath, List.dropLast_concat, hcut.lexs]
    have hup := hcut.up_length
    rw [hlast, hmin]
    refine ⟨P, p ++ [j + ts.length], hE1, ?_, ?_, hus, ?_⟩
    · generalize hF : P.foldl BState.event (b00 rl) = F at hcut hanc hup
      have hchain : chain (ancLexs (.ctx rl cs) pr.prev.path) rl = (⟨⟨F.cur.lex, []⟩, emptyFrames (F.up.map (·.lex))⟩ : BState α L A) := by
        rw [hanc]; rfl
      rw [hchain]
      refine Or.inr ⟨p, j + ts.length, u, F.up.map (·.lex), rfl, hcut, hu, hus, rfl, rfl, by simp [hup], ?_⟩
      simp [BState.lexs, emptyFrames]
    · rw [if_pos hu0]; exact find_left_trail hf ho hu
    · generalize ancLexs (.ctx rl cs) pr.prev.path = ls
      have hd : ∀ (ls : List L), doneT (ls.map (fun l => (⟨l, []⟩ : Frame α L A))) = [] := by
        intro ls
        induction ls with
        | nil => rfl
        | cons l ls ih => simp only [List.map_cons, doneT, ih, toksL, List.nil_append]
      cases ls with
      | nil => exact hd [rl]
      | cons l ls => exact hd (l :: ls)

/-! ### No part of the new tree can be used again -/

theorem back_any {root : Node α L A} {t : TokN α A} : ∀ (path base : List Nat) (sub : Node α L A), root.at base = some sub →
    sub.at path = some (.tok t) → ∃ after, sub.leavesAt base = (((List.range path.length).reverse).flatMap (fun k =>
      let i := path[k]?.getD 0
      if i ≠ 0 then utilTokens true ((children false (base ++ path.take k) (root.kidsAt (base ++ path.take k))).take i) else [])).reverse ++
      (base ++ path, t) :: after := by
  intro path
  induction path with
  | nil =>
    intro base sub _ h2
    simp only [Node.at, Option.some.injEq] at h2
    subst h2
    exact ⟨[], by simp [Node.leavesAt]⟩
  | cons i path ih =>
    intro base sub h1 h2
    cases sub with
    | tok u => simp [Node.at, Node.kids] at h2
    | ctx l ds =>
      simp only [Node.at, Node.kids] at h2
      cases hi : ds[i]? with
      | none => rw [hi] at h2; simp at h2
      | some n =>
        rw [hi] at h2
        simp only [Option.bind_some] at h2
        have h3 : root.at (base ++ [i]) = some n := by
          rw [at_append, h1]
          simp [Node.at, Node.kids, hi]
        obtain ⟨after, h4⟩ := ih (base ++ [i]) n h3 h2
        refine ⟨after ++ leavesL base (0 + i + 1) (ds.drop (i + 1)), ?_⟩
        rw [show (Node.ctx l ds).leavesAt base = leavesL base 0 ds from rfl, leavesL_split base 0 hi, Nat.zero_add, h4]
        simp only [List.length_cons, range_succ_rev, List.flatMap_append, List.flatMap_map, List.getElem?_cons_succ, List.take_succ_cons,
          List.flatMap_cons, List.flatMap_nil, List.getElem?_cons_zero, Option.getD_some, List.take_zero, List.append_nil,
          List.reverse_append, List.append_assoc, List.cons_append, List.nil_append]
        have h5 : (if i ≠ 0 then utilTokens true ((children false base (root.kidsAt base)).take i) else []).reverse =
            leavesL base 0 (ds.take i) := by
          rw [kidsAt_eq h1]
          by_cases h0 : i = 0
          · subst h0; simp [leavesL]
          · rw [if_pos h0, utilTokens_eq, if_pos rfl, List.reverse_reverse, children_false, kidsFrom_take, kidsFrom_leaves]; rfl
        rw [h5]

theorem back_some {root : Node α L A} {q : List Nat} {t : TokN α A} (h : root.at q = some (.tok t)) :
    ∃ after, root.toks = ((back root q).reverse.map (·.2)) ++ t :: after := by
  obtain ⟨after, h1⟩ := back_any (root := root) q [] root rfl h
  have h2 : root.leavesAt [] = (back root q).reverse ++ (q, t) :: after := by
    simpa [back] using h1
  refine ⟨after.map (·.2), ?_⟩
  have h3 : (root.leavesAt []).map (·.2) = root.toks := by
    cases root with
    | tok u => simp [Node.leavesAt, Node.toks]
    | ctx l ds => exact leaves_toks
  rw [← h3, h2]
  simp

theorem seek_length (ok : Leaf α A → Bool) : ∀ (rest : List (Leaf α A)) (cur : Leaf α A) (count : Nat), 1 ≤ count →
    (seek ok cur rest count).2.2 = true → count ≤ rest.length := by
  intro rest
  induction rest with
  | nil => intro cur count _ h; simp [seek] at h
  | cons nxt rest ih =>
    intro cur count hc h
    simp only [seek] at h
    simp only [List.length_cons]
    split at h
    · split at h
      · omega
      · have := ih _ _ (by omega) h; omega
    · have := ih _ _ hc h; omega

theorem prepLoopNew_none {root : Node α L A} {t : List α} {last : Leaf α A} (fuel : Nat) (goBack : List (Leaf α A))
    (h : goBack.length ≤ 10) : prepLoopNew lang N root t last fuel goBack = none := by
  cases fuel with
  | zero => rfl
  | succ fuel =>
    cases goBack with
    | nil => rfl
    | cons c rest =>
      simp only [prepLoopNew]
      rw [if_neg]
      rintro ⟨h1, _⟩
      have := seek_length _ _ _ _ (by omega) h1
      simp only [List.length_cons] at h
      omega

theorem preparedNew_none {root : Node α L A} {l : L} {k : List (Node α L A)} (hr : root = .ctx l k) {t : List α} {start : Nat}
    (ho : Ordered root.toks) (h : root.toks.countP (fun u => decide (u.stop ≤ start)) ≤ 11) :
    preparedNew lang N root t start = none := by
  subst hr
  unfold preparedNew
  cases hfb : findBefore start (sizeL (Node.ctx l k).kids + 1) [] (Node.ctx l k).kids with
  | none => rfl
  | some tok =>
    obtain ⟨r, h1, h2, h3⟩ := findBefore_ok (rl := l) _ _ _ _ hfb
    rw [List.nil_append] at h1
    rw [← h1] at h2
    have h2 : (Node.ctx l k).at tok.1 = some (.tok tok.2) := h2
    obtain ⟨after, h4⟩ := back_some h2
    have hlen : (back (.ctx l k) tok.1).length ≤ 10 := by
      rw [h4] at h ho
      have hall : ∀ u ∈ ((back (.ctx l k) tok.1).reverse.map (·.2)), decide (u.stop ≤ start) = true := by
        intro u hu
        have := (ordered_app ho).2.2 u hu tok.2 (by simp)
        have h6 : tok.2.pos ≤ tok.2.stop := by simp [TokN.stop]
        simp only [decide_eq_true_eq]; omega
      rw [List.countP_append, List.countP_eq_length.2 hall, List.countP_cons_of_pos (by simpa using h3)] at h
      simp only [List.length_map, List.length_reverse] at h
      omega
    simp only
    split
    · rfl
    · rename_i last goBack heq
      split
      · rfl
      · apply prepLoopNew_none
        split at heq
        · split at heq
          · cases heq
          · rename_i q rest hdw
            cases heq
            have := (List.dropWhile_suffix (fun q : Leaf α A => inGroup q.2) (l := back (.ctx l k) tok.1)).length_le
            rw [hdw] at this
            simp only [List.length_cons] at this
            omega
        · cases heq
          exact hlen

end Parce.RB

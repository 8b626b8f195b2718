import Verif.Lemmas.RebuildReplace
/-!
# The end of a rebuild: the old tail is reached
-/
set_option linter.unusedSectionVars false
namespace Parce.RB
variable {α L A ρ : Type}

/-! ### The tail generator -/

theorem bisect_false (f : Nat → Bool) : ∀ (fuel lo hi : Nat), lo ≤ hi → hi - lo ≤ fuel →
    bisect f fuel lo hi = hi ∨ f (bisect f fuel lo hi) = false := by
  intro fuel
  induction fuel with
  | zero => intro lo hi h1 h2; left; simp only [bisect]; omega
  | succ fuel ih =>
    intro lo hi h1 h2
    simp only [bisect]
    split
    · split
      · exact ih _ _ (by omega) (by omega)
      · rename_i h
        rcases ih lo ((lo + hi) / 2) (by omega) (by omega) with h3 | h3
        · right; rw [h3]; simpa using h
        · exact Or.inr h3
    · left; omega

theorem findAfter_ok {pos : Nat} {rl : L} : ∀ (fuel : Nat) (path : List Nat) (cs : List (Node α L A)) (q : Leaf α A),
    findAfter pos fuel path cs = some q →
    ∃ r, q.1 = path ++ r ∧ (Node.ctx rl cs).at r = some (.tok q.2) ∧ pos ≤ q.2.pos := by
  intro fuel
  induction fuel generalizing rl with
  | zero => intro path cs q h; simp [findAfter] at h
  | succ fuel ih =>
    intro path cs q h
    simp only [findAfter] at h
    have hb := bisect_false (nodeIs cs (fun n => ((n.lastTok.map (fun t => decide (t.pos < pos))).getD true)))
      cs.length 0 cs.length (by omega) (by omega)
    generalize hi : bisect (nodeIs cs (fun n => ((n.lastTok.map (fun t => decide (t.pos < pos))).getD true)))
      cs.length 0 cs.length = i at h hb
    cases hc : cs[i]? with
    | none => rw [hc] at h; simp at h
    | some n =>
      have hlt := getElem?_lt hc
      rw [hc] at h
      cases n with
      | tok t =>
        simp only [Option.some.injEq] at h
        subst h
        refine ⟨[i], rfl, by simp [Node.at, Node.kids, hc], ?_⟩
        rcases hb with hb | hb
        · omega
        · simp only [nodeIs, hc, Option.map_some, Option.getD_some, Node.lastTok] at hb
          simpa using hb
      | ctx l ds =>
        simp only at h
        obtain ⟨r, h1, h2, h3⟩ := ih (rl := l) _ _ _ h
        refine ⟨i :: r, by rw [h1]; simp, ?_, h3⟩
        simp [Node.at, Node.kids, hc, h2]

variable [DecidableEq α] [DecidableEq L] [DecidableEq A]

theorem tailGen_ok {lang : Lang α L A ρ} {rl : L} {cs : List (Node α L A)} (hf : FullL cs) (ho : Ordered (toksL cs)) {stop : Nat}
    {q : Leaf α A} (h : q ∈ tailGen lang rl cs stop) :
    (Node.ctx rl cs).at q.1 = some (.tok q.2) ∧ (q.2.group = none ∨ q.2.group = some 0) ∧
    firstConsume lang (.ctx rl cs) q.1 = false ∧ stop ≤ q.2.pos := by
  unfold tailGen at h
  cases hfa : findAfter stop (sizeL cs + 1) [] cs with
  | none => rw [hfa] at h; simp at h
  | some tok =>
    rw [hfa] at h
    simp only [List.mem_filter, Bool.and_eq_true, Bool.not_eq_true', Bool.or_eq_true] at h
    obtain ⟨r, h1, h2, h3⟩ := findAfter_ok (rl := rl) _ _ _ _ hfa
    rw [List.nil_append] at h1
    rw [← h1] at h2
    obtain ⟨bef, h4, h5⟩ := walk_split (root := .ctx rl cs) hf ho (base := []) (sub := .ctx rl cs) rfl h2
    have h4 : leavesL [] 0 cs = bef ++ tok :: forward (.ctx rl cs) [] tok.1 := by simpa [Node.leavesAt] using h4
    have hat : (Node.ctx rl cs).at q.1 = some (.tok q.2) := leaf_mem.1 (by rw [h4]; exact List.mem_append_right _ h.1)
    refine ⟨hat, ?_, h.2.2, ?_⟩
    · rcases h.2.1 with hg | hg
      · exact Or.inl (by simpa using hg)
      · exact Or.inr (by simpa using hg)
    · rcases List.mem_cons.1 h.1 with hq | hq
      · rw [hq]; exact h3
      · have ht := leaves_toks (cs := cs)
        rw [h4] at ht
        have ho' := ho
        rw [← ht] at ho'
        simp only [List.map_append, List.map_cons] at ho'
        have := (ordered_app (a := [tok.2]) (ordered_app ho').2.1).2.2 tok.2 (by simp) q.2 (List.mem_map.2 ⟨q, hq, rfl⟩)
        simp only [TokN.stop] at this
        omega

/-- A token of the old tree, not before `stop`, where the old tail may begin. -/
def TailOK (lang : Lang α L A ρ) (rl : L) (cs : List (Node α L A)) (stop : Nat) (q : Leaf α A) : Prop :=
  (Node.ctx rl cs).at q.1 = some (.tok q.2) ∧ (q.2.group = none ∨ q.2.group = some 0) ∧
  firstConsume lang (.ctx rl cs) q.1 = false ∧ stop ≤ q.2.pos

/-! ### The loop -/

theorem buildLoop_none {lang : Lang α L A ρ} {root : Node α L A} {offset : Int} : ∀ (X : List (Event α L A)) (tail : List (Leaf α A))
    (b b' : BState α L A), buildLoop lang root offset tail X b = (b', none) → b' = X.foldl BState.event b := by
  intro X
  induction X with
  | nil => intro tail b b' h; simp only [buildLoop, Prod.mk.injEq, and_true] at h; exact h.symm
  | cons e es ih =>
    intro tail b b' h
    simp only [buildLoop] at h
    split at h
    · exact ih _ _ _ h
    · split at h
      · exact ih _ _ _ h
      · split at h
        · simp at h
        · exact ih _ _ _ h

theorem buildLoop_some {lang : Lang α L A ρ} {root : Node α L A} {offset : Int} : ∀ (X : List (Event α L A)) (tail : List (Leaf α A))
    (b b' : BState α L A) (q : Leaf α A), buildLoop lang root offset tail X b = (b', some q) →
    ∃ X1 e X2 lx, X = X1 ++ e :: X2 ∧ b' = (X1.foldl BState.event b).target e.target ∧ q ∈ tail ∧ e.lexemes.head? = some lx ∧
      (lx.pos : Int) - offset = q.2.pos ∧ lx.text = q.2.text ∧ lx.act = q.2.act ∧ b'.lexs = ancLexs root q.1 ∧ (b'.cur.kids ≠ [] ∨ lang.consume b'.cur.lex = false) := by
  intro X
  induction X with
  | nil => intro tail b b' q h; simp [buildLoop] at h
  | cons e es ih =>
    intro tail b b' q h
    simp only [buildLoop] at h
    have rec' : ∀ tail', (∀ x ∈ tail', x ∈ tail) → buildLoop lang root offset tail' es (b.event e) = (b', some q) →
        ∃ X1 e' X2 lx, e :: es = X1 ++ e' :: X2 ∧ b' = (X1.foldl BState.event b).target e'.target ∧ q ∈ tail ∧
        e'.lexemes.head? = some lx ∧ (lx.pos : Int) - offset = q.2.pos ∧ lx.text = q.2.text ∧ lx.act = q.2.act ∧ b'.lexs = ancLexs root q.1 ∧
        (b'.cur.kids ≠ [] ∨ lang.consume b'.cur.lex = false) := by
      intro tail' hsub h'
      obtain ⟨X1, e', X2, lx, h1, h2, h3, h4⟩ := ih _ _ _ _ h'
      exact ⟨e :: X1, e', X2, lx, by simp [h1], h2, hsub _ h3, h4⟩
    split at h
    · exact rec' tail (fun _ h => h) h
    · rename_i lx hlx
      have hsuf : ∀ x ∈ tail.dropWhile (fun q => decide ((q.2.pos : Int) < (lx.pos : Int) - offset)), x ∈ tail :=
        fun x hx => (List.dropWhile_suffix _).subset hx
      split at h
      · exact rec' [] (by simp) h
      · rename_i q' rest hdw
        rw [hdw] at hsuf
        split at h
        · rename_i hc
          simp only [Prod.mk.injEq, Option.some.injEq] at h
          obtain ⟨rfl, rfl⟩ := h
          exact ⟨[], e, es, lx, rfl, rfl, hsuf _ (by simp), hlx, hc.1, hc.2.1, hc.2.2.1, hc.2.2.2.1, hc.2.2.2.2⟩
        · exact rec' _ hsuf h

/-! ### The new tree and the whole tree -/

/-- The same contexts are open, and if the current one has nodes here, it has there. -/
def NE (b F : BState α L A) : Prop := b.lexs = F.lexs ∧ (b.cur.kids ≠ [] → F.cur.kids ≠ [])

theorem NE.leave {b F : BState α L A} (h : NE b F) : NE b.leave F.leave := by
  obtain ⟨⟨l, k⟩, up⟩ := b
  obtain ⟨⟨l', k'⟩, up'⟩ := F
  obtain ⟨h1, h2⟩ := h
  simp only [BState.lexs, List.map_cons, List.cons.injEq] at h1
  cases up with
  | nil =>
    cases up' with
    | nil => exact ⟨by simp [BState.leave, BState.lexs, h1], h2⟩
    | cons _ _ => simp at h1
  | cons f fs =>
    cases up' with
    | nil => simp at h1
    | cons f' fs' =>
      simp only [List.map_cons, List.cons.injEq] at h1
      exact ⟨by simp [BState.leave, BState.lexs, h1], by simp [BState.leave]⟩

theorem NE.enter {b F : BState α L A} (h : NE b F) (l : L) : NE (b.enter l) (F.enter l) := by
  refine ⟨?_, by simp [BState.enter]⟩
  have := h.1
  simp only [BState.lexs] at this
  simp only [BState.enter, BState.lexs, List.map_cons, this]

theorem NE.target {b F : BState α L A} (h : NE b F) (tg : Option (Target L)) : NE (b.target tg) (F.target tg) := by
  cases tg with
  | none => exact h
  | some t =>
    have h1 : ∀ (n : Nat) (b F : BState α L A), NE b F → NE (b.leaves n) (F.leaves n) := by
      intro n
      induction n with
      | zero => intro b F h; exact h
      | succ n ih => intro b F h; exact ih _ _ h.leave
    have h2 : ∀ (ls : List L) (b F : BState α L A), NE b F → NE (ls.foldl BState.enter b) (ls.foldl BState.enter F) := by
      intro ls
      induction ls with
      | nil => intro b F h; exact h
      | cons l ls ih => intro b F h; exact ih _ _ (h.enter l)
    exact h2 _ _ _ (h1 _ _ _ h)

theorem NE.events : ∀ (X : List (Event α L A)) {b F : BState α L A}, NE b F → NE (X.foldl BState.event b) (X.foldl BState.event F) := by
  intro X
  induction X with
  | nil => intro b F h; exact h
  | cons e X ih =>
    intro b F h
    refine ih ?_
    obtain ⟨h1, h2⟩ := h.target e.target
    refine ⟨h1, ?_⟩
    simp only [BState.event, ne_eq, List.append_eq_nil_iff]
    rintro h3 ⟨h4, h5⟩
    by_cases h6 : (b.target e.target).cur.kids = []
    · exact h3 ⟨h6, h5⟩
    · exact h2 h6 h4

theorem closeUp_root : ∀ (fs : List (Frame α L A)) (l r : L) (ks : List (Node α L A)) (R : List (List (Node α L A))),
    (l :: fs.map (·.lex)).getLast? = some r → ∃ k, closeUp (.ctx l ks) fs R = .ctx r k := by
  intro fs
  induction fs with
  | nil => intro l r ks R h; simp only [List.map_nil, List.getLast?_singleton, Option.some.injEq] at h; exact ⟨ks, by rw [← h]; rfl⟩
  | cons f fs ih =>
    intro l r ks R h
    simp only [List.map_cons, List.getLast?_cons_cons] at h
    exact ih _ _ _ _ h

theorem closeR_root {b : BState α L A} {r : L} (h : b.lexs.getLast? = some r) (R : List (List (Node α L A))) :
    ∃ k, closeR b R = .ctx r k := by
  simp only [closeR]
  exact closeUp_root _ _ _ _ _ (by simpa [BState.lexs] using h)

theorem anc_length : ∀ (q : List Nat) (n m : Node α L A) (w u : List (Frame α L A)), anc w n q = some (m, u) →
    u.length = q.length + w.length := by
  intro q
  induction q with
  | nil => intro n m w u h; simp only [anc, Option.some.injEq, Prod.mk.injEq] at h; simp [← h.2]
  | cons i q ih =>
    intro n m w u h
    cases n with
    | tok t => simp [anc] at h
    | ctx l cs =>
      simp only [anc] at h
      cases hi : cs[i]? with
      | none => rw [hi] at h; simp at h
      | some c =>
        rw [hi] at h
        simp only [Option.bind_some] at h
        have := ih _ _ _ _ h
        simp only [List.length_cons] at this ⊢; omega

theorem Cut.up_length {root : Node α L A} {p : List Nat} {i : Nat} {b : BState α L A} (h : Cut root p i b) : b.up.length = p.length := by
  obtain ⟨l, cs, up, h1, rfl⟩ := h
  simpa using anc_length _ _ _ _ _ h1

/-- The tree that is built, `b0`, and the old tree up to where it starts, `F`. -/
def Ready (rl : L) (cs : List (Node α L A)) (s : Nat) (st : List Nat) (F b0 : BState α L A) : Prop :=
  (st = [] ∧ F = b0) ∨
  ∃ p j u ls, st = p ++ [j] ∧ Cut (.ctx rl cs) p (j + 1) F ∧ (Node.ctx rl cs).at st = some (.tok u) ∧ u.stop ≤ s ∧
    b0.cur.kids = [] ∧ b0.up = emptyFrames ls ∧ ls.length = p.length ∧ b0.lexs = F.lexs

variable {lang : Lang α L A ρ} {rl : L} {t0 t1 : List α} {s n0 n1 N : Nat} {E0 E1 : List (Event α L A)}
  {cs : List (Node α L A)}

theorem Ready.lexs {st : List Nat} {F b0 : BState α L A} (h : Ready rl cs s st F b0) : b0.lexs = F.lexs := by
  rcases h with ⟨_, rfl⟩ | ⟨_, _, _, _, _, _, _, _, _, _, _, h⟩
  · rfl
  · exact h

theorem Ready.ne {st : List Nat} {F b0 : BState α L A} (h : Ready rl cs s st F b0) : NE b0 F := by
  refine ⟨h.lexs, ?_⟩
  rcases h with ⟨_, rfl⟩ | ⟨_, _, _, _, _, _, _, _, h, _⟩
  · exact id
  · intro h'; exact absurd h h'

theorem Ready.replace {st : List Nat} {F b0 : BState α L A} (h : Ready rl cs s st F b0) (R : List (List (Node α L A))) :
    replaceStart cs (closeR b0 R).kids [] st = some (closeR F R).kids ∧ Deep (closeR b0 R).kids st := by
  rcases h with ⟨rfl, rfl⟩ | ⟨p, j, u, ls, rfl, hc, _, _, hk, hu, hl, _⟩
  · exact ⟨by simp [replaceStart], trivial⟩
  · exact ⟨replaceStart_cut hc b0 hk hu hl R, deep_closeR hk hu hl j R⟩

theorem kids_ctx {n : Node α L A} {l : L} {k : List (Node α L A)} (h : n = .ctx l k) : n = .ctx l n.kids := by
  rw [h]; rfl

/-- The new tree was built to the end of the text. -/
theorem finish_none {st : List Nat} {F b0 b' : BState α L A} {P X : List (Event α L A)} {tail : List (Leaf α A)} {offset d : Int}
    (hk : KeepsRoot [rl] (P ++ X)) (hF : F = P.foldl BState.event (b00 rl)) (hr : Ready rl cs s st F b0)
    (h : buildLoop lang (.ctx rl cs) offset tail X b0 = (b', none)) :
    (∃ k, b'.close = .ctx rl k) ∧ replaceAt d cs b'.close.kids st [] = some (buildEvents rl (P ++ X)).kids := by
  have hb := buildLoop_none _ _ _ _ h
  have hk2 := (keepsRoot_append _ _ _).1 hk
  have hFl : F.lexs = replayStack [rl] P := by rw [hF]; exact events_lexs P (b00 rl) hk2.1
  have hclose : b'.close = closeR b0 (pull X []) := by
    rw [close_eq, hb, closeR_events X b0 (by rw [hr.lexs, hFl]; exact hk2.2)]
  have hroot : b0.lexs.getLast? = some rl := by
    rw [hr.lexs, hFl, keepsRoot_root _ _ hk2.1]; rfl
  obtain ⟨k, hkk⟩ := closeR_root hroot (pull X [])
  rw [hclose]
  refine ⟨⟨k, hkk⟩, ?_⟩
  obtain ⟨h1, h2⟩ := hr.replace (pull X [])
  have hE : buildEvents rl (P ++ X) = closeR F (pull X []) := by
    rw [← closeR_events X F (by rw [hFl]; exact hk2.2), ← close_eq, hF]
    unfold buildEvents
    rw [List.foldl_append]; rfl
  rw [hE, ← h1]
  have hdummy : ∀ (u : TokN α A), replaceAt d cs (closeR b0 (pull X [])).kids st [] =
      replaceStart cs (joinRest d (.ctx rl cs) (.ctx rl (closeR b0 (pull X [])).kids) []).kids [] st := by
    intro u0
    rcases hr with ⟨rfl, _⟩ | ⟨p, j, u, ls, hst, _, hat, _⟩
    · exact replaceAt_eq d [] rl rl cs _ [] u0 u0 h2 trivial (Or.inl rfl) (Or.inl rfl) (fun h => h)
    · exact replaceAt_eq d st rl rl cs _ [] u u0 h2 trivial (Or.inr hat) (Or.inl rfl) (fun h => h)
  have hx : replaceAt d cs (closeR b0 (pull X [])).kids st [] =
      replaceStart cs (joinRest d (.ctx rl cs) (.ctx rl (closeR b0 (pull X [])).kids) []).kids [] st := by
    rcases hr with ⟨rfl, hFb⟩ | ⟨p, j, u, ls, hst, h3, hat, h4⟩
    · -- no token is needed
      generalize (closeR b0 (pull X [])).kids = ts
      have hh : replaceHere d cs ts [] [] = replaceStart cs (joinRest d (.ctx rl cs) (.ctx rl ts) []).kids [] [] := by
        simp [replaceHere, replaceStart, joinFirst, sliceEnd, joinRest, Node.kids]
      cases ts with
      | nil => exact hh
      | cons x xs => cases x <;> cases xs <;> exact hh
    · exact hdummy u
  rw [hx]
  simp [joinRest, Node.kids]

theorem move_shift {a a' : Nat} {d : Int} (hd : (a' : Int) = a + d) (F : List (Event α L A)) :
    F.map (Event.move a') = (F.map (Event.move a)).map (shiftE d) := by
  rw [List.map_map]
  apply List.map_congr_left
  intro e _
  simp only [Event.move, Function.comp, shiftE, List.map_map, Event.mk.injEq, true_and]
  apply List.map_congr_left
  intro l _
  simp only [Function.comp, Lexeme.move, Lexeme.mk.injEq, and_true]
  omega

/-- The tail was reached. -/
theorem finish_some (S : Sit lang rl t0 t1 s n0 n1 E0 E1 cs) {removed : Nat} {ins : List α} (hrem : s + removed ≤ t0.length)
    (ht1 : t1 = t0.take s ++ ins ++ t0.drop (s + removed))
    {st : List Nat} {F b0 b' : BState α L A} {P X : List (Event α L A)} {tail : List (Leaf α A)} {q : Leaf α A}
    (htail : ∀ q ∈ tail, TailOK lang rl cs (s + removed) q)
    (hE1 : E1 = P ++ X) (hF : F = P.foldl BState.event (b00 rl)) (hr : Ready rl cs s st F b0)
    (h : buildLoop lang (.ctx rl cs) ((ins.length : Int) - removed) tail X b0 = (b', some q)) :
    (∃ k, b'.close = .ctx rl k) ∧ (findTokenTrail cs q.2.pos).map (·.2) = some q.1 ∧
    replaceAt ((ins.length : Int) - removed) cs b'.close.kids st q.1 = some (buildEvents rl E1).kids := by
  have hf := S.built.wf.1
  have ho := S.built.ord
  obtain ⟨X1, e, X2, lx, hX, hb', hqt, hlx, hpos, htx, hac, hlexs, hcond⟩ := buildLoop_some _ _ _ _ _ h
  obtain ⟨hqat, hqg, hqf, hqpos⟩ := htail q hqt
  have hk : KeepsRoot [rl] E1 := by
    have := (lexRun_stack lang t1 n1 _ [rl] (start_inv [rl] 0 (by simp))).1
    rwa [S.new] at this
  have hk' := hk
  rw [hE1] at hk'
  have hk2 := (keepsRoot_append _ _ _).1 hk'
  have hFl : F.lexs = replayStack [rl] P := by rw [hF]; exact events_lexs P (b00 rl) hk2.1
  have hE1' : E1 = (P ++ X1) ++ e :: X2 := by rw [hE1, hX]; simp
  have hb1F : before rl (P ++ X1) e = (X1.foldl BState.event F).target e.target := by
    rw [before, List.foldl_append, hF]
  have hNE : NE b' (before rl (P ++ X1) e) := by
    rw [hb', hb1F]
    exact (NE.events X1 hr.ne).target _
  have hlex0 : b'.cur.lex = (before rl (P ++ X1) e).cur.lex := by
    have := congrArg List.head? hNE.1
    simpa [BState.lexs] using this
  have hcondF : (before rl (P ++ X1) e).cur.kids ≠ [] ∨ lang.consume (before rl (P ++ X1) e).cur.lex = false := by
    rw [← hlex0]
    rcases hcond with h1 | h1
    · exact Or.inl (hNE.2 h1)
    · exact Or.inr h1
  -- the old event
  obtain ⟨X0, e0, Z0, p, i, hE0, he0, _, hqp, hcut, hanc, hcond0, hcl⟩ := leaf_event (lang := lang) S.built hqat hqg hqf
  obtain ⟨ls0, hls0⟩ : ∃ ls0, e0.lexemes = q.2.lexeme :: ls0 := by
    cases hx : e0.lexemes with
    | nil => rw [hx] at he0; simp at he0
    | cons a b => rw [hx] at he0; simp only [List.head?_cons, Option.some.injEq] at he0; exact ⟨b, by rw [he0]⟩
  obtain ⟨ls1, hls1⟩ : ∃ ls1, e.lexemes = lx :: ls1 := by
    cases hx : e.lexemes with
    | nil => rw [hx] at hlx; simp at hlx
    | cons a b => rw [hx] at hlx; simp only [List.head?_cons, Option.some.injEq] at hlx; exact ⟨b, by rw [hlx]⟩
  have hold := S.old
  rw [hE0] at hold
  have hnew := S.new
  rw [hE1'] at hnew
  obtain ⟨_, k0, f0⟩ := fresh_from S.ok S.leftmost S.atStart hold hcond0 hls0
  obtain ⟨_, k1, f1⟩ := fresh_from S.ok S.leftmost S.atStart hnew hcondF hls1
  have hsame : (before rl (P ++ X1) e).lexs = (before rl X0 e0).lexs := by rw [← hNE.1, hlexs, hanc]
  rw [hsame] at f1
  -- positions
  have hqle : q.2.pos ≤ t0.length := by
    have hw := lexRun_within lang t0 S.ok (S.within t0) n0 _ (start_ok lang t0 [rl] (Nat.zero_le _)) (by simp [LState.start])
    rw [S.old] at hw
    have hmem : q.2.lexeme ∈ lexemes E0 := by
      rw [hE0]
      exact List.mem_flatMap.2 ⟨e0, by simp, by rw [hls0]; simp⟩
    have key : ∀ (ls : List (Lexeme α A)) (a b : Nat), Within t0 a b ls → ∀ l ∈ ls, l.pos + l.text.length ≤ t0.length := by
      intro ls
      induction ls with
      | nil => intro a b _ l hl; simp at hl
      | cons x xs ih =>
        intro a b hw l hl
        obtain ⟨_, _, _, h4, h5⟩ := hw
        rcases List.mem_cons.1 hl with rfl | hl
        · exact h4
        · exact ih _ _ h5 l hl
    have := key _ _ _ hw _ hmem
    simp only [TokN.lexeme] at this
    omega
  have hlen1 : t1.length = s + ins.length + (t0.length - (s + removed)) := by
    rw [ht1]; simp only [List.length_append, List.length_take, List.length_drop]; have := S.le0; omega
  have hlxle : lx.pos ≤ t1.length := by omega
  have hdrop : t0.drop q.2.pos = t1.drop lx.pos := by
    have hl : (t0.take s ++ ins).length = s + ins.length := by
      simp only [List.length_append, List.length_take]; have := S.le0; omega
    rw [ht1, List.drop_append, hl, List.drop_eq_nil_of_le (as := t0.take s ++ ins) (by rw [hl]; omega), List.nil_append, List.drop_drop]
    congr 1; omega
  have hmv : q.2.lexeme.pos = q.2.pos := rfl
  rw [hmv] at f0
  rw [hls0] at f0
  rw [hls1] at f1
  obtain ⟨G, hG0, hG1⟩ := S.joins t0 t1 _ _ _ k0 k1 _ _ _ _ _ _ hqle hlxle hdrop hmv rfl htx.symm hac.symm f0 f1
  rw [← hls0] at hG0
  rw [← hls1] at hG1
  rw [move_shift (d := (ins.length : Int) - removed) (a := q.2.pos) (a' := lx.pos) (by omega), ← hG0] at hG1
  -- what is to come
  have hpull : pull (⟨none, e.lexemes⟩ :: X2) [] = shiftR ((ins.length : Int) - removed) (pull (⟨none, e0.lexemes⟩ :: Z0) []) := by
    rw [hG1]
    exact pull_shift _ _ []
  have hsr : SameR (before rl X0 e0).lexs.length (pull (⟨none, e0.lexemes⟩ :: Z0) []) (rightsAt [] (.ctx rl cs) p i) := by
    apply closeR_inj
    rw [hcl, hcut.rights]
  have hbuild : buildEvents rl E1 = closeR (before rl (P ++ X1) e)
      (shiftR ((ins.length : Int) - removed) (rightsAt [] (.ctx rl cs) p i)) := by
    rw [hE1', build_split (by rw [← hE1']; exact hk), hpull]
    apply closeR_same
    rw [hsame]
    exact hsr.shift _
  generalize hRR : shiftR ((ins.length : Int) - removed) (rightsAt [] (.ctx rl cs) p i) = RR at hbuild
  -- the tree under construction
  have hkX := hk2.2
  rw [hX] at hkX
  have hkX1 := (keepsRoot_append _ _ _).1 hkX
  have hb0l : b0.lexs = replayStack [rl] P := by rw [hr.lexs, hFl]
  have pullB : ∀ (b : BState α L A) (R : List (List (Node α L A))), b.lexs = replayStack [rl] P →
      closeR ((X1.foldl BState.event b).target e.target) R = closeR b (pull X1 (pullTarget e.target R)) := by
    intro b R hb
    rw [closeR_target _ _ (by rw [events_lexs X1 b (by rw [hb]; exact hkX1.1), hb]; exact hkX1.2.1),
      closeR_events X1 b (by rw [hb]; exact hkX1.1)]
  have hclose : b'.close = closeR b0 (pull X1 (pullTarget e.target [])) := by
    rw [close_eq, hb', pullB _ _ hb0l]
  have hroot : b0.lexs.getLast? = some rl := by
    rw [hb0l, keepsRoot_root _ _ hk2.1]; rfl
  obtain ⟨k, hkk⟩ := closeR_root hroot (pull X1 (pullTarget e.target []))
  obtain ⟨l0, hl0, _⟩ := hcut.kids
  have hup : b'.up.length = p.length := by
    have h1 := congrArg List.length hNE.1
    rw [hsame, ← hNE.1.trans hsame] at h1
    have h2 := hcut.up_length
    have h3 : b'.lexs.length = (before rl X0 e0).lexs.length := by rw [hlexs, hanc]
    simp only [BState.lexs, List.length_cons, List.length_map] at h3
    omega
  have hjoin := joinRest_cut ((ins.length : Int) - removed) (i := i) hl0 b' hup
  rw [hRR, ← close_eq, ← hqp] at hjoin
  refine ⟨⟨k, by rw [hclose, hkk]⟩, find_trail hf ho hqat, ?_⟩
  have hctx : b'.close = .ctx rl b'.close.kids := kids_ctx (by rw [hclose, hkk])
  have hdeepEnd : DeepEnd b'.close.kids q.1 := by
    rw [hqp, close_eq]
    exact deepEnd_closeUp b'.up _ _ p i hup
  have hdeep : Deep b'.close.kids st := by
    rw [hclose]; exact (hr.replace _).2
  have hne : st = q.1 → st = [] := by
    intro heq
    rcases hr with ⟨rfl, _⟩ | ⟨p', j, u, ls, hst, _, hat, hu, _⟩
    · rfl
    · exfalso
      rw [heq, hqat] at hat
      simp only [Option.some.injEq, Node.tok.injEq] at hat
      have hlen := List.length_pos_iff.2 (ho.1 q.2 (by simpa [Node.toks] using at_mem_toks hqat))
      rw [← hat] at hu
      simp only [TokN.stop] at hu
      omega
  have hat : st = [] ∨ ∃ u, (Node.ctx rl cs).at st = some (.tok u) := by
    rcases hr with ⟨rfl, _⟩ | ⟨p', j, u, ls, hst, _, hat, hu, _⟩
    · exact Or.inl rfl
    · exact Or.inr ⟨u, hat⟩
  have hrep : replaceAt ((ins.length : Int) - removed) cs b'.close.kids st q.1 =
      replaceStart cs (joinRest ((ins.length : Int) - removed) (.ctx rl cs) (.ctx rl b'.close.kids) q.1).kids [] st := by
    rcases hat with h0 | ⟨u, h0⟩
    · exact replaceAt_eq _ st rl rl cs _ q.1 q.2 q.2 hdeep hdeepEnd (Or.inl h0) (Or.inr hqat) hne
    · exact replaceAt_eq _ st rl rl cs _ q.1 u q.2 hdeep hdeepEnd (Or.inr h0) (Or.inr hqat) hne
  rw [hrep, ← hctx, hjoin, hb', pullB _ _ hb0l, (hr.replace _).1, ← pullB _ _ hFl, ← hb1F, ← hbuild]

end Parce.RB

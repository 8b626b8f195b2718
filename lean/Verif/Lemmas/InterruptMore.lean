import Verif.Lemmas.Interrupt
import Verif.Spec.Interrupt
/-!
# Changes that arrive while the new tree is built: the rounds
-/
set_option linter.unusedSectionVars false
namespace Parce.RB
variable {α L A ρ : Type} [DecidableEq α] [DecidableEq L] [DecidableEq A]
variable {lang : Lang α L A ρ} {keep : Bool} {rl : L} {t0 t1 : List α} {m n0 n1 n N : Nat} {E0 E1 : List (Event α L A)}
  {cs : List (Node α L A)}

/-! ### The tail -/

theorem tailGen_sorted (hf : FullL cs) (ho : Ordered (toksL cs)) (stop : Nat) :
    (tailGen lang rl cs stop).Pairwise (fun a b => a.2.pos ≤ b.2.pos) := by
  unfold tailGen
  cases hfa : findAfter stop (sizeL cs + 1) [] cs with
  | none => exact List.Pairwise.nil
  | some tok =>
    simp only
    apply List.Pairwise.filter
    obtain ⟨r, h1, h2, h3⟩ := findAfter_ok (rl := rl) _ _ _ _ hfa
    rw [List.nil_append] at h1
    rw [← h1] at h2
    obtain ⟨bef, h4, h5⟩ := walk_split (root := .ctx rl cs) hf ho (base := []) (sub := .ctx rl cs) rfl h2
    have h4 : leavesL [] 0 cs = bef ++ tok :: forward (.ctx rl cs) [] tok.1 := by simpa [Node.leavesAt] using h4
    have ht := leaves_toks (cs := cs)
    rw [h4] at ht
    have ho' := ho
    rw [← ht, List.map_append] at ho'
    have := (ordered_app ho').2.1.2
    rw [List.pairwise_map] at this
    exact this.imp (fun h => by simp only [TokN.stop] at h; omega)

theorem dropWhile_ge {tail : List (Leaf α A)} (h : tail.Pairwise (fun a b => a.2.pos ≤ b.2.pos)) (z : Int) :
    ∀ q ∈ tail.dropWhile (fun q => decide ((q.2.pos : Int) < z)), z ≤ q.2.pos := by
  induction tail with
  | nil => simp
  | cons a tail ih =>
    intro q hq
    rw [List.dropWhile_cons] at hq
    rw [List.pairwise_cons] at h
    split at hq
    · exact ih h.2 q hq
    · rename_i ha
      simp only [decide_eq_true_eq, Int.not_lt] at ha
      rcases List.mem_cons.1 hq with rfl | hq
      · exact ha
      · have := h.1 q hq; omega

/-- The text is the old one with one region replaced, and the tail lies after it. -/
structure Composite (lang : Lang α L A ρ) (rl : L) (cs : List (Node α L A)) (t0 t : List α) (m : Nat) (offset : Int)
    (tail : List (Leaf α A)) (removed : Nat) (ins : List α) : Prop where
  le : m + removed ≤ t0.length
  text : t = t0.take m ++ ins ++ t0.drop (m + removed)
  off : tail ≠ [] → offset = (ins.length : Int) - removed
  after : ∀ q ∈ tail, TailOK lang rl cs (m + removed) q
  sorted : tail.Pairwise (fun a b => a.2.pos ≤ b.2.pos)

theorem Composite.lower {t : List α} {offset : Int} {tail : List (Leaf α A)} {removed : Nat} {ins : List α}
    (h : Composite lang rl cs t0 t m offset tail removed ins) {m' : Nat} (hm : m' ≤ m) :
    Composite lang rl cs t0 t m' offset tail (m - m' + removed) ((t0.take m).drop m' ++ ins) := by
  have hle := h.le
  have e1 : m' + (m - m' + removed) = m + removed := by omega
  refine ⟨by omega, ?_, ?_, by rw [e1]; exact h.after, h.sorted⟩
  · rw [e1, h.text]
    have : t0.take m = t0.take m' ++ (t0.take m).drop m' := by
      conv => lhs; rw [← List.take_append_drop m' (t0.take m)]
      rw [List.take_take, Nat.min_eq_left hm]
    conv => lhs; rw [this]
    simp
  · intro ht
    rw [h.off ht]
    simp only [List.length_append, List.length_drop, List.length_take]
    omega

theorem Composite.edit {t : List α} {offset : Int} {tail tail' : List (Leaf α A)} {removed : Nat} {ins : List α}
    (h : Composite lang rl cs t0 t m offset tail removed ins) (hsub : tail' <:+ tail) (e : Edit α) (hm : m ≤ e.start)
    (hfit : e.start + e.removed ≤ t.length) :
    ∃ removed' ins', Composite lang rl cs t0 (Edit.run t e) m (offset + ((e.ins.length : Int) - e.removed))
      (tail'.dropWhile (fun q => decide ((q.2.pos : Int) < (e.start : Int) + e.ins.length - (offset + ((e.ins.length : Int) - e.removed)))))
      removed' ins' := by
  have hle := h.le
  have hl : (t0.take m).length = m := by rw [List.length_take]; omega
  have hlen : t.length = m + ins.length + (t0.length - (m + removed)) := by
    rw [h.text]; simp only [List.length_append, List.length_drop, hl]
  have hso : tail'.Pairwise (fun a b => a.2.pos ≤ b.2.pos) := h.sorted.sublist hsub.sublist
  have hdw : ∀ q ∈ tail'.dropWhile (fun q => decide ((q.2.pos : Int) < (e.start : Int) + e.ins.length - (offset + ((e.ins.length : Int) - e.removed)))),
      q ∈ tail := fun q hq => hsub.subset ((List.dropWhile_suffix _).subset hq)
  have hne : tail'.dropWhile (fun q => decide ((q.2.pos : Int) < (e.start : Int) + e.ins.length - (offset + ((e.ins.length : Int) - e.removed)))) ≠ [] →
      tail ≠ [] := by
    intro h1 h2
    apply h1
    rw [List.eq_nil_iff_forall_not_mem]
    intro q hq
    have := hdw q hq
    rw [h2] at this
    simp at this
  have hrun : Edit.run t e = t0.take m ++ ((ins ++ t0.drop (m + removed)).take (e.start - m) ++ e.ins ++
      (ins ++ t0.drop (m + removed)).drop (e.start + e.removed - m)) := by
    rw [Edit.run, h.text, List.append_assoc (t0.take m) ins, List.take_append, List.drop_append, hl,
      List.take_of_length_le (l := t0.take m) (by omega), List.drop_eq_nil_of_le (as := t0.take m) (by omega)]
    simp
  by_cases hb : e.start + e.removed ≤ m + ins.length
  · refine ⟨removed, ins.take (e.start - m) ++ e.ins ++ ins.drop (e.start + e.removed - m), hle, ?_, ?_, ?_, ?_⟩
    · rw [hrun, List.take_append_of_le_length (by omega), List.drop_append_of_le_length (by omega)]
      simp
    · intro h1
      have := h.off (hne h1)
      simp only [List.length_append, List.length_take, List.length_drop]
      omega
    · exact fun q hq => h.after q (hdw q hq)
    · exact hso.sublist (List.dropWhile_sublist _)
  · refine ⟨removed + (e.start + e.removed - (m + ins.length)), (ins ++ t0.drop (m + removed)).take (e.start - m) ++ e.ins, by omega, ?_, ?_, ?_, ?_⟩
    · rw [hrun, List.drop_append, List.drop_eq_nil_of_le (as := ins) (by omega), List.nil_append, List.drop_drop]
      have : m + removed + (e.start + e.removed - m - ins.length) = m + (removed + (e.start + e.removed - (m + ins.length))) := by omega
      rw [this]
      simp
    · intro h1
      have := h.off (hne h1)
      simp only [List.length_append, List.length_take, List.length_drop]
      omega
    · intro q hq
      have h1 := dropWhile_ge hso _ q hq
      have h2 := h.after q (hdw q hq)
      have h3 := h.off (hne (List.ne_nil_of_mem hq))
      refine ⟨h2.1, h2.2.1, h2.2.2.1, ?_⟩
      omega
    · exact hso.sublist (List.dropWhile_sublist _)

/-- The tail may be forgotten. -/
theorem Composite.forget {t : List α} {offset offset' : Int} {tail : List (Leaf α A)} {removed : Nat} {ins : List α}
    (h : Composite lang rl cs t0 t m offset tail removed ins) : Composite lang rl cs t0 t m offset' [] removed ins :=
  ⟨h.le, h.text, fun h => absurd rfl h, by simp, List.Pairwise.nil⟩

/-! ### No part of the new tree is used again -/

theorem close_ctx (b : BState α L A) : ∃ l k, b.close = .ctx l k := by
  obtain ⟨⟨l, k⟩, up⟩ := b
  have : ∀ (up : List (Frame α L A)) (n : Node α L A), (∃ l k, n = .ctx l k) →
      ∃ l k, up.foldl (fun n f => .ctx f.lex (f.kids ++ [n])) n = Node.ctx l k := by
    intro up
    induction up with
    | nil => intro n h; exact h
    | cons f up ih => intro n h; exact ih _ ⟨_, _, rfl⟩
  exact this up _ ⟨l, k, rfl⟩

theorem no_reuse (hl : Usable lang) (h1 : Ends lang t1 n1 (LState.start [rl] 0) E1) {P X1 X2 : List (Event α L A)} (hE : E1 = P ++ (X1 ++ X2))
    {b : BState α L A} (hb : toksB b = []) {t : List α} {start : Nat}
    (hc : (buildTree lang rl t1 0 n1).toks.countP (fun u => decide (u.stop ≤ start)) ≤ 11) :
    preparedNew lang N (X1.foldl BState.event b).close t start = none := by
  have hB := built_of hl.ok (hl.within t1) h1
  have htk := hB.toks
  have hord := hB.ord
  have hroot : (buildTree lang rl t1 0 n1).toks = toksL (buildTree lang rl t1 0 n1).kids := by
    have : buildTree lang rl t1 0 n1 = buildEvents rl E1 := by unfold buildTree; rw [h1]
    have h2 := hB.tree
    rw [← this] at h2
    rw [h2]
    rfl
  rw [hroot, htk, hE] at hc
  rw [htk, hE] at hord
  simp only [List.flatMap_append] at hc hord
  obtain ⟨l, k, hlk⟩ := close_ctx (X1.foldl BState.event b)
  have ht : (X1.foldl BState.event b).close.toks = X1.flatMap (fun e => makeTokens e.lexemes) := by
    rw [close_toks, toksB_events, hb, List.nil_append]
  apply preparedNew_none hlk
  · rw [ht]
    exact (ordered_app (ordered_app hord).2.1).1
  · rw [ht]
    rw [List.countP_append, List.countP_append] at hc
    omega

/-! ### The end of a round -/

theorem Finished.ends {t : List α} (h : Finished lang rl t n) :
    Ends lang t n (LState.start [rl] 0) (lexRun lang t n (LState.start [rl] 0)).1 := by
  simp only [Finished, Option.isNone_iff_eq_none] at h
  exact Prod.ext rfl h

/-- The result of a round: a token of the tail was reached, or the end of the text. -/
def resultOf (b' : BState α L A) (low : Nat) (off : Int) (len : Nat) (fin : List L) : Option (Leaf α A) → BuildResult α L A
  | some q => ⟨b'.close, low, q.2.pos, off, none⟩
  | none => ⟨b'.close, low, len, 0, some fin⟩

theorem finish_round {t : List α} {off : Int} {tail : List (Leaf α A)} {removed : Nat} {ins : List α}
    (S : Sit lang rl t0 t m n0 n1 E0 E1 cs) (C : Composite lang rl cs t0 t m off tail removed ins)
    {b : Begun α L A} (hb : Starts rl cs m E1 b) {same : L → L → Bool} (hs : same rl rl = true) {b' : BState α L A}
    {r : Option (Leaf α A)} (hbl : buildLoop lang (.ctx rl cs) off tail b.events b.tree = (b', r)) (len : Nat) (fin : List L) :
    replaceTree same ⟨some rl, cs⟩ (some (resultOf b' b.lowest off len fin r)) = some ⟨some rl, (buildEvents rl E1).kids⟩ := by
  have hk : KeepsRoot [rl] E1 := by
    have := (lexRun_stack lang t n1 _ [rl] (start_inv [rl] 0 (by simp))).1
    rwa [S.new] at this
  obtain ⟨P, st, hE, hr, hst, hlow, _⟩ := hb
  cases r with
  | none =>
    obtain ⟨h1, h2⟩ := finish_none (P := P) (d := 0) (by rw [← hE]; exact hk) rfl hr hbl
    rw [replaceTree_same hs h1 (st := st) (et := []) hst (by simp [resultOf])]
    simp only [resultOf]
    rw [h2, ← hE]; simp
  | some q =>
    have hne : tail ≠ [] := by
      intro h
      rw [h, buildLoop_nil] at hbl
      simp at hbl
    rw [C.off hne] at hbl ⊢
    obtain ⟨h1, h2, h3⟩ := finish_some S C.le C.text C.after hE rfl hr hbl
    rw [replaceTree_same hs h1 (st := st) (et := q.1) hst (by simpa [resultOf] using h2)]
    simp only [resultOf]
    rw [h3]; simp

theorem buildFrom_nil (old : Option L) (s : Build α L A) (hre : reuse lang keep N s = none) {b : Begun α L A}
    (hb : begin lang N old cs s = b) {b' : BState α L A} {r : Option (Leaf α A)}
    (hbl : buildLoop lang (.ctx (old.getD s.root) cs) s.offset s.tail b.events b.tree = (b', r)) :
    buildFrom lang keep N old cs [] s = (some (resultOf b' b.lowest s.offset s.text.length b.final.reverse.tail r), []) := by
  rw [buildFrom.eq_def]
  simp only [hre, hb, hbl]
  cases r <;> rfl

theorem buildFrom_cons (old : Option L) (s : Build α L A) (hre : reuse lang keep N s = none) {b : Begun α L A}
    (hb : begin lang N old cs s = b) (k : Nat) (c : Change α L) (sched : List (Nat × Change α L)) :
    (∃ b' r, buildLoop lang (.ctx (old.getD s.root) cs) s.offset s.tail b.events b.tree = (b', r) ∧
      buildFrom lang keep N old cs ((k, c) :: sched) s =
        (some (resultOf b' b.lowest s.offset s.text.length b.final.reverse.tail r), (k, c) :: sched)) ∨
    (∃ rest X1 X2, rest <:+ s.tail ∧ k < b.events.length ∧ b.events = X1 ++ X2 ∧
      buildFrom lang keep N old cs ((k, c) :: sched) s =
        if c.root = some none then (none, sched)
        else buildFrom lang keep N old cs sched (s.seen b (X1.foldl BState.event b.tree) rest c)) := by
  rw [buildFrom.eq_def]
  simp only [hre, hb]
  rcases hlt : buildLoopTo lang (.ctx (old.getD s.root) cs) s.offset k s.tail b.events b.tree with ⟨b', _ | q | rest⟩
  · exact Or.inl ⟨b', none, (loopTo _ _ _ _ _).1 hlt, rfl⟩
  · exact Or.inl ⟨b', some q, (loopTo _ _ _ _ _).2.1 q hlt, rfl⟩
  · obtain ⟨h1, hk, X1, X2, h2, h3⟩ := (loopTo _ _ _ _ _).2.2 rest hlt
    refine Or.inr ⟨rest, X1, X2, h1, hk, h2, ?_⟩
    simp only [h3]

/-! ### Rounds that build everything -/

theorem prepared_zero (l : L) (t : List α) : prepared lang N l cs t 0 = none := by
  simp only [prepared, if_true]
  split
  · rfl
  · split <;> rfl

theorem begin_zero (old : Option L) (s : Build α L A) (hm : min s.lowest s.start = 0) :
    begin lang N old cs s = ⟨(lexAll lang s.text N (LState.start [s.root] 0)).1, (lexAll lang s.text N (LState.start [s.root] 0)).2,
      b00 s.root, 0⟩ := by
  unfold begin
  rw [hm]
  cases old with
  | none => rfl
  | some l => simp only [Option.bind_some, prepared_zero]; rfl

theorem buildTree_of {t : List α} (h : Finished lang rl t n) :
    buildEvents rl (lexRun lang t n (LState.start [rl] 0)).1 = buildTree lang rl t 0 n := rfl

theorem finish_all (old : Option L) {l : L} {t : List α} {same : L → L → Bool} (hsame : ∀ l', old = some l' → same l l' = true → l' = l)
    (h : Finished lang l t n) (off : Int) (len : Nat) (fin : List L) {E : List (Event α L A)}
    (hE : E = (lexRun lang t n (LState.start [l] 0)).1) :
    replaceTree same ⟨old, cs⟩ (some (resultOf (E.foldl BState.event (b00 l)) 0 off len fin none)) =
      some (treeOf lang n (t, some l)) := by
  subst hE
  have hk : KeepsRoot [l] (lexRun lang t n (LState.start [l] 0)).1 := (lexRun_stack lang t n _ [l] (start_inv [l] 0 (by simp))).1
  obtain ⟨k, hkk⟩ := build_root l _ hk
  have hclose : ((lexRun lang t n (LState.start [l] 0)).1.foldl BState.event (b00 l)).close = .ctx l (buildTree lang l t 0 n).kids := by
    rw [← buildTree_of h, hkk]; exact hkk
  simp only [resultOf, hclose, treeOf]
  cases old with
  | none => rfl
  | some l' =>
    simp only [replaceTree]
    by_cases hs : same l l' = true
    · rw [if_pos hs]
      simp [replaceAt_nil, hsame l' rfl hs]
    · rw [if_neg hs]

/-- What is to be shown of a build. -/
def Follows (lang : Lang α L A ρ) (same : L → L → Bool) (n : Nat) (tree : TTree α L A) (d : Doc α L) (rs : List (Nat × Req α L))
    (r : Option (BuildResult α L A) × List (Nat × Change α L)) : Prop :=
  ∃ rs1 rs2, rs = rs1 ++ rs2 ∧ r.2 = changesOf (runAll d rs1) rs2 ∧ replaceTree same tree r.1 = some (treeOf lang n (runAll d rs1))

theorem Follows.stop {same : L → L → Bool} {tree : TTree α L A} {d : Doc α L} {rs : List (Nat × Req α L)} {x : Option (BuildResult α L A)}
    (h : replaceTree same tree x = some (treeOf lang n d)) : Follows lang same n tree d rs (x, changesOf d rs) :=
  ⟨[], rs, rfl, rfl, h⟩

theorem Follows.step {same : L → L → Bool} {tree : TTree α L A} {d : Doc α L} {q : Nat × Req α L} {rs : List (Nat × Req α L)}
    {r : Option (BuildResult α L A) × List (Nat × Change α L)} (h : Follows lang same n tree (q.2.run d) rs r) :
    Follows lang same n tree d (q :: rs) r := by
  obtain ⟨rs1, rs2, h1, h2, h3⟩ := h
  exact ⟨q :: rs1, rs2, by rw [h1]; rfl, h2, h3⟩

theorem reuse_none {s : Build α L A}
    (h : keep = false ∨ ∀ b, s.tree = some b → preparedNew lang N b.close s.text s.start = none) :
    reuse lang keep N s = none := by
  unfold reuse
  rcases h with h | h
  · rw [h]; rfl
  cases hs : s.tree with
  | none => simp
  | some b => simp [h b hs]

theorem lexRun_length_le (lang : Lang α L A ρ) (t : List α) : ∀ (n : Nat) (s : LState L ρ), (lexRun lang t n s).1.length ≤ n := by
  intro n
  induction n with
  | zero => intro s; simp [lexRun]
  | succ n ih =>
    intro s
    rw [lexRun]
    cases h : lexStep lang t s with
    | none => simp
    | some r =>
      obtain ⟨s', ev⟩ := r
      simp only [List.length_append]
      have h1 := ih s'
      have h2 : ev.length ≤ 1 := by rcases lexStep_one h with rfl | ⟨e, rfl⟩ <;> simp
      omega

theorem rounds_all (hl : Usable lang) {same : L → L → Bool} (hsame : ∀ l l', same l l' = true ↔ l = l') (old : Option L) :
    ∀ (rs : List (Nat × Req α L)) (d : Doc α L) (s : Build α L A), s.text = d.1 → d.2 = some s.root → min s.lowest s.start = 0 →
    s.tail = [] → reuse lang keep (n + 1) s = none → Proper lang n d rs → (keep = false ∨ Early lang n d rs) →
    Follows lang same n ⟨old, cs⟩ d rs (buildFrom lang keep (n + 1) old cs (changesOf d rs) s) := by
  intro rs
  induction rs with
  | nil =>
    intro d s ht hr hm htail hre hp _
    have hfin := hp _ hr
    have hb := begin_zero (lang := lang) (cs := cs) (N := n + 1) old s hm
    rw [ht, show (lexAll lang d.1 (n + 1) (LState.start [s.root] 0)).1 = (lexRun lang d.1 n (LState.start [s.root] 0)).1 from
      hfin.ends.all (by omega)] at hb
    have hbl := buildLoop_nil (lang := lang) (.ctx (old.getD s.root) cs) s.offset (lexRun lang d.1 n (LState.start [s.root] 0)).1 (b00 s.root)
    rw [show changesOf d ([] : List (Nat × Req α L)) = [] from rfl, buildFrom_nil old s hre hb (b' := (lexRun lang d.1 n (LState.start [s.root] 0)).1.foldl BState.event (b00 s.root)) (r := none)
      (by rw [htail]; exact hbl)]
    apply Follows.stop
    rw [finish_all old (fun l' _ h => ((hsame _ _).1 h).symm) hfin _ _ _ rfl, ← hr]
  | cons q rs ih =>
    intro d s ht hr hm htail hre hp he
    obtain ⟨hfin, hfit, hp⟩ := hp
    have he1 := he.imp_right And.left
    have he := he.imp_right And.right
    have hfin := hfin _ hr
    have hb := begin_zero (lang := lang) (cs := cs) (N := n + 1) old s hm
    rw [ht, show (lexAll lang d.1 (n + 1) (LState.start [s.root] 0)).1 = (lexRun lang d.1 n (LState.start [s.root] 0)).1 from
      hfin.ends.all (by omega)] at hb
    have hbl := buildLoop_nil (lang := lang) (.ctx (old.getD s.root) cs) s.offset (lexRun lang d.1 n (LState.start [s.root] 0)).1 (b00 s.root)
    rcases buildFrom_cons old s hre hb q.1 (q.2.change d) (changesOf (q.2.run d) rs) with ⟨b', r, h1, h2⟩ | ⟨rest, X1, X2, h1, hk, h2, h3⟩
    · rw [htail, hbl] at h1
      injection h1 with h1 h1'
      subst h1; subst h1'
      rw [show changesOf d (q :: rs) = (q.1, q.2.change d) :: changesOf (q.2.run d) rs from rfl, h2]
      apply Follows.stop (rs := q :: rs)
      rw [finish_all old (fun l' _ h => ((hsame _ _).1 h).symm) hfin _ _ _ rfl, ← hr]
    · rw [show changesOf d (q :: rs) = (q.1, q.2.change d) :: changesOf (q.2.run d) rs from rfl, h3]
      apply Follows.step
      rw [htail, List.suffix_nil] at h1
      subst h1
      obtain ⟨k, q⟩ := q
      cases q with
      | root l t x y z =>
        cases l with
        | none =>
          rw [if_pos (show (Req.change d (Req.root none t x y z)).root = some none from rfl)]
          exact Follows.stop rfl
        | some l =>
          rw [if_neg (by simp [Req.change])]
          apply ih _ _ rfl rfl (Nat.min_zero _) rfl (by simp [reuse, Build.seen, Req.change]) hp he
      | edit e =>
        rw [if_neg (by simp [Req.change])]
        have hse : s.seen ⟨(lexRun lang d.1 n (LState.start [s.root] 0)).1, (lexAll lang d.1 (n + 1) (LState.start [s.root] 0)).2, b00 s.root, 0⟩
            (X1.foldl BState.event (b00 s.root)) [] (Req.change d (.edit e)) =
            ⟨Edit.run d.1 e, s.root, e.start, 0, s.offset, [], some (X1.foldl BState.event (b00 s.root))⟩ := by
          simp [Build.seen, Req.change]
        simp only at hse ⊢
        rw [hse]
        refine ih (Req.run d (.edit e)) ⟨Edit.run d.1 e, s.root, e.start, 0, s.offset, [], some (X1.foldl BState.event (b00 s.root))⟩ rfl hr
          (Nat.zero_min _) rfl ?_ hp he
        apply reuse_none
        refine he1.imp_right (fun he1 => ?_)
        intro b hb
        simp only [Option.some.injEq] at hb
        subst hb
        refine no_reuse hl hfin.ends (P := []) (by simpa using h2) rfl ((he1 _ hr).resolve_left ?_)
        have := lexRun_length_le lang d.1 n (LState.start [s.root] 0)
        simp only at hk ⊢
        omega

/-! ### Rounds that build a part -/

theorem rounds_part (hl : Usable lang) {same : L → L → Bool} (hsame : ∀ l l', same l l' = true ↔ l = l') (h0 : Finished lang rl t0 n0) :
    ∀ (rs : List (Nat × Req α L)) (d : Doc α L) (s : Build α L A) (removed : Nat) (ins : List α), s.text = d.1 → s.root = rl → d.2 = some rl →
    Composite lang rl (buildTree lang rl t0 0 n0).kids t0 d.1 (min s.lowest s.start) s.offset s.tail removed ins →
    reuse lang keep (n + 1) s = none → Proper lang n d rs → (keep = false ∨ Early lang n d rs) →
    Follows lang same n ⟨some rl, (buildTree lang rl t0 0 n0).kids⟩ d rs
      (buildFrom lang keep (n + 1) (some rl) (buildTree lang rl t0 0 n0).kids (changesOf d rs) s) := by
  intro rs
  induction rs with
  | nil =>
    intro d s removed ins ht hrl hr C hre hp _
    have hfin := hp _ hr
    have hrun : Edit.run t0 ⟨min s.lowest s.start, removed, ins⟩ = d.1 := C.text.symm
    have S := hl.sit (root := rl) (e := ⟨min s.lowest s.start, removed, ins⟩) C.le h0 (n1 := n) (by rw [hrun]; exact hfin)
    rw [hrun, ← ht] at S
    have hb := begin_ok S (Nat.le_refl _) hrl
    rw [ht] at hb S
    rcases hbl : buildLoop lang (.ctx rl (buildTree lang rl t0 0 n0).kids) s.offset s.tail
      (begin lang (n + 1) (some rl) (buildTree lang rl t0 0 n0).kids s).events
      (begin lang (n + 1) (some rl) (buildTree lang rl t0 0 n0).kids s).tree with ⟨b', r⟩
    rw [show changesOf d ([] : List (Nat × Req α L)) = [] from rfl, buildFrom_nil (some rl) s hre rfl hbl]
    apply Follows.stop
    have := finish_round S C hb ((hsame rl rl).2 rfl) hbl s.text.length (begin lang (n + 1) (some rl) (buildTree lang rl t0 0 n0).kids s).final.reverse.tail
    rw [this, treeOf, hr]
    rfl
  | cons q rs ih =>
    intro d s removed ins ht hrl hr C hre hp he
    obtain ⟨hfin, hfit, hp⟩ := hp
    have he1 := he.imp_right And.left
    have he := he.imp_right And.right
    have hfin := hfin _ hr
    have hrun : Edit.run t0 ⟨min s.lowest s.start, removed, ins⟩ = d.1 := C.text.symm
    have S := hl.sit (root := rl) (e := ⟨min s.lowest s.start, removed, ins⟩) C.le h0 (n1 := n) (by rw [hrun]; exact hfin)
    rw [hrun, ← ht] at S
    have hb := begin_ok S (Nat.le_refl _) hrl
    rw [ht] at hb S
    generalize hbe : begin lang (n + 1) (some rl) (buildTree lang rl t0 0 n0).kids s = b at hb
    rcases buildFrom_cons (some rl) s hre hbe q.1 (q.2.change d) (changesOf (q.2.run d) rs) with ⟨b', r, h1, h2⟩ | ⟨rest, X1, X2, h1, hk, h2, h3⟩
    · rw [show changesOf d (q :: rs) = (q.1, q.2.change d) :: changesOf (q.2.run d) rs from rfl, h2]
      apply Follows.stop (rs := q :: rs)
      have := finish_round S C hb ((hsame rl rl).2 rfl) h1 s.text.length b.final.reverse.tail
      rw [this, treeOf, hr]
      rfl
    · rw [show changesOf d (q :: rs) = (q.1, q.2.change d) :: changesOf (q.2.run d) rs from rfl, h3]
      apply Follows.step
      obtain ⟨k, q⟩ := q
      cases q with
      | root l t x y z =>
        cases l with
        | none =>
          rw [if_pos (show (Req.change d (Req.root none t x y z)).root = some none from rfl)]
          exact Follows.stop rfl
        | some l =>
          rw [if_neg (by simp [Req.change])]
          exact rounds_all hl hsame (some rl) _ _ _ rfl rfl (Nat.min_zero _) rfl (by simp [reuse, Build.seen, Req.change]) hp he
      | edit e =>
        rw [if_neg (by simp [Req.change])]
        obtain ⟨P, st, hE, hready, hst, hlow, htk⟩ := hb
        have C' := C.lower (m' := min b.lowest e.start) (by omega)
        obtain ⟨rem', ins', C'⟩ := C'.edit h1 e (Nat.min_le_right _ _) hfit
        have hno : keep = false ∨ preparedNew lang (n + 1) (X1.foldl BState.event b.tree).close (Edit.run d.1 e) e.start = none :=
          he1.imp_right fun he1 => no_reuse hl hfin.ends (P := P) (by rw [hE, h2]) htk ((he1 _ hr).resolve_left (by
            have h4 := lexRun_length_le lang d.1 n (LState.start [rl] 0)
            rw [hE, List.length_append] at h4
            simp only at hk ⊢
            omega))
        by_cases hc : rest = [] ∨ (Edit.run d.1 e).length ≤ e.start + e.ins.length
        · have hse : s.seen b (X1.foldl BState.event b.tree) rest (Req.change d (.edit e)) =
              ⟨Edit.run d.1 e, s.root, e.start, b.lowest, s.offset, [], some (X1.foldl BState.event b.tree)⟩ := by
            simp only [Build.seen, Req.change]
            exact if_pos hc
          simp only at hse ⊢
          rw [hse]
          refine ih (Req.run d (.edit e)) _ _ _ rfl hrl hr C'.forget ?_ hp he
          apply reuse_none
          refine hno.imp_right (fun hno => ?_)
          intro b hb
          simp only [Option.some.injEq] at hb
          subst hb
          exact hno
        · have hse : s.seen b (X1.foldl BState.event b.tree) rest (Req.change d (.edit e)) =
              ⟨Edit.run d.1 e, s.root, e.start, b.lowest, s.offset + ((e.ins.length : Int) - e.removed),
                rest.dropWhile (fun q => decide ((q.2.pos : Int) < (e.start : Int) + e.ins.length - (s.offset + ((e.ins.length : Int) - e.removed)))),
                some (X1.foldl BState.event b.tree)⟩ := by
            simp only [Build.seen, Req.change]
            exact if_neg hc
          simp only at hse ⊢
          rw [hse]
          refine ih (Req.run d (.edit e)) _ _ _ rfl hrl hr C' ?_ hp he
          apply reuse_none
          refine hno.imp_right (fun hno => ?_)
          intro b hb
          simp only [Option.some.injEq] at hb
          subst hb
          exact hno

/-! ### `process` -/

theorem Proper.append {d : Doc α L} {rs1 rs2 : List (Nat × Req α L)} (h : Proper lang n d (rs1 ++ rs2)) :
    Proper lang n (runAll d rs1) rs2 := by
  induction rs1 generalizing d with
  | nil => exact h
  | cons r rs1 ih => exact ih h.2.2

theorem Early.append {d : Doc α L} {rs1 rs2 : List (Nat × Req α L)} (h : Early lang n d (rs1 ++ rs2)) :
    Early lang n (runAll d rs1) rs2 := by
  induction rs1 generalizing d with
  | nil => exact h
  | cons r rs1 ih => exact ih h.2

theorem Proper.here {d : Doc α L} {rs : List (Nat × Req α L)} (h : Proper lang n d rs) {l : L} (hl : d.2 = some l) :
    Finished lang l d.1 n := by
  cases rs with
  | nil => exact h l hl
  | cons r rs => exact h.1 l hl

theorem runAll_append (d : Doc α L) (rs1 rs2 : List (Nat × Req α L)) : runAll d (rs1 ++ rs2) = runAll (runAll d rs1) rs2 := by
  induction rs1 generalizing d with
  | nil => rfl
  | cons r rs1 ih => exact ih _

theorem buildNewTo_ok (hl : Usable lang) {same : L → L → Bool} (hsame : ∀ l l', same l l' = true ↔ l = l') (d : Doc α L) (q : Nat × Req α L)
    (rs : List (Nat × Req α L)) (hp : Proper lang n d (q :: rs)) (he : keep = false ∨ Early lang n (q.2.run d) rs) :
    Follows lang same n (treeOf lang n d) (q.2.run d) rs
      (buildNewTo lang keep (n + 1) (treeOf lang n d) (q.2.change d) (changesOf (q.2.run d) rs)) := by
  obtain ⟨k, q⟩ := q
  obtain ⟨hfin, hfit, hp⟩ := hp
  cases q with
  | root l t x y z =>
    cases l with
    | none => exact Follows.stop rfl
    | some l =>
      refine rounds_all hl hsame (treeOf lang n d).lex rs _ (buildFirst lang _ _ l t 0 0 t.length) rfl rfl rfl ?_ (by simp [reuse, buildFirst]) hp he
      simp [buildFirst]
  | edit e =>
    obtain ⟨t, l⟩ := d
    cases l with
    | none => exact Follows.stop rfl
    | some l =>
      have hfin := hfin l rfl
      have hB := built_of hl.ok (hl.within t) (Finished.ends hfin)
      refine rounds_part hl hsame hfin rs _ (buildFirst lang (some l) (buildTree lang l t 0 n).kids l (Edit.run t e) e.start e.removed e.ins.length)
        e.removed e.ins rfl rfl rfl ?_ (by simp [reuse, buildFirst]) hp he
      have hmin : min e.start e.start = e.start := Nat.min_self _
      simp only [buildFirst, hmin, Req.run]
      refine ⟨hfit, rfl, fun _ => rfl, ?_, ?_⟩
      · intro q hq
        split at hq
        · exact tailGen_ok hB.wf.1 hB.ord hq
        · simp at hq
      · split
        · exact tailGen_sorted hB.wf.1 hB.ord _
        · exact List.Pairwise.nil

theorem processTo_ok (hl : Usable lang) {same : L → L → Bool} (hsame : ∀ l l', same l l' = true ↔ l = l') :
    ∀ (fuel : Nat) (rs : List (Nat × Req α L)) (d : Doc α L), rs.length ≤ fuel → Proper lang n d rs →
    (∀ q rs', rs = q :: rs' → keep = false ∨ Early lang n (q.2.run d) rs') →
    processTo lang keep same (n + 1) fuel (changesOf d rs) (treeOf lang n d) = some (treeOf lang n (runAll d rs)) := by
  intro fuel
  induction fuel with
  | zero =>
    intro rs d hlen _ _
    obtain rfl : rs = [] := List.length_eq_zero_iff.1 (by omega)
    rfl
  | succ fuel ih =>
    intro rs d hlen hp he
    cases rs with
    | nil => rfl
    | cons q rs =>
      obtain ⟨rs1, rs2, h1, h2, h3⟩ := buildNewTo_ok hl hsame d q rs hp (he q rs rfl)
      have he := he q rs rfl
      have hp := hp.2.2
      simp only [changesOf, processTo]
      rw [h3, Option.bind_some, h2]
      rw [h1] at hp he
      have hlen' : rs2.length ≤ fuel := by
        rw [h1] at hlen
        simp only [List.length_cons, List.length_append] at hlen
        omega
      rw [ih rs2 _ hlen' hp.append]
      · rw [← runAll_append, ← h1]; rfl
      · intro q' rs' h'
        refine he.imp_right (fun he => ?_)
        have := he.append
        rw [h'] at this
        exact this.2

end Parce.RB

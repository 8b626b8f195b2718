import Verif.Lemmas.CssSheet
import Verif.Lemmas.RebuildLex
/-!
# Style sheets: the events and the tree
-/
namespace Parce.CssL
open Parce.Json (Uni str)
variable {Q K : Type} {u : Uni} {k : Words} {f : Funcs Q K}

/-! ### Statements -/

/-- The items for a rule. -/
def Stmt.items (k : Words) (f : Funcs Q K) : Stmt → List (Itm Q K)
  | .rule s b => [.item .prelude (.list s.values), .item .rule (b.value k f)]
  | .at kw as => [.tok [64] .keyword, .item .atrule ((Stmt.at kw as).value k f)]
  | .atBlock kw as b => [.tok [64] .keyword, .item .atrule ((Stmt.atBlock kw as b).value k f)]

theorem Stmt.piece (hu : u.Ascii) (hd : ∀ c, u.digit c = true → u.word c = true) (s : Stmt) (ho : s.ok u k false) :
    Piece u k f s.text (s.items k f) false := by
  cases s with
  | rule s b => have := piece_rule (f := f) hu hd s b ho; simpa [Stmt.text, Stmt.items, str] using this
  | «at» kw as => have := piece_at (f := f) hu hd kw as ho; simpa [Stmt.text, Stmt.items, str] using this
  | atBlock kw as b => have := piece_atBlock (f := f) hu hd kw as b ho; simpa [Stmt.text, Stmt.items, str] using this

theorem root_space : ∀ c < 128, selHead c = true → ((9 ≤ c && c ≤ 13) || (28 ≤ c && c ≤ 32)) = false := by decide +kernel

theorem Stmt.head (hu : u.Ascii) (s : Stmt) (ho : s.ok u k false) (post : List Nat) : ∀ c, (s.text ++ post).head? = some c → u.space c = false := by
  cases s with
  | rule s b =>
    obtain ⟨c, r, h1, h2, h3⟩ := s.head ho.1 ho.2.1 (str "{" ++ b.text ++ str "}" ++ post)
    have : (Stmt.rule s b).text ++ post = c :: r := by rw [← h1]; simp [Stmt.text]
    rw [this]
    exact not_space hu h2 (root_space c h2 h3)
  | «at» kw as => exact not_space hu (by decide) (by decide)
  | atBlock kw as b => exact not_space hu (by decide) (by decide)

/-- The items for rules and what is between them. -/
def sheetItems (k : Words) (f : Funcs Q K) (l : List (Stmt × Blanks)) : List (Itm Q K) := l.flatMap fun x => x.1.items k f ++ bitems x.2

def sheetText (l : List (Stmt × Blanks)) : List Nat := l.flatMap fun x => x.1.text ++ btext x.2

theorem blank_root : blankLex .root := ⟨Or.inr ⟨2, rfl⟩, 1, rfl⟩

theorem root_blanks (hu : u.Ascii) (bs : Blanks) (hb : Bok bs) {rest : List Nat} (hr : ∀ c, rest.head? = some c → u.space c = false) (is : List (Itm Q K)) :
    Go u k f ⟨btext bs ++ rest, [(.root, is)], 0, true⟩ ⟨rest, [(.root, is ++ bitems bs)], 0, true⟩ := by
  have := go_blanks (f := f) (k := k) (is := is) (fs := []) (n := 0) (o := true) hu blank_root bs hb hr
  have hfr : bfresh bs 0 = 0 := by unfold bfresh; split <;> rfl
  rw [hfr] at this
  simpa using this

theorem sheet_go (hu : u.Ascii) (hd : ∀ c, u.digit c = true → u.word c = true) {rest : List Nat} (hr : ∀ c, rest.head? = some c → u.space c = false) :
    ∀ (l : List (Stmt × Blanks)), (∀ x ∈ l, x.1.ok u k false ∧ Bok x.2) → ∀ (g : Blanks), Bok g → ∀ is : List (Itm Q K),
    Go u k f ⟨btext g ++ (sheetText l ++ rest), [(.root, is)], 0, true⟩ ⟨rest, [(.root, is ++ bitems g ++ sheetItems k f l)], 0, true⟩
  | [], _, g, hg, is => by
    have := root_blanks (f := f) (k := k) hu g hg hr is
    simpa [sheetText, sheetItems] using this
  | (s, g') :: l, h, g, hg, is => by
    have hs := h (s, g') (by simp)
    have h1 := root_blanks (f := f) (k := k) hu g hg (s.head hu hs.1 (btext g' ++ (sheetText l ++ rest))) is
    have h2 := (Stmt.piece (f := f) hu hd s hs.1).go (is ++ bitems g) (btext g' ++ (sheetText l ++ rest))
    have h3 := sheet_go hu hd hr l (fun x hx => h x (by simp [hx])) g' hs.2 (is ++ bitems g ++ s.items k f)
    have := (h1.trans h2).trans h3
    simpa [sheetText, sheetItems] using this

/-! ### What the items give -/

theorem rootLoop_blanks (bs : Blanks) (is : List (Itm Q K)) (v : CV Q K) : rootLoop (bitems bs ++ is) v = rootLoop is v := by
  induction bs with
  | nil => rfl
  | cons b bs ih =>
    cases b with
    | ws c => exact ih
    | comment w => exact ih

theorem rootLoop_sheet (l : List (Stmt × Blanks)) : rootLoop (sheetItems k f l) .none = l.map fun x => x.1.value k f := by
  induction l with
  | nil => rfl
  | cons x l ih =>
    obtain ⟨s, g⟩ := x
    have h : ∀ is : List (Itm Q K), rootLoop (s.items k f ++ is) .none = s.value k f :: rootLoop is .none := by
      intro is
      cases s <;> rfl
    simp only [sheetItems, List.flatMap_cons, List.append_assoc, List.map_cons]
    rw [h, rootLoop_blanks]
    exact congrArg _ ih

theorem failed_sheet (l : List (Stmt × Blanks)) : failed (sheetItems k f l) = false := by
  induction l with
  | nil => rfl
  | cons x l ih =>
    obtain ⟨s, g⟩ := x
    have h : failed (s.items k f) = false := by
      cases s <;> rfl
    have : failed (sheetItems k f ((s, g) :: l)) = failed (s.items k f ++ bitems g ++ sheetItems k f l) := by simp [sheetItems]
    rw [this, failed_append, failed_append, h, failed_blanks, ih]
    rfl

/-! ### The end -/

theorem close_leaves {α L A : Type} (n : Nat) : ∀ b : BState α L A, (b.leaves n).close = b.close := by
  induction n with
  | zero => intro b; rfl
  | succ n ih =>
    intro b
    show (b.leave.leaves n).close = _
    rw [ih]
    obtain ⟨c, up⟩ := b
    cases up <;> rfl

/-- White space at the end. -/
theorem tail_run (hu : u.Ascii) {t : List Nat} {p : Nat} {w : List Nat} (ht : t.drop p = w) (hw : ∀ c ∈ w, IsWs c) (hp : p ≤ t.length)
    {s : LState CL RM} (hs : s.stack = [.root])
    (hps : parseNext CA.none ((lang u k).ld .root) t s.ps = parseNext CA.none ((lang u k).ld .root) t (.at p false)) :
    ∃ n, lexRun (lang u k) t n s = ([], none) := by
  have hend : ∀ s : LState CL RM, s.stack = [.root] →
      parseNext CA.none ((lang u k).ld .root) t s.ps = parseNext CA.none ((lang u k).ld .root) t (.at t.length false) →
      lexStep (lang u k) t s = none := by
    intro s h1 h2
    have hm : rxMatch (pats u k .root) t t.length = none := by
      refine (rxMatch_none (Nat.le_refl _)).2 ?_
      refine misses_of (fun r hr => ?_) t t.length (List.drop_length ..)
      simp only [rules, toplevelRules, List.mem_cons, List.not_mem_nil, or_false] at hr
      refine pfail_can ?_
      rcases hr with rfl | rfl | rfl <;> rfl
    have hn : parseNext CA.none ((lang u k).ld .root) t (.at t.length false) = none := by
      show parseNext _ (compile .none (rules u k .root) (dflt .root)) _ _ = _
      rw [compile_cons _ _ _ (rules_ne _)]
      show parseNext _ (.regex _ _ _ (.target _)) _ _ = _
      simp only [parseNext]
      unfold pats at hm
      rw [hm]
      simp [tailTok]
    have h3 : parseNext (lang u k).noAct ((lang u k).ld .root) t s.ps = none := h2.trans hn
    unfold lexStep
    rw [h1]
    simp only
    rw [h3]
  cases w with
  | nil =>
    have : p = t.length := by
      have := congrArg List.length ht
      simp only [List.length_drop, List.length_nil] at this
      omega
    subst this
    refine ⟨1, ?_⟩
    simp only [lexRun, hend s hs hps]
  | cons c w =>
    have hh : Hits u k .root (c :: w) [] .skip none := by
      have hb : PBest (spacePat u) (c :: w) [] := fun t p ht => best_plus ht (by simp) (fun x hx => isWs_space hu (hw x hx)) (by simp)
      have hc := hw c (by simp)
      have h0 : onlyAt .root 2 [] c = true := by
        unfold IsWs at hc
        rcases hc with rfl | rfl | rfl | rfl | rfl <;> decide +kernel
      exact hits hu 2 [] rfl (fun _ => rfl) (isWs_lt hc) h0 (by simp) hb
    obtain ⟨m, hm⟩ := hits_parse hh (t := t) (p := p) (by simpa using ht)
    have hlen : p + (c :: w).length = t.length := by
      have := congrArg List.length ht
      simp only [List.length_drop, List.length_cons] at this ⊢
      omega
    have hstep : lexStep (lang u k) t s = some ({ s with ps := .at (p + (c :: w).length) false }, []) := by
      have h3 : parseNext (lang u k).noAct ((lang u k).ld .root) t s.ps = _ := hps.trans hm
      unfold lexStep
      rw [hs]
      simp only
      rw [h3]
      rfl
    refine ⟨1 + 1, ?_⟩
    rw [lexRun_add (lang u k) t 1 1 s _ (by rw [lexRun_one hstep])]
    rw [lexRun_one hstep]
    have := hend { s with ps := .at (p + (c :: w).length) false } hs (by rw [hlen])
    simp only [lexRun, this, List.append_nil]

/-- The events and the tree, when the last piece is known. -/
theorem run_piece (hu : u.Ascii) {X Y W : List Nat} {is js : List (Itm Q K)} {com : Bool}
    (hX : Go u k f ⟨X ++ (Y ++ W), [(.root, [])], 0, true⟩ ⟨Y ++ W, [(.root, is)], 0, true⟩) (hY : Piece u k f Y js com) (hW : ∀ c ∈ W, IsWs c) :
    ∃ n evs cs, lexRun (lang u k) (X ++ (Y ++ W)) n (LState.start [.root] 0) = (evs, none) ∧ buildEvents .root evs = .ctx .root cs ∧
      its (method k f) cs = is ++ js ∧ (CL.comment ∈ (evs.foldl BState.event ⟨⟨.root, []⟩, []⟩).lexs ↔ com = true) := by
  generalize ht : X ++ (Y ++ W) = t at *
  obtain ⟨q0, h1, h2, h3⟩ := hX t 0 rfl (Nat.zero_le _)
  obtain ⟨q, l, is', fs, n', o', w, a, pop, g1, g2, g3, g4, g5, g6, g7, g8⟩ := hY is W t q0 h1 h2
  obtain ⟨B, c, i1, i2, i3⟩ := (h3.trans g3) (⟨⟨.root, []⟩, []⟩ : BState Nat CL CA) [] rfl (cok_nil _)
  obtain ⟨n1, s1, j1, j2⟩ := i3 (LState.start [.root] 0) ⟨⟨.root, []⟩, []⟩ ⟨rfl, rfl, rfl, rfl, rfl⟩
  generalize hE : (lexRun (lang u k) t n1 (LState.start [CL.root] 0)).1 = E at *
  obtain ⟨k1, k2, k3, k4, k5⟩ := j2
  obtain ⟨m, hm⟩ := hits_parse g4 g1
  have hl := frs_cur i1
  have hup := (frs_stack i1).2
  simp only at k1 k2 k3 k4 k5
  rw [hl] at k2
  have hpop : pop ≤ B.up.length := by simp only [List.length_cons] at hup; omega
  have hstep : lexStep (lang u k) t s1 = some (⟨(⟨pop, []⟩ : Target CL).apply B.stack, Factory.init.add ⟨pop, []⟩, [], .at (q + w.length) false⟩,
      [⟨s1.fac.get.1, [⟨q, w, a⟩]⟩]) := by
    unfold lexStep
    rw [k1]
    have hcl := clamp_same (b := B) (tg := ⟨pop, []⟩) hpop
    simp only [BState.stack] at hcl ⊢
    have h4 : parseNext (lang u k).noAct ((lang u k).ld l) t s1.ps = _ := k2.trans hm
    rw [hl] at hcl ⊢
    rw [h4]
    simp only [ne_eq, g4.ne, not_false_eq_true, if_true, hcl, emit, expand_plain g5, get_snd]
    rfl
  have hB : (E.foldl BState.event ⟨⟨CL.root, []⟩, []⟩).event ⟨s1.fac.get.1, [⟨q, w, a⟩]⟩ = B.putToks [⟨q, w, a⟩] := by
    rw [BState.event, k4]
    rfl
  have hfr : frs (method k f) ((B.putToks [⟨q, w, a⟩]).leaves pop) = [(.root, is ++ js)] := by
    rw [frs_leaves, frs_putToks _ _ _ i1]
    exact g7
  have hst : (⟨pop, []⟩ : Target CL).apply B.stack = [.root] := by
    have e1 := target_stack (b := B.putToks [⟨q, w, a⟩]) (tg := ⟨pop, []⟩) hpop
    have e2 : (B.putToks [⟨q, w, a⟩]).stack = B.stack := rfl
    rw [e2] at e1
    rw [← e1]
    show ((B.putToks [⟨q, w, a⟩]).leaves pop).stack = _
    generalize (B.putToks [⟨q, w, a⟩]).leaves pop = b at hfr
    obtain ⟨⟨l', ks⟩, up⟩ := b
    simp only [frs, BState.frames, List.map_cons, List.cons.injEq, Prod.mk.injEq, List.map_eq_nil_iff] at hfr
    obtain ⟨⟨rfl, _⟩, rfl⟩ := hfr
    rfl
  have hq : t.drop (q + w.length) = W := drop_add g1
  obtain ⟨n2, hn2⟩ := tail_run (u := u) (k := k) hu hq hW (drop_le g1 g4.ne)
    (s := ⟨(⟨pop, []⟩ : Target CL).apply B.stack, Factory.init.add ⟨pop, []⟩, [], .at (q + w.length) false⟩) hst rfl
  have hrun : lexRun (lang u k) t (n1 + (1 + n2)) (LState.start [.root] 0) = (E ++ [⟨s1.fac.get.1, [⟨q, w, a⟩]⟩], none) := by
    rw [lexRun_add (lang u k) t n1 (1 + n2) _ s1 j1, lexRun_add (lang u k) t 1 n2 s1 _ (by rw [lexRun_one hstep]), lexRun_one hstep, hn2, hE]
    simp
  have hfold : (E ++ [(⟨s1.fac.get.1, [⟨q, w, a⟩]⟩ : Event Nat CL CA)]).foldl BState.event ⟨⟨CL.root, []⟩, []⟩ = B.putToks [⟨q, w, a⟩] := by
    rw [List.foldl_append]
    exact hB
  generalize hb : (B.putToks [⟨q, w, a⟩]).leaves pop = b at hfr
  obtain ⟨⟨l', ks⟩, up⟩ := b
  have hfr' := hfr
  simp only [frs, BState.frames, List.map_cons, List.cons.injEq, Prod.mk.injEq, List.map_eq_nil_iff] at hfr'
  obtain ⟨⟨rfl, hks⟩, rfl⟩ := hfr'
  refine ⟨_, _, ks, hrun, ?_, hks, ?_⟩
  · unfold buildEvents
    rw [hfold, ← close_leaves pop, hb]
    rfl
  · rw [hfold]
    have : (B.putToks [⟨q, w, a⟩]).lexs = l :: fs.map (·.1) := by
      have := congrArg (List.map (·.1)) i1
      simp only [frs, BState.frames, List.map_cons, List.map_map] at this
      rw [← this]
      rfl
    rw [this]
    exact g8

/-- A text with only white space. -/
theorem run_blank (hu : u.Ascii) {W : List Nat} (hW : ∀ c ∈ W, IsWs c) :
    ∃ n, lexRun (lang u k) W n (LState.start [.root] 0) = ([], none) :=
  tail_run hu (p := 0) rfl hW (Nat.zero_le _) rfl rfl

/-! ### Style sheets -/

/-- Blanks are white space, or there is a last comment. -/
theorem blanks_split (bs : Blanks) : (∀ b ∈ bs, b.isComment = false) ∨ ∃ b1 w b2, bs = b1 ++ .comment w :: b2 ∧ ∀ b ∈ b2, b.isComment = false := by
  induction bs with
  | nil => left; simp
  | cons b bs ih =>
    rcases ih with ih | ⟨b1, w, b2, rfl, h⟩
    · cases b with
      | ws c =>
        left
        intro b hb
        simp only [List.mem_cons] at hb
        rcases hb with rfl | hb
        · rfl
        · exact ih b hb
      | comment w => exact Or.inr ⟨[], w, bs, rfl, ih⟩
    · exact Or.inr ⟨b :: b1, w, b2, rfl, h⟩

theorem white_text {bs : Blanks} (hb : Bok bs) (h : ∀ b ∈ bs, b.isComment = false) : ∀ c ∈ btext bs, IsWs c := by
  intro c hc
  simp only [btext, List.mem_flatMap] at hc
  obtain ⟨b, hb', hc⟩ := hc
  cases b with
  | ws d =>
    simp only [Blank.text, List.mem_singleton] at hc
    subst hc
    exact hb _ hb'
  | comment w => exact absurd (h _ hb') (by simp [Blank.isComment])

theorem white_items {bs : Blanks} (h : ∀ b ∈ bs, b.isComment = false) : (bitems bs : List (Itm Q K)) = [] := by
  simp only [bitems, List.flatMap_eq_nil_iff]
  intro b hb
  cases b with
  | ws d => rfl
  | comment w => exact absurd (h _ hb) (by simp [Blank.isComment])

theorem slash_head (hu : u.Ascii) (w post : List Nat) : ∀ c, ((Blank.comment w).text ++ post).head? = some c → u.space c = false :=
  not_space hu (c := 47) (rest := [42] ++ w ++ str "*/" ++ post) (by decide) (by decide)

/-- The events and the tree of a style sheet. -/
theorem run_sheet (hu : u.Ascii) (hd : ∀ c, u.digit c = true → u.word c = true) (s : Css) (ho : s.ok u k false) :
    ∃ n evs cs, lexRun (lang u k) s.text n (LState.start [.root] 0) = (evs, none) ∧ buildEvents .root evs = .ctx .root cs ∧
      its (method k f) cs = bitems s.g ++ sheetItems k f s.stmts ∧ (CL.comment ∈ (evs.foldl BState.event ⟨⟨.root, []⟩, []⟩).lexs ↔ s.endsInComment) := by
  obtain ⟨g, l⟩ := s
  obtain ⟨hg, hl⟩ := ho
  simp only at hg hl
  have htext : (Css.mk g l).text = btext g ++ sheetText l := rfl
  rw [htext]
  simp only
  rcases List.eq_nil_or_concat l with rfl | ⟨l, ⟨st, g'⟩, rfl⟩
  · have htail : (Css.mk g []).tail = g := rfl
    unfold Css.endsInComment
    rw [htail]
    rcases blanks_split g with h | ⟨b1, w, b2, rfl, h⟩
    · obtain ⟨n, hn⟩ := run_blank (u := u) (k := k) hu (white_text hg h)
      refine ⟨n, [], [], by simpa [sheetText] using hn, rfl, ?_, ?_⟩
      · rw [white_items h]; rfl
      · simp only [List.foldl_nil, BState.lexs, List.map_nil, List.mem_singleton, reduceCtorEq, false_iff, not_exists, not_and]
        intro b hb
        simp [h b hb]
    · have h1 : Bok b1 := fun b hb => hg b (by simp [hb])
      have h2 : Bok b2 := fun b hb => hg b (by simp [hb])
      have hX := root_blanks (f := f) (k := k) hu b1 h1 (slash_head hu w (btext b2)) []
      obtain ⟨n, evs, cs, e1, e2, e3, e4⟩ := run_piece hu hX (piece_comment hu (hg (.comment w) (by simp))) (white_text h2 h)
      refine ⟨n, evs, cs, by simpa [btext, sheetText] using e1, e2, ?_, ?_⟩
      · rw [e3]
        have := white_items (Q := Q) (K := K) h
        simp only [bitems] at this
        simp [bitems, Blank.items, sheetItems, this]
      · rw [e4]
        simp only [true_iff]
        exact ⟨.comment w, by simp, rfl⟩
  · have htail : (Css.mk g (l ++ [(st, g')])).tail = g' := by simp [Css.tail]
    have hst := hl (st, g') (by simp)
    have hl' : ∀ x ∈ l, x.1.ok u k false ∧ Bok x.2 := fun x hx => hl x (by simp [hx])
    simp only [List.concat_eq_append]
    unfold Css.endsInComment
    rw [htail]
    rcases blanks_split g' with h | ⟨b1, w, b2, rfl, h⟩
    · have hX := sheet_go (f := f) hu hd (rest := st.text ++ btext g') (st.head hu hst.1 _) l hl' g hg []
      rw [← List.append_assoc] at hX
      obtain ⟨n, evs, cs, e1, e2, e3, e4⟩ := run_piece hu hX (Stmt.piece hu hd st hst.1) (white_text hst.2 h)
      refine ⟨n, evs, cs, by simpa [sheetText] using e1, e2, ?_, ?_⟩
      · rw [e3]
        simp [sheetItems, white_items (Q := Q) (K := K) h]
      · rw [e4]
        simp only [Bool.false_eq_true, false_iff, not_exists, not_and]
        intro b hb
        simp [h b hb]
    · have h1 : Bok b1 := fun b hb => hst.2 b (by simp [hb])
      have h2 : Bok b2 := fun b hb => hst.2 b (by simp [hb])
      have hX := sheet_go (f := f) hu hd (rest := (Blank.comment w).text ++ btext b2) (slash_head hu w (btext b2)) (l ++ [(st, b1)]) (by
        intro x hx
        simp only [List.mem_append, List.mem_singleton] at hx
        rcases hx with hx | rfl
        · exact hl' x hx
        · exact ⟨hst.1, h1⟩) g hg []
      rw [← List.append_assoc] at hX
      obtain ⟨n, evs, cs, e1, e2, e3, e4⟩ := run_piece hu hX (piece_comment hu (hst.2 (.comment w) (by simp))) (white_text h2 h)
      refine ⟨n, evs, cs, by simpa [sheetText, btext] using e1, e2, ?_, ?_⟩
      · rw [e3]
        have := white_items (Q := Q) (K := K) h
        simp only [bitems] at this
        simp [bitems, Blank.items, sheetItems, this]
      · rw [e4]
        simp only [true_iff]
        exact ⟨.comment w, by simp, rfl⟩

theorem sheet_value (s : Css) : rootOf (bitems s.g ++ sheetItems k f s.stmts) = s.value k f := by
  unfold rootOf
  rw [rootLoop_blanks, rootLoop_sheet]
  rfl

theorem sheet_ok (s : Css) : failed (bitems s.g ++ sheetItems k f s.stmts) = false := by
  rw [failed_append, failed_blanks, failed_sheet]
  rfl

/-! ### Any number of rounds that is enough -/

theorem sheet_tree (hu : u.Ascii) (hd : ∀ c, u.digit c = true → u.word c = true) (s : Css) (ho : s.ok u k false) (n : Nat)
    (hn : RB.Finished (lang u k) .root s.text n) :
    ∃ cs, buildTree (lang u k) .root s.text 0 n = .ctx .root cs ∧ its (method k f) cs = bitems s.g ++ sheetItems k f s.stmts ∧
      (CL.comment ∈ ((lexRun (lang u k) s.text n (LState.start [.root] 0)).1.foldl BState.event ⟨⟨.root, []⟩, []⟩).lexs ↔ s.endsInComment) := by
  obtain ⟨m, evs, cs, h1, h2, h3, h4⟩ := run_sheet (f := f) hu hd s ho
  have : (lexRun (lang u k) s.text n (LState.start [.root] 0)).1 = evs := by
    have e1 : RB.Ends (lang u k) s.text m (LState.start [.root] 0) evs := h1
    have e2 : RB.Ends (lang u k) s.text n (LState.start [.root] 0) (lexRun (lang u k) s.text n (LState.start [.root] 0)).1 := by
      unfold RB.Ends
      unfold RB.Finished at hn
      rw [Option.isNone_iff_eq_none] at hn
      rw [← hn]
    exact e2.unique e1
  refine ⟨cs, ?_, h3, ?_⟩
  · unfold buildTree
    rw [this, h2]
  · rw [this, h4]

theorem no_raw (k : Words) (f : Funcs Q K) : NoRaw (env k f) := by
  left
  intro l m h
  simp only [env, bareEnv, TrEnv.meth] at h
  cases hm : method k f l with
  | none => rw [hm] at h; cases h
  | some g => rw [hm] at h; cases h; rfl

theorem meth_none {l : CL} : (env k f).meth l = none ↔ l = .comment := by
  cases l <;> simp [TrEnv.meth, env, bareEnv, method]

end Parce.CssL

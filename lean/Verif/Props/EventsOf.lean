import Verif.Lemmas.EventsExact
/-!
# C69: the events made from an existing tree
-/
namespace Parce.RB
variable {α L A ρ : Type} [DecidableEq α] [DecidableEq L] [DecidableEq A]

/-- **C69.** `events_with_tokens(start, last)`, for tokens of a tree that was built: the tokens are all
    tokens of the tree from the start token to the last one, in their order, and each event has the
    lexemes of its tokens. The start token must not be inside a group, nor the last token (as the
    function requires). -/
theorem C69_range (lang : Lang α L A ρ) (hl : ∀ l, LexOK (lang.ld l)) (root : L) (t : List α) (hw : ExpandsWithin lang t) (n : Nat)
    (cs : List (Node α L A)) (hcs : buildTree lang root t 0 n = .ctx root cs) (start last : Leaf α A)
    (hs : (Node.ctx root cs).at start.1 = some (.tok start.2)) (hla : (Node.ctx root cs).at last.1 = some (.tok last.2))
    (hgs : start.2.group = none ∨ start.2.group = some 0) (hgl : last.2.group = none ∨ ∃ g, last.2.group = some g ∧ g < 0)
    (hle : start.2.pos ≤ last.2.pos) :
    (∃ pre post mid, toksL cs = pre ++ mid ++ post ∧ (eventsWithTokens (.ctx root cs) start last).flatMap (·.toks) = mid ∧
      mid.head? = some start.2 ∧ mid.getLast? = some last.2) ∧
    ∀ x ∈ eventsWithTokens (.ctx root cs) start last, x.toks ≠ [] ∧ x.ev.lexemes = x.toks.map TokN.lexeme := by
  have hb := built_run lang hl root t hw n
  rw [hcs] at hb
  obtain ⟨p, i, b, hp, hcut, _⟩ := start_cut hb start hs
  obtain ⟨⟨post, h1⟩, h2, h3, _, h4⟩ := events_range hb.wf hb.ord start last hs hla hgs hgl hle p i hp b hcut
  exact ⟨⟨_, post, _, h1, rfl, h2, h3⟩, fun x hx => ⟨(h4 x hx).1, (h4 x hx).2.1⟩⟩

/-- **C69.** The events from the first to the last token of a tree build the same tree again. -/
theorem C69_builds (lang : Lang α L A ρ) (hl : ∀ l, LexOK (lang.ld l)) (root : L) (t : List α) (hw : ExpandsWithin lang t) (n : Nat)
    (cs : List (Node α L A)) (hcs : buildTree lang root t 0 n = .ctx root cs) (first last : Leaf α A)
    (hf : (Node.ctx root cs).at first.1 = some (.tok first.2)) (hla : (Node.ctx root cs).at last.1 = some (.tok last.2))
    (hfirst : (toksL cs).head? = some first.2) (hlast : (toksL cs).getLast? = some last.2) :
    buildEvents root ((eventsWithTokens (.ctx root cs) first last).map (·.ev)) = .ctx root cs := by
  have hb := built_run lang hl root t hw n
  rw [hcs] at hb
  simp only [Node.kids] at hb
  obtain ⟨p, i, b, hp, hcut, hb0⟩ := start_cut hb first hf
  obtain ⟨rest, hrest⟩ : ∃ rest, toksL cs = first.2 :: rest := by
    cases h : toksL cs with
    | nil => rw [h] at hfirst; simp at hfirst
    | cons x xs => rw [h] at hfirst; simp only [List.head?_cons, Option.some.injEq] at hfirst; exact ⟨xs, by rw [hfirst]⟩
  have hbe := hb0 rest hrest
  subst hbe
  have hgf : first.2.group = none ∨ first.2.group = some 0 := by
    obtain ⟨q, rest', hq⟩ : ∃ q rest', leavesL [] 0 cs = q :: rest' := by
      have ht := leaves_toks (cs := cs)
      cases h : leavesL [] 0 cs with
      | nil => rw [h, hrest] at ht; simp at ht
      | cons q r => exact ⟨q, r, rfl⟩
    have ht := leaves_toks (cs := cs)
    rw [hq, hrest] at ht
    simp only [List.map_cons, List.cons.injEq] at ht
    rw [← ht.1]
    exact (first_leaf hb hq).2.1
  have hle : first.2.pos ≤ last.2.pos := by
    have hm : last.2 ∈ toksL cs := List.mem_of_getLast? hlast
    rw [hrest] at hm
    rcases List.mem_cons.1 hm with h | h
    · rw [h]; exact Nat.le_refl _
    · have ho := hb.ord
      rw [hrest] at ho
      have := (ordered_app (a := [first.2]) ho).2.2 first.2 (by simp) last.2 h
      simp only [TokN.stop] at this
      omega
  obtain ⟨⟨post, h1⟩, h2, h3, ⟨q, j, hc⟩, h4⟩ :=
    events_range hb.wf hb.ord first last hf hla hgf (last_group hb hlast) hle p i hp (b00 root) hcut
  have hflat : ∀ (evs : List (EvT α L A)), (∀ x ∈ evs, makeTokens x.ev.lexemes = x.toks) →
      evs.flatMap (fun x => makeTokens x.ev.lexemes) = evs.flatMap (·.toks) := by
    intro evs
    induction evs with
    | nil => intro _; rfl
    | cons x xs ih =>
      intro h
      simp only [List.flatMap_cons]
      rw [h x (by simp), ih (fun y hy => h y (by simp [hy]))]
  have htb := toksB_replay (eventsWithTokens (.ctx root cs) first last) (b00 root)
  rw [hflat _ (fun x hx => (h4 x hx).2.2)] at htb
  have hpost : post = [] := by
    rcases List.eq_nil_or_concat post with h5 | ⟨ys, y, h5⟩
    · exact h5
    · exfalso
      rw [List.concat_eq_append] at h5
      have h6 := hlast
      rw [h1, h5, ← List.append_assoc, List.getLast?_concat, Option.some.injEq] at h6
      have ho := hb.ord
      rw [h1, h5] at ho
      have hm : last.2 ∈ (eventsWithTokens (.ctx root cs) first last).flatMap (·.toks) := List.mem_of_getLast? h3
      have h7 := (ordered_app ho).2.2 last.2 (List.mem_append_right _ hm) y (by simp)
      rw [h6] at h7
      have h8 := List.length_pos_iff.2 (ho.1 last.2 (List.mem_append_left _ (List.mem_append_right _ hm)))
      simp only [TokN.stop] at h7
      omega
  rw [hpost, List.append_nil] at h1
  have h5 := close_complete hc.rights hb.wf.1 (by
    show toksL cs = _
    rw [h1, htb])
  exact h5

/-- **C69.** The events from the first to the last token of a tree are the events the lexer yielded when the tree was built:
    lexemes and targets, nothing more and nothing less. -/
theorem C69_events (lang : Lang α L A ρ) (hl : ∀ l, LexOK (lang.ld l)) (root : L) (t : List α) (hw : ExpandsWithin lang t) (n : Nat)
    (cs : List (Node α L A)) (hcs : buildTree lang root t 0 n = .ctx root cs) (first last : Leaf α A)
    (hf : (Node.ctx root cs).at first.1 = some (.tok first.2)) (hla : (Node.ctx root cs).at last.1 = some (.tok last.2))
    (hfirst : (toksL cs).head? = some first.2) (hlast : (toksL cs).getLast? = some last.2) :
    (eventsWithTokens (.ctx root cs) first last).map (·.ev) = (lexRun lang t n (LState.start [root] 0)).1 := by
  have hb := built_run lang hl root t hw n
  have hd := lexRun_does lang t n (LState.start [root] 0)
  have hbuild := C69_builds lang hl root t hw n cs hcs first last hf hla hfirst hlast
  rw [hcs] at hb
  simp only [Node.kids] at hb
  generalize (lexRun lang t n (LState.start [root] 0)).1 = E at hb hd
  have htoks := hb.toks
  cases E with
  | nil => rw [htoks] at hfirst; simp at hfirst
  | cons y Y =>
    have hhead : (makeTokens y.lexemes)[0]? = some first.2 := by
      rw [htoks, List.flatMap_cons] at hfirst
      cases hm : makeTokens y.lexemes with
      | nil =>
        have := makeTokens_length y.lexemes
        rw [hm] at this
        exact absurd (List.length_eq_zero_iff.1 this.symm) (hb.ne y (by simp))
      | cons a r =>
        rw [hm] at hfirst
        simpa using hfirst
    have hg := (makeTokens_get hhead).2
    have hgf : first.2.group = none ∨ first.2.group = some 0 := by
      rw [hg]
      split
      · exact Or.inl rfl
      · right; split <;> simp
    have hlx : y.lexemes.head? = some first.2.lexeme := by
      rw [← makeTokens_lexeme y.lexemes, List.head?_map, List.head?_eq_getElem?, hhead]; rfl
    obtain ⟨Z, hZ⟩ := events_part hb hd first last hf hla hgf (last_group hb hlast) (X := []) (y := y) (Y := Y) rfl hlx
    rw [if_pos rfl] at hZ
    have hY : y :: Y = (eventsWithTokens (.ctx root cs) first last).map (·.ev) ++ Z := hZ
    have h1 : toksL cs = ((eventsWithTokens (.ctx root cs) first last).map (·.ev)).flatMap (fun e => makeTokens e.lexemes) := by
      have h2 := congrArg Node.toks hbuild
      rw [show (Node.ctx root cs).toks = toksL cs from rfl] at h2
      rw [← h2]
      show (BState.close _).toks = _
      rw [close_toks, toksB_events]
      simp [toksB, doneT, toksL]
    rw [htoks, hY, List.flatMap_append] at h1
    have h3 : Z.flatMap (fun e => makeTokens e.lexemes) = [] := by
      have : ∀ {a b : List (TokN α A)}, a ++ b = a → b = [] := by intro a b h; simpa using h
      exact this h1
    cases Z with
    | nil => rw [hY, List.append_nil]
    | cons z Z =>
      exfalso
      simp only [List.flatMap_cons, List.append_eq_nil_iff] at h3
      have := makeTokens_length z.lexemes
      rw [h3.1] at this
      exact hb.ne z (by rw [hY]; simp) (List.length_eq_zero_iff.1 this.symm)

/-- **C69.** The events from any token on: the events the lexer yielded, from the one that has the start token on; only the target of
    the first one is missing (unless it is the first event of all), since the lexer is to be started in the context of the token. -/
theorem C69_events_from (lang : Lang α L A ρ) (hl : ∀ l, LexOK (lang.ld l)) (root : L) (t : List α) (hw : ExpandsWithin lang t) (n : Nat)
    (cs : List (Node α L A)) (hcs : buildTree lang root t 0 n = .ctx root cs) (start last : Leaf α A)
    (hs : (Node.ctx root cs).at start.1 = some (.tok start.2)) (hla : (Node.ctx root cs).at last.1 = some (.tok last.2))
    (hgs : start.2.group = none ∨ start.2.group = some 0) (hgl : last.2.group = none ∨ ∃ g, last.2.group = some g ∧ g < 0) :
    ∃ X y Y Z, (lexRun lang t n (LState.start [root] 0)).1 = X ++ y :: Y ∧ y.lexemes.head? = some start.2.lexeme ∧
      (⟨if X = [] then y.target else none, y.lexemes⟩ :: Y : List (Event α L A)) =
        (eventsWithTokens (.ctx root cs) start last).map (·.ev) ++ Z := by
  have hb := built_run lang hl root t hw n
  have hd := lexRun_does lang t n (LState.start [root] 0)
  rw [hcs] at hb
  obtain ⟨X, y, Y, hE, h1, _, _⟩ := hb.leaf hs hgs
  obtain ⟨Z, hZ⟩ := events_part hb hd start last hs hla hgs hgl hE h1
  exact ⟨X, y, Y, Z, hE, h1, hZ⟩

/-- `1` and `2` together are a group, `(` enters lexicon 1, `)` leaves it. -/
private def groups : Lang Char Nat Nat Unit where
  ld
    | 0 => .literal ['('] 10 (some ⟨0, [1]⟩) (.action fun t => if t.length = 2 then 12 else 11)
    | _ => .literal [')'] 20 (some ⟨1, []⟩) (.action fun _ => 21)
  consume _ := false
  expand tok := if tok.act = 12 then (tok.text.mapIdx (fun i c => ⟨tok.pos + i, [c], i⟩)) else [⟨tok.pos, tok.text, tok.act⟩]
  noAct := 0

example : (buildTree groups 0 "12(b)c".toList 0 12).toks.map (fun u => (u.pos, u.group)) =
      [(0, some 0), (1, some (-1)), (2, none), (3, none), (4, none), (5, none)] ∧
    (eventsWithTokens (buildTree groups 0 "12(b)c".toList 0 12) ([0], ⟨0, ['1'], 0, some 0⟩) ([4], ⟨5, ['c'], 11, none⟩)).map
      (fun x => (x.ev.target, x.ev.lexemes.length)) =
      [(none, 2), (none, 1), (some ⟨0, [1]⟩, 1), (none, 1), (some ⟨1, []⟩, 1)] ∧
    (buildTree groups 0 "12(b)c".toList 0 12).at [0] = some (.tok ⟨0, ['1'], 0, some 0⟩) ∧
    (buildTree groups 0 "12(b)c".toList 0 12).at [4] = some (.tok ⟨5, ['c'], 11, none⟩) := by
  decide +kernel

end Parce.RB

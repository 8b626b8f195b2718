import Verif.Lemmas.Build
import Verif.Lemmas.Walk
import Verif.Lemmas.Range
import Verif.Props.Lexer
/-!
# Properties C21, C22 and C26-C31: trees
-/
set_option linter.unusedSectionVars false
namespace Parce
variable {α L A ρ : Type}

/-! ## Trees for the examples -/

private def tk (pos : Nat) (s : String) (g : Option Int := none) : Node Char Nat Nat := .tok ⟨pos, s.toList, 7, g⟩

/-- `a`, a context with `bc` and a group of two, `g`. -/
private def kids0 : List (Node Char Nat Nat) :=
  [tk 0 "a", .ctx 1 [tk 2 "bc", tk 4 "d" (some 0), tk 5 "e" (some (-1))], tk 8 "g"]

private theorem kids0_full : FullL kids0 := by
  simp [FullL, kids0, Node.Full, tk]

private theorem kids0_ordered : Ordered (toksL kids0) := by
  simp [Ordered, toksL, kids0, Node.toks, tk, TokN.stop]

/-! ## C21 -/

/-- **C21.** For every stream of events that never leaves the root: the tokens of the tree, each
    with the lexicons of its ancestors, are the lexemes of the events, each with the lexicon
    stack obtained by replaying the targets. -/
theorem C21_tree_mirrors_events (root : L) (evs : List (Event α L A)) (h : KeepsRoot [root] evs) :
    ((buildEvents root evs).stacks []).map (fun q => (q.1, q.2.lexeme)) = eventStacks [root] evs := by
  unfold buildEvents
  rw [close_stacks, build_stacks evs ⟨⟨root, []⟩, []⟩ h]
  simp [BState.done, doneUp, stacksL, BState.lexs]

theorem eventStacks_lexemes (stack : List L) (evs : List (Event α L A)) :
    (eventStacks stack evs).map (·.2) = lexemes evs := by
  induction evs generalizing stack with
  | nil => rfl
  | cons e es ih =>
    simp only [eventStacks, List.map_append, List.map_map, ih, lexemes, List.flatMap_cons]
    congr 1
    exact (List.map_congr_left (g := id) (fun _ _ => rfl)).trans (List.map_id _)

/-- **C21.** In particular the tokens are the lexemes, in the same order. -/
theorem C21_tokens (root : L) (evs : List (Event α L A)) (h : KeepsRoot [root] evs) :
    (buildEvents root evs).toks.map TokN.lexeme = lexemes evs := by
  rw [← eventStacks_lexemes [root], ← C21_tree_mirrors_events root evs h, ← stacks_toks _ []]
  simp only [List.map_map]
  rfl

variable [DecidableEq α]

/-- **C21.** The events of the lexer never leave the root, so this holds for the trees built from
    any text with any language. -/
theorem C21_build_tree (lang : Lang α L A ρ) (root : L) (t : List α) (pos n : Nat) :
    ((buildTree lang root t pos n).stacks []).map (fun q => (q.1, q.2.lexeme)) =
      eventStacks [root] (lexRun lang t n (LState.start [root] pos)).1 :=
  C21_tree_mirrors_events root _ (C18_root_kept lang t [root] (by simp) pos n).1

private def evs0 : List (Event Char Nat Nat) :=
  [⟨none, [⟨0, ['a'], 7⟩]⟩, ⟨some ⟨0, [1, 2]⟩, [⟨1, ['b'], 7⟩, ⟨2, ['c'], 8⟩]⟩, ⟨some ⟨2, [3]⟩, [⟨5, ['d'], 7⟩]⟩]

example : KeepsRoot [0] evs0 := by simp [KeepsRoot, evs0, applyOpt, Target.apply]

example : buildEvents 0 evs0 = .ctx 0 [tk 0 "a",
      .ctx 1 [.ctx 2 [tk 1 "b" (some 0), .tok ⟨2, ['c'], 8, some (-1)⟩]], .ctx 3 [tk 5 "d"]] ∧
    eventStacks [0] evs0 = [([0], ⟨0, ['a'], 7⟩), ([2, 1, 0], ⟨1, ['b'], 7⟩), ([2, 1, 0], ⟨2, ['c'], 8⟩),
      ([3, 0], ⟨5, ['d'], 7⟩)] := by
  refine ⟨?_, ?_⟩ <;> decide

/-! ## C22 -/

/-- **C22.** The lexer never yields an event without lexemes. -/
theorem C22_lexemes_ne (lang : Lang α L A ρ) (t : List α) (stack : List L) (pos n : Nat) :
    ∀ e ∈ (lexRun lang t n (LState.start stack pos)).1, e.lexemes ≠ [] :=
  lexRun_lexemes_ne lang t n _

/-- **C22.** No context except possibly the root is empty, in every tree built. -/
theorem C22_no_empty_contexts (lang : Lang α L A ρ) (root : L) (t : List α) (pos n : Nat) :
    FullL (buildTree lang root t pos n).kids := by
  unfold buildTree buildEvents
  exact (BState.OK.events (C22_lexemes_ne lang t [root] pos n)
    (b := ⟨⟨root, []⟩, []⟩) ⟨trivial, by simp, Or.inr rfl⟩).close

/-- **C22.** So every node below the root has a first and a last token, which are the first and
    last of its tokens. -/
theorem C22_first_last (n : Node α L A) (hf : FullL n.kids) (p : List Nat) (hp : p ≠ []) (m : Node α L A)
    (h : n.at p = some m) :
    ∃ a b, m.toks.head? = some a ∧ m.toks.getLast? = some b ∧ m.firstTok = some a ∧ m.lastTok = some b ∧
      m.pos = a.pos ∧ m.stop = b.stop := by
  have hm : m.Full := by
    induction p generalizing n with
    | nil => exact absurd rfl hp
    | cons i p ih =>
      simp only [Node.at] at h
      cases hi : n.kids[i]? with
      | none => rw [hi] at h; simp at h
      | some k =>
        rw [hi] at h
        simp only [Option.bind_some] at h
        have hk := hf.get hi
        cases p with
        | nil => simp only [Node.at, Option.some.injEq] at h; exact h ▸ hk
        | cons j p => exact ih k (Full.kids hk) (by simp) h
  obtain ⟨h1, h2, h3⟩ := full_toks m hm
  cases ht : m.toks with
  | nil => exact absurd ht h1
  | cons a as =>
    refine ⟨a, (a :: as).getLast (by simp), rfl, List.getLast?_eq_some_getLast _, ?_, ?_, ?_, ?_⟩
    · rw [h2, ht]; rfl
    · rw [h3, ht]; exact List.getLast?_eq_some_getLast _
    · simp [Node.pos, h2, ht]
    · simp [Node.stop, h3, ht, List.getLast?_eq_some_getLast]

theorem within_pairwise {t : List α} {a b : Nat} {lxs : List (Lexeme α A)} (h : Within t a b lxs) :
    (∀ l ∈ lxs, a ≤ l.pos ∧ l.text ≠ []) ∧
    lxs.Pairwise (fun l m => l.pos + l.text.length ≤ m.pos) := by
  induction lxs generalizing a with
  | nil => simp
  | cons l ls ih =>
    obtain ⟨h1, h2, _, _, h5⟩ := h
    obtain ⟨h6, h7⟩ := ih h5
    refine ⟨?_, List.pairwise_cons.2 ⟨fun m hm => (h6 m hm).1, h7⟩⟩
    intro m hm
    rcases List.mem_cons.1 hm with rfl | hm
    · exact ⟨h1, h2⟩
    · have := h6 m hm; exact ⟨by omega, this.2⟩

/-- The tokens of a tree built from a text are not empty and do not overlap: what `C26`-`C31`
    require of a tree. -/
theorem C22_built_ordered (lang : Lang α L A ρ) (root : L) (t : List α) (hl : ∀ l, LexOK (lang.ld l))
    (he : ExpandsWithin lang t) (pos : Nat) (hp : pos ≤ t.length) (n : Nat) :
    Ordered (buildTree lang root t pos n).toks := by
  have h1 := C21_tokens root _ (C18_root_kept lang t [root] (by simp) pos n).1
  have h2 := within_pairwise (C19_lexemes_ordered lang t hl he [root] (by simp) pos hp n)
  rw [← h1] at h2
  obtain ⟨h3, h4⟩ := h2
  refine ⟨fun u hu => (h3 u.lexeme (List.mem_map_of_mem hu)).2, ?_⟩
  exact (List.pairwise_map.1 h4).imp (fun h => h)

/-- Lexicon 0 enters lexicon 1 at `(`, lexicon 1 is left at `)`. -/
private def paren : Lang Char Nat Nat Unit where
  ld
    | 0 => .literal ['('] 10 (some ⟨0, [1]⟩) (.action fun _ => 11)
    | _ => .literal [')'] 20 (some ⟨1, []⟩) (.action fun _ => 21)
  consume _ := false
  expand := plainExpand
  noAct := 0

example : buildTree paren 0 "a(b)()".toList 0 20 =
    .ctx 0 [.tok ⟨0, ['a'], 11, none⟩, .tok ⟨1, ['('], 10, none⟩,
      .ctx 1 [.tok ⟨2, ['b'], 21, none⟩, .tok ⟨3, [')'], 20, none⟩], .tok ⟨4, ['('], 10, none⟩,
      .ctx 1 [.tok ⟨5, [')'], 20, none⟩]] := by decide

example : (∀ l, LexOK (paren.ld l)) ∧ ExpandsWithin paren "a(b)()".toList :=
  ⟨fun l => by match l with
    | 0 => simp [paren, LexOK]
    | n + 1 => simp [paren, LexOK], C19_plain paren (fun _ => rfl) _⟩

/-- Without text in it, an entered context is not created: `(` at the end of the text. -/
example : buildTree paren 0 "(".toList 0 20 = .ctx 0 [.tok ⟨0, ['('], 10, none⟩] := by decide

/-! ## C26 -/

/-- **C26.** `find_token(pos)` is the first token in document order that ends after `pos`. -/
theorem C26_find_token (cs : List (Node α L A)) (hf : FullL cs) (ho : Ordered (toksL cs)) (pos : Nat) :
    findToken cs pos = (toksL cs).find? (fun t => decide (pos < t.stop)) :=
  findToken_eq hf ho pos

/-- **C26.** `find_token_left(pos)` is the last token that starts before `pos`. -/
theorem C26_find_token_left (cs : List (Node α L A)) (hf : FullL cs) (ho : Ordered (toksL cs)) (pos : Nat) :
    findTokenLeft cs pos = (toksL cs).reverse.find? (fun t => decide (t.pos < pos)) :=
  findTokenLeft_eq hf ho pos

/-- **C26.** `find_token_after(pos)` is the first token that starts at `pos` or later. -/
theorem C26_find_token_after (cs : List (Node α L A)) (hf : FullL cs) (ho : Ordered (toksL cs)) (pos : Nat) :
    findTokenAfter pos (sizeL cs + 1) cs = (toksL cs).find? (fun t => decide (pos ≤ t.pos)) :=
  findTokenAfter_eq pos _ cs (Nat.lt_succ_self _) hf ho

/-- **C26.** `find_token_before(pos)` is the last token that ends at `pos` or earlier. -/
theorem C26_find_token_before (cs : List (Node α L A)) (hf : FullL cs) (ho : Ordered (toksL cs)) (pos : Nat) :
    findTokenBefore pos (sizeL cs + 1) cs = (toksL cs).reverse.find? (fun t => decide (t.stop ≤ pos)) :=
  findTokenBefore_eq pos _ cs (Nat.lt_succ_self _) hf ho

example : FullL kids0 ∧ Ordered (toksL kids0) := ⟨kids0_full, kids0_ordered⟩

example : (findToken kids0 3).map (·.pos) = some 2 ∧ findToken kids0 9 = none ∧
    (findTokenLeft kids0 7).map (·.pos) = some 5 ∧ findTokenLeft kids0 0 = none ∧
    (findTokenAfter 3 (sizeL kids0 + 1) kids0).map (·.pos) = some 4 ∧
    (findTokenBefore 7 (sizeL kids0 + 1) kids0).map (·.pos) = some 5 := by decide

/-! ## C27 -/

/-- **C27.** For every tree (empty contexts and overlapping tokens included): the variants with
    a trail find the same token and the trail leads to it. -/
theorem C27_trail (l : L) (cs : List (Node α L A)) (pos : Nat) :
    (findTokenTrail cs pos).map (·.1) = findToken cs pos ∧
    ∀ t tr, findTokenTrail cs pos = some (t, tr) → (Node.ctx l cs).at tr = some (.tok t) := by
  refine ⟨findTokenTrail_fst cs pos, fun t tr h => ?_⟩
  unfold findTokenTrail at h
  split at h
  · simp at h
  · exact trail_at h

theorem C27_trail_left (l : L) (cs : List (Node α L A)) (pos : Nat) :
    (findTokenLeftTrail cs pos).map (·.1) = findTokenLeft cs pos ∧
    ∀ t tr, findTokenLeftTrail cs pos = some (t, tr) → (Node.ctx l cs).at tr = some (.tok t) := by
  refine ⟨findTokenLeftTrail_fst cs pos, fun t tr h => ?_⟩
  unfold findTokenLeftTrail at h
  split at h
  · simp at h
  · exact trail_at h

example : (findTokenTrail kids0 4).map (·.2) = some [1, 1] ∧ (findTokenLeftTrail kids0 4).map (·.2) = some [1, 0] := by
  decide

/-! ## C28 -/

/-- **C28.** Let `path` lead to a node from the ancestor at `base` (`upto`; the root if `base` is
    empty). The tokens of the ancestor are those before the node, those of the node and those
    `forward(upto)` yields; `backward(upto)` yields those before in reverse order. -/
theorem C28_forward_backward (root : Node α L A) (hf : FullL root.kids) (ho : Ordered root.toks) (base path : List Nat)
    (anc n : Node α L A) (hb : root.at base = some anc) (hp : anc.at path = some n) :
    anc.leavesAt base = (backward root base path).reverse ++ n.leavesAt (base ++ path) ++ forward root base path := by
  obtain ⟨before, h1, h2⟩ := walk_split hf ho hb hp
  rw [h1, h2]
  simp

/-- **C28.** The paths of the leaves are all different, so the decomposition above is the only
    one. -/
theorem C28_unique (root : Node α L A) : ((root.leavesAt []).map (·.1)).Nodup ∧
    ∀ p t, (p, t) ∈ root.leavesAt [] ↔ root.at p = some (.tok t) := by
  refine ⟨leavesAt_nodup root [], fun p t => ?_⟩
  rw [mem_leavesAt]
  simp

/-- **C28.** `next_token` and `previous_token` are inverse to each other. -/
theorem C28_next_previous (root : Node α L A) (hf : FullL root.kids) (ho : Ordered root.toks) (p q : List Nat)
    (t u : TokN α A) (hp : root.at p = some (.tok t)) (hq : root.at q = some (.tok u)) :
    nextToken root p = some (q, u) ↔ previousToken root q = some (p, t) := by
  have h1 := C28_forward_backward root hf ho [] p root _ rfl hp
  have h2 := C28_forward_backward root hf ho [] q root _ rfl hq
  simp only [Node.leavesAt, List.nil_append, List.append_assoc, List.singleton_append] at h1 h2
  have hn := leavesAt_nodup root []
  constructor
  · intro h
    unfold nextToken at h
    cases hfw : forward root [] p with
    | nil => rw [hfw] at h; simp at h
    | cons x xs =>
      rw [hfw] at h h1
      simp only [List.head?_cons, Option.some.injEq] at h
      subst h
      have h3 : root.leavesAt [] = ((backward root [] p).reverse ++ [(p, t)]) ++ (q, u) :: xs := by rw [h1]; simp
      rw [h2] at h3
      rw [h2] at hn
      have := (split_unique hn h3).1
      have h4 : backward root [] q = (p, t) :: backward root [] p := by
        have := congrArg List.reverse this
        simpa using this
      simp [previousToken, h4]
  · intro h
    unfold previousToken at h
    cases hbw : backward root [] q with
    | nil => rw [hbw] at h; simp at h
    | cons x xs =>
      rw [hbw] at h h2
      simp only [List.head?_cons, Option.some.injEq] at h
      subst h
      have h3 : root.leavesAt [] = xs.reverse ++ (p, t) :: ((q, u) :: forward root [] q) := by rw [h2]; simp
      rw [h1] at h3
      rw [h1] at hn
      have := (split_unique hn h3).2.2
      simp [nextToken, this]

example : (forward (.ctx 0 kids0) [] [1, 0]).map (·.1) = [[1, 1], [1, 2], [2]] ∧
    (forward (.ctx 0 kids0) [1] [0]).map (·.1) = [[1, 1], [1, 2]] ∧
    (backward (.ctx 0 kids0) [] [1, 1]).map (·.1) = [[1, 0], [0]] ∧
    (nextToken (.ctx 0 kids0) [1, 2]).map (·.1) = some [2] := by decide

/-! ## C29 -/

/-- **C29.** `tokens()` lists the leaves in document order, `tokens(True)` in reverse order;
    for every tree. -/
theorem C29_tokens (l : L) (cs : List (Node α L A)) :
    Node.tokens false [] cs = (Node.ctx l cs).leavesAt [] ∧
    Node.tokens true [] cs = ((Node.ctx l cs).leavesAt []).reverse := by
  refine ⟨?_, ?_⟩ <;> rw [tokens_eq] <;> rfl

/-- **C29.** `height()` is the nesting depth, in every tree without empty contexts (the context
    itself may be empty). -/
theorem C29_height (l : L) (cs : List (Node α L A)) (hf : FullL cs) : height cs = (Node.ctx l cs).depth := by
  simp only [height, Node.depth]
  split
  · rfl
  · rw [heightLoop_eq _ _ _ _ _ (by simp [restSize])]
    simp only [List.length_nil, List.drop_zero, restHeight, lvl, depthL_cd cs hf]
    split <;> omega

/-- An empty context below counts one level too much. -/
example : height [Node.ctx 1 [], (tk 0 "a")] = 2 ∧ (Node.ctx 0 [Node.ctx 1 [], tk 0 "a"]).depth = 1 := by decide

/-- **C29.** `copy()` returns an equal tree, for every tree. -/
theorem C29_copy (l : L) (cs : List (Node α L A)) : copyCtx l cs = some (.ctx l cs) :=
  copyLoop_eq (2 * sizeL cs + 1) cs ⟨l, []⟩ [] _ ⟨by simp, rfl⟩ (by simp [copySize])

example : height kids0 = 2 ∧ (Node.tokens false [] kids0).map (·.1) = [[0], [1, 0], [1, 1], [1, 2], [2]] := by decide

/-! ## C30 -/

/-- **C30.** In a context with, among other nodes, the tokens made of two or more lexemes of one
    event: for each of these tokens `get_group()` returns all of them in order,
    `get_group_start()` the first and `get_group_end()` the last. -/
theorem C30_group (pre post : List (Node α L A)) (lxs : List (Lexeme α A)) (hl : 1 < lxs.length)
    (cs : List (Node α L A)) (hcs : cs = pre ++ (makeTokens lxs).map Node.tok ++ post)
    (hf : FullL cs) (ho : Ordered (toksL cs)) (k : Nat) (hk : k < lxs.length) :
    getGroup cs (pre.length + k) = (makeTokens lxs).map Node.tok ∧
    getGroupStart cs (pre.length + k) = (makeTokens lxs).head?.map Node.tok ∧
    getGroupEnd cs (pre.length + k) = (makeTokens lxs).getLast?.map Node.tok := by
  have hlen := makeTokens_length lxs
  obtain ⟨hg, t, ht, _⟩ := group_at (pre := pre) (post := post) hl hk
  rw [← hcs] at hg ht
  have hpi := parentIndex_eq hf ho ht
  have hslice : slice cs pre.length (pre.length + lxs.length) = (makeTokens lxs).map Node.tok := by
    rw [hcs, slice, List.append_assoc, List.take_append]
    simp only [Nat.le_add_right, List.take_of_length_le, Nat.add_sub_cancel_left]
    rw [List.drop_append_of_le_length (Nat.le_refl _), List.drop_length, List.nil_append,
      List.take_append_of_le_length (by simp [hlen]), List.take_of_length_le (by simp [hlen])]
  have hfirst : cs[pre.length]? = (makeTokens lxs).head?.map Node.tok := by
    rw [hcs, List.append_assoc, List.getElem?_append_right (Nat.le_refl _), Nat.sub_self,
      List.getElem?_append_left (by simp; omega)]
    simp [List.head?_eq_getElem?]
  have hlast : cs[pre.length + (lxs.length - 1)]? = (makeTokens lxs).getLast?.map Node.tok := by
    rw [hcs, List.append_assoc, List.getElem?_append_right (by omega), Nat.add_sub_cancel_left,
      List.getElem?_append_left (by simp; omega)]
    simp [List.getLast?_eq_getElem?, hlen]
  by_cases hlast' : k + 1 = lxs.length
  · -- the last token
    have hneg : -(k : Int) < 0 := by omega
    rw [if_pos hlast'] at hg
    refine ⟨?_, ?_, ?_⟩
    · simp only [getGroup, hg, hpi]
      rw [if_pos hneg]
      rw [← hslice]
      congr 1 <;> omega
    · simp only [getGroupStart, hg, hpi]
      rw [if_pos hneg, ← hfirst]
      congr 1
      omega
    · simp only [getGroupEnd, hg, hpi]
      rw [if_neg (by omega), ← hlast]
      congr 1
      omega
  · rw [if_neg hlast'] at hg
    have hloop := groupLoop_eq (pre := pre) (post := post) hl cs.length (k + 1) (by omega) (by omega)
      (by rw [hcs]; simp [hlen]; omega)
    rw [← hcs] at hloop
    refine ⟨?_, ?_, ?_⟩
    · simp only [getGroup, hg, hpi]
      rw [if_neg (by omega), Nat.add_assoc, hloop, ← hslice]
      congr 1 <;> omega
    · simp only [getGroupStart, hg, hpi]
      rw [if_neg (by omega), ← hfirst]
      congr 1
      omega
    · simp only [getGroupEnd, hg, hpi]
      rw [if_pos (by omega), Nat.add_assoc, hloop, ← hlast]

/-- **C30.** In every tree built from a stream of events the children of every context are
    complete pieces: the tokens of one event, or a context. -/
theorem C30_built_in_pieces (root : L) (evs : List (Event α L A)) :
    ∀ c ∈ (buildEvents root evs).ctxs, InPieces c.2 :=
  build_pieces root evs

/-- **C30.** And the tokens of every event are such a piece. -/
theorem C30_every_event (root : L) (evs : List (Event α L A)) :
    ∀ e ∈ evs, ∃ c ∈ (buildEvents root evs).ctxs, ∃ pre post, c.2 = pre ++ (makeTokens e.lexemes).map Node.tok ++ post := by
  intro e he
  obtain ⟨l, h⟩ := events_runs evs ⟨⟨root, []⟩, []⟩ e he
  obtain ⟨c, h1, _, h2⟩ := hasRun_leaveAll _ h
  exact ⟨c, h1, h2⟩

/-- **C30.** The groups of tokens of different events (in one context) have no token in common. -/
theorem C30_disjoint (pre mid post : List (Node α L A)) (lxs lys : List (Lexeme α A)) (hl : 1 < lxs.length)
    (hl2 : 1 < lys.length) (cs : List (Node α L A))
    (hcs : cs = pre ++ (makeTokens lxs).map Node.tok ++ mid ++ (makeTokens lys).map Node.tok ++ post)
    (hf : FullL cs) (ho : Ordered (toksL cs)) (j k : Nat) (hj : j < lxs.length) (hk : k < lys.length) :
    ∀ n ∈ getGroup cs (pre.length + j), n ∉ getGroup cs (pre.length + lxs.length + mid.length + k) := by
  have h1 := (C30_group pre (mid ++ (makeTokens lys).map Node.tok ++ post) lxs hl cs (by rw [hcs]; simp) hf ho j hj).1
  have h2 := (C30_group (pre ++ (makeTokens lxs).map Node.tok ++ mid) post lys hl2 cs hcs hf ho k hk).1
  simp only [List.length_append, List.length_map, makeTokens_length] at h2
  rw [h1, h2]
  intro n hn hn2
  simp only [List.mem_map] at hn hn2
  obtain ⟨s, hs, rfl⟩ := hn
  obtain ⟨u, hu, he⟩ := hn2
  cases he
  rw [hcs] at ho
  simp only [toksL_append, toksL_toks] at ho
  have h3 := ho.left.cross s (by simp [hs]) s hu
  have h4 := List.length_pos_iff.2 (ho.1 s (by simp [hs]))
  simp only [TokN.stop] at h3
  omega

example : makeTokens [⟨4, ['d'], 7⟩, ⟨5, ['e'], 7⟩] = [⟨4, ['d'], 7, some 0⟩, ⟨5, ['e'], 7, some (-1)⟩] ∧
    getGroup (tk 2 "b" :: (makeTokens [⟨4, ['d'], 7⟩, ⟨5, ['e'], 7⟩, ⟨6, ['f'], 7⟩]).map Node.tok ++ [tk 9 "x"]) 2 =
      [tk 4 "d" (some 0), tk 5 "e" (some 1), tk 6 "f" (some (-2))] := by decide

/-! ## C31 -/

/-- **C31** (partial: the range must touch a token; see `C31_violated`). The tokens yielded are
    precisely the tokens that end after `start` and begin before `stop`, in order. -/
theorem C31_range_partial (l : L) (cs : List (Node α L A)) (hf : FullL cs) (ho : Ordered (toksL cs)) (start : Nat)
    (stop : Option Nat) (hse : ∀ e, stop = some e → start < e)
    (htouch : ∃ u ∈ toksL cs, start < u.stop ∧ ∀ e, stop = some e → u.pos < e) :
    ∃ r, Rng.fromTree l cs start stop = some r ∧
      r.tokens (.ctx l cs) = ((Node.ctx l cs).leavesAt []).filter (fun q => decide (start < q.2.stop) &&
        (stop.map (fun e => decide (q.2.pos < e))).getD true) := by
  obtain ⟨u, h1, h2, h3⟩ := htouch
  exact range_eq l hf ho start stop hse h1 h2 h3

/-- **C31.** No range is returned only when no token is touched. -/
theorem C31_none (l : L) (cs : List (Node α L A)) (hf : FullL cs) (ho : Ordered (toksL cs)) (start : Nat)
    (stop : Option Nat) (hse : ∀ e, stop = some e → start < e) (h : Rng.fromTree l cs start stop = none) :
    ∀ u ∈ toksL cs, ¬ (start < u.stop ∧ ∀ e, stop = some e → u.pos < e) :=
  range_none l hf ho start stop hse h

omit [DecidableEq α] in
/-- **C31.** An empty range (`end <= start`) is never returned. -/
theorem C31_empty (l : L) (cs : List (Node α L A)) (hf : FullL cs) (ho : Ordered (toksL cs)) (start e : Nat)
    (he : e ≤ start) : Rng.fromTree l cs start (some e) = none := by
  unfold Rng.fromTree
  split
  · rfl
  · next hne =>
    by_cases h : e < (Node.ctx l cs).stop
    · simp [endTrailOf, h, he]
    · simp only [endTrailOf, if_neg h]
      have hfull : (Node.ctx l cs).Full := ⟨hne, hf⟩
      obtain ⟨h1, h2, h3⟩ := full_toks _ hfull
      cases hl : (toksL cs).getLast? with
      | none => exact absurd (List.getLast?_eq_none_iff.1 hl) h1
      | some last =>
        simp only [Node.toks, hl] at h3
        have hst : (Node.ctx l cs).stop = last.stop := by simp [Node.stop, h3]
        have hmem := List.mem_of_getLast? hl
        have hpos := List.length_pos_iff.2 (ho.1 last hmem)
        have hls : last.stop = last.pos + last.text.length := rfl
        rw [if_pos (by omega)]
        have hnone : findToken cs start = none := by
          rw [findToken_eq hf ho, List.find?_eq_none]
          intro t ht
          have : t.stop ≤ last.stop := by
            have := Ordered.upward (P := fun x => decide (t.stop ≤ x.stop)) (fun a b hab h => by
              have h2 := of_decide_eq_true h; apply decide_eq_true; simp only [TokN.stop] at *; omega) ho hl ht (by simp)
            exact of_decide_eq_true this
          simp only [decide_eq_true_eq]
          omega
        rw [← findTokenTrail_fst] at hnone
        have : findTokenTrail cs start = none := by
          cases h : findTokenTrail cs start with
          | none => rfl
          | some q => rw [h] at hnone; simp at hnone
        rw [this]
        rfl

private def gap : List (Node Char Nat Nat) := [.ctx 1 [tk 0 "a"], .ctx 1 [tk 5 "b"]]

/-- **C31 is violated by the code**: a range in a gap between the tokens of two contexts yields
    the token after and the token before the gap, in the wrong order. -/
theorem C31_violated : FullL gap ∧ Ordered (toksL gap) ∧
    ∃ r, Rng.fromTree 0 gap 2 (some 3) = some r ∧ (r.tokens (.ctx 0 gap)).map (fun q => (q.2.pos, q.2.stop)) = [(5, 6), (0, 1)] := by
  refine ⟨by simp [FullL, gap, Node.Full, tk], by simp [Ordered, toksL, gap, Node.toks, tk, TokN.stop], ⟨[], [1, 0], [0, 0]⟩, ?_, ?_⟩ <;> decide

example : Rng.fromTree 0 kids0 3 (some 5) = some ⟨[1], [0], [1]⟩ ∧
    (Rng.tokens (.ctx 0 kids0) ⟨[1], [0], [1]⟩).map (·.1) = [[1, 0], [1, 1]] ∧
    (Rng.fromTree 0 kids0 0 (some 5)).map (fun r => (r.tokens (.ctx 0 kids0)).map (·.1)) =
      some [[0], [1, 0], [1, 1]] := by decide

end Parce

import Verif.Lemmas.Nodes
/-!
# C96 and C97: how nodes of a tree relate to each other
-/
namespace Parce.Nd
open Parce
variable {α L A : Type}

/-! ## C96 -/

/-- **C96.** The ancestors of a node are the contexts it is in, the innermost first. -/
theorem C96_ancestors (path : List Nat) :
    (∀ a, a ∈ ancestors path none ↔ a <+: path ∧ a ≠ path) ∧
    (ancestors path none).Pairwise (fun x y => y.length < x.length) := by
  refine ⟨fun a => ?_, ancestors_upto_sorted path none⟩
  rw [ancestors_none]
  exact mem_ancestors path a

/-- **C96.** With `upto` one of the ancestors, no ancestor above that is listed. -/
theorem C96_ancestors_upto (path upto : List Nat) (h : upto <+: path) (hne : upto ≠ path) :
    (∀ a, a ∈ ancestors path (some (false, upto)) ↔ a <+: path ∧ a ≠ path ∧ upto <+: a) ∧
    (ancestors path (some (false, upto))).Pairwise (fun x y => y.length < x.length) := by
  refine ⟨fun a => ?_, ancestors_upto_sorted path _⟩
  by_cases hu : upto = []
  · subst hu
    have h0 : ancestors path (some (false, [])) = ancestors path none := by
      unfold ancestors
      cases path.reverse <;> rfl
    rw [h0, (C96_ancestors path).1]
    simp
  · rw [mem_ancestors_upto path upto a hu]
    obtain ⟨v, k, rfl⟩ : ∃ v k, upto = v ++ [k] := by
      rcases List.eq_nil_or_concat upto with h | ⟨v, k, h⟩
      · exact absurd h hu
      · exact ⟨v, k, by rw [h, List.concat_eq_append]⟩
    rw [List.dropLast_concat]
    have hv : v <+: path := (List.prefix_append v [k]).trans h
    have hvne : v ≠ path := by
      rintro rfl
      have := h.length_le
      simp at this
      omega
    constructor
    · rintro ⟨h1, h2, h3⟩
      refine ⟨h1, h2, ?_⟩
      rcases List.prefix_or_prefix_of_prefix h1 h with h4 | h4
      · rcases List.prefix_concat_iff.1 h4 with h5 | h5
        · rw [h5]; exact List.prefix_rfl
        · exact absurd ⟨h5, hv, hvne⟩ h3
      · exact h4
    · rintro ⟨h1, h2, h3⟩
      refine ⟨h1, h2, ?_⟩
      rintro ⟨h4, _⟩
      have h5 := h4.length_le
      have h6 := h3.length_le
      simp at h6
      omega

/-- **C96** (partial; see `C96_upto_violated`). With `upto` not an ancestor, and its parent neither,
    all ancestors are listed. -/
theorem C96_ancestors_other_partial (path upto : List Nat) (h : ¬ (upto.dropLast <+: path ∧ upto.dropLast ≠ path)) :
    ∀ a, a ∈ ancestors path (some (false, upto)) ↔ a <+: path ∧ a ≠ path := by
  intro a
  by_cases hu : upto = []
  · subst hu
    have h0 : ancestors path (some (false, [])) = ancestors path none := by
      unfold ancestors
      cases path.reverse <;> rfl
    rw [h0, (C96_ancestors path).1]
  · rw [mem_ancestors_upto path upto a hu]
    constructor
    · rintro ⟨h1, h2, _⟩
      exact ⟨h1, h2⟩
    · rintro ⟨h1, h2⟩
      exact ⟨h1, h2, fun ⟨_, h3, h4⟩ => h ⟨h3, h4⟩⟩

/-- **C96 is violated by the code**: a context that is not an ancestor, but whose parent is (for
    example a sibling) does end the iteration, although the root should be reached. -/
theorem C96_upto_violated : ancestors [0, 0] (some (false, [0, 1])) = [] ∧ ancestors [0, 0] none = [[0], []] ∧
    ∀ (q : List Nat) (j : Nat) (r : List Nat), r ≠ [] → ∀ a, a <+: q → a ∉ ancestors (q ++ r) (some (false, q ++ [j])) := by
  refine ⟨by decide, by decide, ?_⟩
  intro q j r hr a ha hmem
  rw [mem_ancestors_upto _ _ _ (by simp), List.dropLast_concat] at hmem
  exact hmem.2.2 ⟨ha, List.prefix_append _ _, by simpa using hr⟩

/-- **C96.** `is_ancestor_of`, `depth` and `root`. -/
theorem C96_simple (self node : List Nat) :
    (isAncestorOf self node = true ↔ self <+: node ∧ self ≠ node) ∧ depth node = node.length ∧ rootOf node = [] := by
  refine ⟨?_, ?_, ?_⟩
  · unfold isAncestorOf
    rw [List.any_eq_true]
    constructor
    · rintro ⟨n, h1, h2⟩
      rw [decide_eq_true_eq] at h2
      exact h2 ▸ ((C96_ancestors node).1 n).1 h1
    · intro h
      exact ⟨self, ((C96_ancestors node).1 self).2 h, by simp⟩
  · unfold depth
    rw [ancestors_none]
    have h1 : ∀ xs : List (List Nat), (xs.map (fun _ => 1)).sum = xs.length := by
      intro xs
      induction xs with
      | nil => rfl
      | cons x xs ih => simp [ih]; omega
    rw [h1]
    simp [ancestorsOf]
  · unfold rootOf
    rw [ancestors_none]
    cases node with
    | nil => rfl
    | cons i p => rw [ancestorsOf_cons]; simp

/-- **C96.** The common ancestor of two nodes is the innermost context that both are in (a
    context is in itself). -/
theorem C96_common_ancestor (root : Node α L A) (hroot : root.isCtx = true) (p q : List Nat) (m n : Node α L A)
    (hp : root.at p = some m) (hq : root.at q = some n) :
    ∃ c, commonAncestor root p q = some c ∧ isCtxAt root c = true ∧ c <+: p ∧ c <+: q ∧
      ∀ d, isCtxAt root d = true → d <+: p → d <+: q → d <+: c := by
  have hanc : ∀ d, d ∈ (if isCtxAt root p then [p] else []) ++ ancestors p none ↔ isCtxAt root d = true ∧ d <+: p := by
    intro d
    rw [List.mem_append, (C96_ancestors p).1]
    constructor
    · rintro (h | ⟨h1, h2⟩)
      · split at h
        · next hc => rw [List.mem_singleton] at h; subst h; exact ⟨hc, List.prefix_rfl⟩
        · cases h
      · exact ⟨isCtxAt_prefix hp h1 h2, h1⟩
    · rintro ⟨h1, h2⟩
      by_cases he : d = p
      · subst he
        left
        rw [if_pos h1]
        simp
      · exact Or.inr ⟨h2, he⟩
  unfold commonAncestor
  simp only [hanc]
  split
  · next h => exact ⟨q, rfl, h.1, h.2.2, List.prefix_rfl, fun d _ _ h3 => h3⟩
  · next h =>
    cases hfd : (ancestors q none).find? (fun n => decide (isCtxAt root n = true ∧ n <+: p)) with
    | none =>
      exfalso
      have hq0 : q ≠ [] := by
        rintro rfl
        exact h ⟨by simp [isCtxAt, Node.at, hroot], by simp [isCtxAt, Node.at, hroot], List.nil_prefix⟩
      have h1 := List.find?_eq_none.1 hfd [] (((C96_ancestors q).1 []).2 ⟨List.nil_prefix, fun h => hq0 h.symm⟩)
      apply h1
      simp [isCtxAt, Node.at, hroot]
    | some c =>
      have h1 := List.mem_of_find?_eq_some hfd
      have h2 := List.find?_some hfd
      rw [decide_eq_true_eq] at h2
      obtain ⟨h3, h4⟩ := ((C96_ancestors q).1 c).1 h1
      refine ⟨c, rfl, h2.1, h2.2, h3, ?_⟩
      intro d hd1 hd2 hd3
      have hdq : d ≠ q := by
        rintro rfl
        exact h ⟨hd1, hd1, hd2⟩
      have hle := find_longest (C96_ancestors q).2 hfd d (((C96_ancestors q).1 d).2 ⟨hd3, hdq⟩) (by simp [hd1, hd2])
      rcases List.prefix_or_prefix_of_prefix hd3 h3 with h5 | h5
      · exact h5
      · rw [h5.eq_of_length (by have := h5.length_le; omega)]
        exact List.prefix_rfl

/-- **C96.** The siblings of the child with index `i`, in a context without empty contexts. -/
theorem C96_siblings (cs : List (Node α L A)) (hf : FullL cs) (ho : Ordered (toksL cs)) (i : Nat) (hi : i < cs.length) :
    leftSibling cs i = (if i = 0 then none else some (i - 1)) ∧
    rightSibling cs i = (if i + 1 < cs.length then some (i + 1) else none) ∧
    (leftSiblings cs i).reverse = List.range i ∧
    List.range i ++ i :: rightSiblings cs i = List.range cs.length := by
  have hn : cs[i]? = some cs[i] := List.getElem?_eq_getElem hi
  have hidx := parentIndex_eq hf ho hn
  unfold leftSibling rightSibling leftSiblings rightSiblings isFirst isLast
  rw [hidx]
  refine ⟨?_, ?_, ?_, ?_⟩
  · by_cases h : i = 0
    · simp [h]
    · have h1 : ¬ 0 = i := fun h2 => h h2.symm
      have h2 : cs[i - 1]? = some cs[i - 1] := List.getElem?_eq_getElem (by omega)
      simp only [h1, h, decide_false, Bool.false_eq_true, if_false, pyIdx, h2, Option.map_some]
  · by_cases h : cs.length = i + 1
    · simp [h]
    · have h2 : cs[i + 1]? = some cs[i + 1] := List.getElem?_eq_getElem (by omega)
      have h3 : i + 1 < cs.length := by omega
      simp only [h, decide_false, Bool.false_eq_true, if_false, pyIdx, h2, Option.map_some, h3, if_true]
  · by_cases h : i = 0
    · subst h; simp
    · have h1 : ¬ 0 = i := fun h2 => h h2.symm
      simp only [h1, h, decide_false, Bool.false_eq_true, if_false, List.reverse_reverse]
      rw [List.take_range]
      congr 1
      omega
  · have hsplit : List.range cs.length = List.range i ++ (i :: (List.range cs.length).drop (i + 1)) := by
      have h1 : (List.range cs.length).drop i = i :: (List.range cs.length).drop (i + 1) := by
        rw [List.drop_eq_getElem_cons (by simpa using hi)]
        simp
      rw [← h1]
      have h2 : List.range i = (List.range cs.length).take i := by
        rw [List.take_range]
        congr 1
        omega
      rw [h2, List.take_append_drop]
    by_cases h : cs.length = i + 1
    · simp only [h, decide_true, if_true]
      rw [List.range_succ]
    · simp only [h, decide_false, Bool.false_eq_true, if_false]
      exact hsplit.symm

/-- The token at `p` comes before the token at `q`. -/
def Before (root : Node α L A) (p q : List Nat) : Prop :=
  ∃ b m a t u, root.leavesAt [] = b ++ (p, t) :: (m ++ (q, u) :: a)

theorem before_or {root : Node α L A} (hf : FullL root.kids) (ho : Ordered root.toks) {p q : List Nat} {t u : TokN α A}
    (hp : root.at p = some (.tok t)) (hq : root.at q = some (.tok u)) (hne : p ≠ q) :
    (Before root p q ∧ t.pos < u.pos ∧ ∃ c i is j js, p = c ++ i :: is ∧ q = c ++ j :: js ∧ i < j) ∨
    (Before root q p ∧ u.pos < t.pos ∧ ∃ c i is j js, p = c ++ i :: is ∧ q = c ++ j :: js ∧ j < i) := by
  obtain ⟨c, i, is, j, js, rfl, rfl, hij⟩ := paths_part p q (fun h => hne (tok_no_prefix hp hq h))
    (fun h => hne (tok_no_prefix hq hp h).symm)
  rcases Nat.lt_or_gt_of_ne hij with h | h
  · left
    obtain ⟨b, m, a, h1, _⟩ := part_leaves hf ho hp hq h
    exact ⟨⟨b, m, a, t, u, by rw [h1]; simp⟩, part_lt hf ho hp hq h, c, i, is, j, js, rfl, rfl, h⟩
  · right
    obtain ⟨b, m, a, h1, _⟩ := part_leaves hf ho hq hp h
    exact ⟨⟨b, m, a, u, t, by rw [h1]; simp⟩, part_lt hf ho hq hp h, c, i, is, j, js, rfl, rfl, h⟩

/-- One of two tokens is before the other, not both. -/
theorem C96_before (root : Node α L A) (hf : FullL root.kids) (ho : Ordered root.toks) (p q : List Nat) (t u : TokN α A)
    (hp : root.at p = some (.tok t)) (hq : root.at q = some (.tok u)) :
    (Before root p q ↔ t.pos < u.pos) := by
  have hpos : ∀ x y : List Nat, Before root x y → ∀ s v, root.at x = some (.tok s) → root.at y = some (.tok v) → s.pos < v.pos := by
    rintro x y ⟨b, m, a, s', v', he⟩ s v hs hv
    have hx : (x, s') ∈ root.leavesAt [] := by rw [he]; simp
    have hy : (y, v') ∈ root.leavesAt [] := by rw [he]; simp
    obtain ⟨r1, e1, h1⟩ := (mem_leavesAt _ _ _ _).1 hx
    obtain ⟨r2, e2, h2⟩ := (mem_leavesAt _ _ _ _).1 hy
    rw [List.nil_append] at e1 e2
    subst e1; subst e2
    rw [h1] at hs; rw [h2] at hv
    cases hs; cases hv
    have ht := leavesAt_toks root []
    rw [he] at ht
    simp only [List.map_append, List.map_cons] at ht
    rw [← ht] at ho
    have h3 := (List.pairwise_append.1 ho.2).2.1
    have h4 := (List.pairwise_cons.1 h3).1 v' (by simp)
    have h5 := List.length_pos_iff.2 (ho.1 s' (by simp))
    simp only [TokN.stop] at h4
    omega
  constructor
  · intro h; exact hpos p q h t u hp hq
  · intro h
    by_cases hne : p = q
    · subst hne
      rw [hp] at hq
      cases hq
      omega
    · rcases before_or hf ho hp hq hne with h1 | h1
      · exact h1.1
      · have := h1.2.1
        omega

/-- **C96** (partial; see `C96_range_violated`). From a token to the same or a later token: the
    context of the trails is the innermost that both are in, the trails lead from there to the
    tokens, and the range yields the tokens from the one to the other, both included. -/
theorem C96_range_partial (root : Node α L A) (hf : FullL root.kids) (ho : Ordered root.toks) (p q : List Nat)
    (t u : TokN α A) (hp : root.at p = some (.tok t)) (hq : root.at q = some (.tok u)) (hroot : root.isCtx = true)
    (h : p = q ∨ Before root p q) :
    ∃ c st et, commonTrail root p q = some (c, st, et) ∧ commonAncestor root p q = some c ∧ c ++ st = p ∧ c ++ et = q ∧
      range root p q = some ⟨c, st, et⟩ ∧
    ∃ before seg after, root.leavesAt [] = before ++ seg ++ after ∧ seg.head? = some (p, t) ∧ seg.getLast? = some (q, u) ∧
      Rng.tokens root ⟨c, st, et⟩ = seg ∧ forwardUntilIncluding root p q = seg := by
  have hanc : ∀ c st et, c ++ st = p → c ++ et = q → st ≠ [] → et ≠ [] → (p = q → st.length = 1) →
      (p ≠ q → ∃ i is j js, st = i :: is ∧ et = j :: js ∧ i ≠ j) → commonAncestor root p q = some c := by
    intro c st et h1 h2 h3 h4 h5 h6
    obtain ⟨d, hd1, hd2, hd3, hd4, hd5⟩ := C96_common_ancestor root hroot p q _ _ hp hq
    rw [hd1]
    have hcp : c <+: p := h1 ▸ List.prefix_append _ _
    have hcq : c <+: q := h2 ▸ List.prefix_append _ _
    have hcne : c ≠ p := by rw [← h1]; simpa using h3
    have h7 := hd5 c (isCtxAt_prefix hp hcp hcne) hcp hcq
    obtain ⟨e, rfl⟩ := h7
    have hdp : c ++ e ≠ p := by
      rintro rfl
      simp [isCtxAt, hp, Node.isCtx] at hd2
    cases e with
    | nil => simp
    | cons k e =>
      exfalso
      by_cases hpq : p = q
      · have := h5 hpq
        have h8 := hd3.length_le
        have h9 : (c ++ k :: e).length ≠ p.length := fun h10 => hdp (hd3.eq_of_length h10)
        rw [← h1] at h8 h9
        simp at h8 h9
        omega
      · obtain ⟨i, is, j, js, rfl, rfl, hij⟩ := h6 hpq
        obtain ⟨x, hx⟩ := hd3
        obtain ⟨y, hy⟩ := hd4
        rw [← h1, List.append_assoc] at hx
        rw [← h2, List.append_assoc] at hy
        have hx' := List.append_cancel_left hx
        have hy' := List.append_cancel_left hy
        simp only [List.cons_append, List.cons.injEq] at hx' hy'
        exact hij (hx'.1.symm.trans hy'.1)
  by_cases hpq : p = q
  · subst hpq
    rw [hp] at hq
    cases hq
    obtain ⟨c, i, rfl⟩ : ∃ c i, p = c ++ [i] := by
      rcases List.eq_nil_or_concat p with rfl | ⟨c, i, h⟩
      · simp only [Node.at, Option.some.injEq] at hp
        subst hp
        cases hroot
      · exact ⟨c, i, by rw [h, List.concat_eq_append]⟩
    have hat := hp
    rw [at_append] at hat
    cases hc : root.at c with
    | none => rw [hc] at hat; cases hat
    | some sub =>
      rw [hc, Option.bind_some] at hat
      obtain ⟨m, hm, hm'⟩ := at_cons hat
      simp only [Node.at, Option.some.injEq] at hm'
      subst hm'
      obtain ⟨hfs, hos⟩ := at_wf hf ho hc
      have hidx := parentIndex_eq hfs (toks_kids hos) hm
      have htr : commonTrail root (c ++ [i]) (c ++ [i]) = some (c, [i], [i]) := by
        simp [commonTrail, kidsAt_eq hc, hidx]
      have hne : root.kidsAt c ≠ [] := by
        rw [kidsAt_eq hc]
        rintro h
        rw [h] at hm
        cases hm
      have hrg : range root (c ++ [i]) (c ++ [i]) = some ⟨c, [i], [i]⟩ := by
        simp only [range, htr, if_pos hne]
      have hone := range_one hc hm
      obtain ⟨b2, h3, _⟩ := walk_split hf ho (base := []) (path := c ++ [i]) rfl hp
      refine ⟨c, [i], [i], htr, hanc c [i] [i] rfl rfl (by simp) (by simp) (fun _ => rfl) (fun h => absurd rfl h), rfl, rfl, hrg,
        b2, [(c ++ [i], t)], forward root [] (c ++ [i]), ?_, rfl, rfl, hone, ?_⟩
      · rw [h3]
        simp [Node.leavesAt]
      · simp only [forwardUntilIncluding, hrg, hone]
  · have hb : Before root p q := h.resolve_left hpq
    rcases before_or hf ho hp hq hpq with ⟨_, hlt, c, i, is, j, js, rfl, rfl, hij⟩ | ⟨_, hlt, _⟩
    · obtain ⟨before, mid, after, h1, h2⟩ := part_leaves hf ho hp hq hij
      have hpos : posAt root (c ++ j :: js) > posAt root (c ++ i :: is) := by
        simp only [posAt, hp, hq, Option.map_some, Option.getD_some, Node.pos, Node.firstTok]
        exact hlt
      have htr : commonTrail root (c ++ i :: is) (c ++ j :: js) = some (c, i :: is, j :: js) := by
        rw [commonTrail, if_neg (fun h => hpq h.symm), if_pos hpos]
        exact trail_eq hf ho hp hq (by omega)
      have hne : root.kidsAt c ≠ [] := by
        have hat := hp
        rw [at_append] at hat
        cases hc : root.at c with
        | none => rw [hc] at hat; cases hat
        | some sub =>
          rw [hc, Option.bind_some] at hat
          obtain ⟨m, hm, _⟩ := at_cons hat
          rw [kidsAt_eq hc]
          rintro h
          rw [h] at hm
          cases hm
      have hrg : range root (c ++ i :: is) (c ++ j :: js) = some ⟨c, i :: is, j :: js⟩ := by
        simp only [range, htr, if_pos hne]
      refine ⟨c, i :: is, j :: js, htr, hanc c _ _ rfl rfl (by simp) (by simp) (fun h => absurd h hpq)
        (fun _ => ⟨i, is, j, js, rfl, rfl, by omega⟩), rfl, rfl, hrg, before, _, after, h1, rfl, by rw [List.getLast?_concat], h2, ?_⟩
      simp only [forwardUntilIncluding, hrg, h2]
    · have := (C96_before root hf ho p q t u hp hq).1 hb
      omega

/-- **C96 is violated by the code**: the range to an earlier token of the same tree is None (and
    so are the trails), although only tokens of different trees should have no range. -/
theorem C96_range_violated (root : Node α L A) (hf : FullL root.kids) (ho : Ordered root.toks) (p q : List Nat)
    (t u : TokN α A) (hp : root.at p = some (.tok t)) (hq : root.at q = some (.tok u)) (h : Before root q p) :
    commonTrail root p q = none ∧ range root p q = none ∧ forwardUntilIncluding root p q = [] := by
  have hlt := (C96_before root hf ho q p u t hq hp).1 h
  have hne : q ≠ p := by
    rintro rfl
    rw [hp] at hq
    cases hq
    omega
  have hpos : ¬ posAt root q > posAt root p := by
    simp only [posAt, hp, hq, Option.map_some, Option.getD_some, Node.pos, Node.firstTok]
    omega
  have h1 : commonTrail root p q = none := by rw [commonTrail, if_neg hne, if_neg hpos]
  have h2 : range root p q = none := by simp [range, h1]
  exact ⟨h1, h2, by simp [forwardUntilIncluding, h2]⟩

private def tk (p : Nat) (s : String) : Node Char Nat Nat := .tok ⟨p, s.toList, 0, none⟩
private def tree : Node Char Nat Nat := .ctx 0 [tk 0 "a", .ctx 1 [tk 1 "b", .ctx 2 [tk 2 "c"], tk 3 "d"], tk 4 "e"]

example : FullL tree.kids ∧ Ordered tree.toks ∧ tree.at [0] = some (tk 0 "a") ∧ tree.at [1, 1, 0] = some (tk 2 "c") ∧
    range tree [0] [1, 1, 0] = some ⟨[], [0], [1, 1, 0]⟩ ∧ range tree [1, 0] [1, 1, 0] = some ⟨[1], [0], [1, 0]⟩ ∧
    (forwardUntilIncluding tree [0] [1, 1, 0]).map (·.1) = [[0], [1, 0], [1, 1, 0]] ∧
    range tree [1, 1, 0] [0] = none ∧ commonAncestor tree [1, 0] [1, 1, 0] = some [1] ∧
    commonAncestor tree [1, 1] [1, 1, 0] = some [1, 1] := by
  refine ⟨by simp [FullL, tree, Node.kids, Node.Full, tk], by simp [Ordered, toksL, tree, Node.toks, tk, TokN.stop], ?_⟩
  decide +kernel

example : leftSiblings tree.kids 2 = [1, 0] ∧ rightSiblings tree.kids 0 = [1, 2] ∧ leftSibling tree.kids 0 = none ∧
    ancestors [1, 1, 0] (some (false, [1])) = [[1, 1], [1]] := by decide +kernel

/-! ## C97 -/

/-- **C97.** The state of two tokens matches if and only if the lexicons of the contexts they are
    in are the same, in the same order. The tokens can be in one tree or in different trees. -/
theorem C97_state_matches [DecidableEq L] (trees : Nat → Node α L A) (self other : Ref) (m n : Node α L A)
    (h1 : (trees self.tree).at self.path = some m) (h2 : (trees other.tree).at other.path = some n) :
    stateMatches trees self other = true ↔
      lexicons (trees self.tree) self.path = lexicons (trees other.tree) other.path := by
  have key : stateLoop trees self other ((ancestors self.path none).map (⟨self.tree, ·⟩))
      ((ancestors other.path none).map (⟨other.tree, ·⟩)) = true ↔
      lexicons (trees self.tree) self.path = lexicons (trees other.tree) other.path := by
    rw [ancestors_none, ancestors_none, stateLoop_iff trees _ self other (Nat.le_refl _), upLex_lexicons _ _ _ h1,
      upLex_lexicons _ _ _ h2]
    constructor
    · intro h
      have h3 := List.reverse_inj.1 h
      exact List.map_inj_right (fun _ _ h => Option.some.inj h) |>.1 h3
    · intro h
      rw [h]
  unfold stateMatches
  split
  · next h => subst h; simp
  · exact key

/-- **C97.** Two tokens are equal if and only if text, action and the lexicons are the same. -/
theorem C97_equals [DecidableEq α] [DecidableEq L] [DecidableEq A] (trees : Nat → Node α L A) (self other : Ref)
    (t u : TokN α A) (h1 : (trees self.tree).at self.path = some (.tok t)) (h2 : (trees other.tree).at other.path = some (.tok u)) :
    equals trees self other = true ↔ t.text = u.text ∧ t.act = u.act ∧
      lexicons (trees self.tree) self.path = lexicons (trees other.tree) other.path := by
  unfold equals
  rw [h1, h2]
  simp only [Bool.and_eq_true, decide_eq_true_eq, C97_state_matches trees self other _ _ h1 h2, and_assoc]

/-- The lexicons are those of the contexts on the way from the root. -/
theorem C97_lexicons (root : Node α L A) (p : List Nat) (n : Node α L A) (h : root.at p = some n) :
    (lexicons root p).length = p.length ∧
    ∀ k, k < p.length → ∃ cs l, root.at (p.take k) = some (.ctx l cs) ∧ (lexicons root p)[k]? = some l := by
  induction p generalizing root with
  | nil => cases root <;> simp [lexicons]
  | cons i p ih =>
    cases root with
    | tok t => simp [Node.at, Node.kids] at h
    | ctx l cs =>
      obtain ⟨m, hm, h'⟩ := at_cons h
      have hm' : cs[i]? = some m := hm
      obtain ⟨e1, e2⟩ := ih m h'
      simp only [lexicons, hm', Option.map_some, Option.getD_some]
      refine ⟨by simp [e1], ?_⟩
      intro k hk
      cases k with
      | zero => exact ⟨cs, l, rfl, rfl⟩
      | succ k =>
        obtain ⟨ds, l', h3, h4⟩ := e2 k (by simpa using hk)
        refine ⟨ds, l', ?_, by simpa using h4⟩
        simp [Node.at, Node.kids, hm', h3]

example : stateMatches (fun _ => tree) ⟨0, [1, 0]⟩ ⟨0, [1, 2]⟩ = true ∧ stateMatches (fun _ => tree) ⟨0, [1, 0]⟩ ⟨1, [1, 2]⟩ = true ∧
    stateMatches (fun _ => tree) ⟨0, [1, 0]⟩ ⟨0, [1, 1, 0]⟩ = false ∧ lexicons tree [1, 1, 0] = [0, 1, 2] ∧
    equals (fun _ => tree) ⟨0, [1, 0]⟩ ⟨0, [1, 2]⟩ = false := by decide +kernel

end Parce.Nd

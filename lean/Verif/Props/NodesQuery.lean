import Verif.Props.Nodes
/-!
# C98: navigating with queries
-/
namespace Parce.Nd
open Parce
variable {α L A : Type}

theorem truth_at {root : Node α L A} (hf : FullL root.kids) (ho : Ordered root.toks) {p : List Nat} {n : Node α L A}
    (hp : root.at p = some n) (hne : p ≠ []) : truth root p = true := by
  have hfull : n.Full := by
    obtain ⟨c, i, rfl⟩ : ∃ c i, p = c ++ [i] := by
      rcases List.eq_nil_or_concat p with h | ⟨c, i, h⟩
      · exact absurd h hne
      · exact ⟨c, i, by rw [h, List.concat_eq_append]⟩
    rw [at_append] at hp
    cases hc : root.at c with
    | none => rw [hc] at hp; cases hp
    | some sub =>
      rw [hc, Option.bind_some] at hp
      obtain ⟨m, hm, hm'⟩ := at_cons hp
      simp only [Node.at, Option.some.injEq] at hm'
      subst hm'
      exact (at_wf hf ho hc).1.get hm
  have htoks := (at_wf hf ho hp).2
  simp only [truth, hp]
  cases n with
  | tok t =>
    have := htoks.1 t (by simp [Node.toks])
    cases ht : t.text with
    | nil => exact absurd ht this
    | cons a b => simp [ht]
  | ctx l cs =>
    cases cs with
    | nil => exact absurd rfl hfull.1
    | cons c cs => rfl

/-- **C98.** `first` and `last` are the same as `[0]` and `[-1]`; in every tree. -/
theorem C98_first_last (root : Node α L A) (q : List (List Nat)) :
    qFirst root q = qItem root 0 q ∧ qLast root q = qItem root (-1) q := by
  have h : ∀ p, (truth root p && isCtxAt root p) = decide (root.kidsAt p ≠ []) := by
    intro p
    unfold truth isCtxAt Node.kidsAt
    cases hn : root.at p with
    | none => simp
    | some n =>
      cases n with
      | tok t => simp [Node.isCtx, Node.kids]
      | ctx l cs => cases cs <;> simp [Node.isCtx, Node.kids]
  unfold qFirst qLast qItem
  simp only [h]
  refine ⟨?_, ?_⟩
  · congr 1
    funext p
    by_cases he : root.kidsAt p = []
    · simp [he]
    · have := List.length_pos_iff.2 he
      simp only [he, ne_eq, not_false_eq_true, decide_true, if_true]
      rw [if_pos (by simp; omega)]
      simp
  · congr 1
    funext p
    by_cases he : root.kidsAt p = []
    · simp [he]
    · have := List.length_pos_iff.2 he
      simp only [he, ne_eq, not_false_eq_true, decide_true, if_true]
      rw [if_pos (by constructor <;> simp <;> omega)]
      congr 3
      simp
      omega

/-- **C98.** `parent` gives, for every node that is not the root, the context it is in. -/
theorem C98_parent (root : Node α L A) (q : List (List Nat)) (hq : ∀ p ∈ q, ∃ n, root.at p = some n) :
    qParent root q = (q.filter (fun p => decide (p ≠ []))).map List.dropLast := by
  unfold qParent
  induction q with
  | nil => rfl
  | cons p q ih =>
    rw [List.flatMap_cons, ih (fun p' h => hq p' (List.mem_cons_of_mem _ h)), List.filter_cons]
    by_cases hp : p = []
    · simp [hp]
    · obtain ⟨n, hn⟩ := hq p (by simp)
      have hk : root.kidsAt p.dropLast ≠ [] := by
        obtain ⟨c, i, rfl⟩ : ∃ c i, p = c ++ [i] := by
          rcases List.eq_nil_or_concat p with h | ⟨c, i, h⟩
          · exact absurd h hp
          · exact ⟨c, i, by rw [h, List.concat_eq_append]⟩
        rw [List.dropLast_concat]
        rw [at_append] at hn
        cases hc : root.at c with
        | none => rw [hc] at hn; cases hn
        | some sub =>
          rw [hc, Option.bind_some] at hn
          obtain ⟨m, hm, _⟩ := at_cons hn
          rw [kidsAt_eq hc]
          rintro h
          rw [h] at hm
          cases hm
      rw [if_pos ⟨hp, hk⟩]
      simp [hp]

/-- **C98.** `forward` and `next` give the tokens, or the token, after every node; `backward` and
    `previous` those before it, the nearest first. -/
theorem C98_neighbours (root : Node α L A) (hf : FullL root.kids) (ho : Ordered root.toks) (hroot : root.isCtx = true)
    (p : List Nat) (n : Node α L A) (hp : root.at p = some n) :
    ∃ before after, root.leavesAt [] = before ++ n.leavesAt p ++ after ∧
      qForward root [p] = after.map (·.1) ∧ qNext root [p] = (after.take 1).map (·.1) ∧
      qBackward root [p] = (before.map (·.1)).reverse ∧ qPrevious root [p] = ((before.reverse).take 1).map (·.1) := by
  obtain ⟨before, h1, h2⟩ := walk_split hf ho (base := []) (path := p) rfl hp
  rw [List.nil_append] at h1
  have hall : ∀ x ∈ root.leavesAt [], truth root x.1 = true := by
    intro x hx
    obtain ⟨r, e, hr⟩ := (mem_leavesAt root [] x.1 x.2).1 hx
    rw [List.nil_append] at e
    rw [← e] at hr
    refine truth_at hf ho hr ?_
    intro h0
    rw [h0] at hr
    simp only [Node.at, Option.some.injEq] at hr
    subst hr
    cases hroot
  have hone : ∀ xs : List (List Nat × TokN α A), (∀ x ∈ xs, x ∈ root.leavesAt []) →
      (xs.head?.toList.map (·.1)).filter (truth root) = (xs.take 1).map (·.1) := by
    intro xs hxs
    cases xs with
    | nil => rfl
    | cons x xs => simp [hall x (hxs x (by simp))]
  refine ⟨before, forward root [] p, by rw [h1, List.append_assoc], by simp [qForward], ?_, by simp [qBackward, h2], ?_⟩
  · simp only [qNext, nextToken, List.flatMap_cons, List.flatMap_nil, List.append_nil]
    exact hone _ (fun x hx => by rw [h1]; simp [hx])
  · simp only [qPrevious, previousToken, h2, List.flatMap_cons, List.flatMap_nil, List.append_nil]
    exact hone _ (fun x hx => by rw [h1]; simp [List.mem_reverse.1 hx])

/-- **C98.** `left`, `right`, `left_siblings` and `right_siblings` of a node with index `i`. -/
theorem C98_siblings (root : Node α L A) (hf : FullL root.kids) (ho : Ordered root.toks) (c : List Nat) (i : Nat)
    (n : Node α L A) (hp : root.at (c ++ [i]) = some n) :
    qLeft root [c ++ [i]] = (if i = 0 then [] else [c ++ [i - 1]]) ∧
    qRight root [c ++ [i]] = (if i + 1 < (root.kidsAt c).length then [c ++ [i + 1]] else []) ∧
    qLeftSiblings root [c ++ [i]] = ((List.range i).map (fun j => c ++ [j])).reverse ∧
    (List.range i).map (fun j => c ++ [j]) ++ (c ++ [i]) :: qRightSiblings root [c ++ [i]] =
      (List.range (root.kidsAt c).length).map (fun j => c ++ [j]) := by
  have hat := hp
  rw [at_append] at hat
  cases hc : root.at c with
  | none => rw [hc] at hat; cases hat
  | some sub =>
    rw [hc, Option.bind_some] at hat
    obtain ⟨m, hm, _⟩ := at_cons hat
    obtain ⟨hfs, hos⟩ := at_wf hf ho hc
    have hlt := getElem?_lt hm
    obtain ⟨e1, e2, e3, e4⟩ := C96_siblings sub.kids hfs (toks_kids hos) i hlt
    have htr : ∀ j, j < sub.kids.length → truth root (c ++ [j]) = true := by
      intro j hj
      have : sub.kids[j]? = some sub.kids[j] := List.getElem?_eq_getElem hj
      exact truth_at hf ho (at_snoc hc this) (by simp)
    simp only [qLeft, qRight, qLeftSiblings, qRightSiblings, sibs, List.flatMap_cons, List.flatMap_nil, List.append_nil,
      List.dropLast_concat, List.getLast?_concat, Option.getD_some, kidsAt_eq hc]
    refine ⟨?_, ?_, ?_, ?_⟩
    · rw [e1]
      by_cases h : i = 0
      · simp [h]
      · simp [h, htr (i - 1) (by omega)]
    · rw [e2]
      by_cases h : i + 1 < sub.kids.length
      · simp [h, htr (i + 1) h]
      · simp [h]
    · rw [← e3, List.map_reverse, List.reverse_reverse]
    · rw [← e4]
      simp

/-- **C98.** The other selections, and that every node is treated on its own. -/
theorem C98_select (root : Node α L A) (q : List (List Nat)) (f : List Nat → Bool) :
    qFilter f q = q.filter f ∧ qTokens root q = q.filter (fun p => !isCtxAt root p) ∧
    qContexts root q = q.filter (isCtxAt root) := by
  have h : ∀ (g : List Nat → Bool) (q : List (List Nat)), q.flatMap (fun p => if g p then [p] else []) = q.filter g := by
    intro g q
    induction q with
    | nil => rfl
    | cons p q ih =>
      rw [List.flatMap_cons, ih, List.filter_cons]
      split <;> rfl
  exact ⟨h f q, h _ q, h _ q⟩

/-- **C98.** Every node of the list is treated on its own. -/
theorem C98_append (root : Node α L A) (q r : List (List Nat)) :
    qForward root (q ++ r) = qForward root q ++ qForward root r ∧ qNext root (q ++ r) = qNext root q ++ qNext root r ∧
    qBackward root (q ++ r) = qBackward root q ++ qBackward root r ∧
    qPrevious root (q ++ r) = qPrevious root q ++ qPrevious root r ∧
    qLeft root (q ++ r) = qLeft root q ++ qLeft root r ∧ qRight root (q ++ r) = qRight root q ++ qRight root r ∧
    qLeftSiblings root (q ++ r) = qLeftSiblings root q ++ qLeftSiblings root r ∧
    qRightSiblings root (q ++ r) = qRightSiblings root q ++ qRightSiblings root r := by
  refine ⟨?_, ?_, ?_, ?_, ?_, ?_, ?_, ?_⟩ <;> exact List.flatMap_append

private def tk (p : Nat) (s : String) : Node Char Nat Nat := .tok ⟨p, s.toList, 0, none⟩
private def tree : Node Char Nat Nat := .ctx 0 [tk 0 "a", .ctx 1 [tk 1 "b", .ctx 2 [tk 2 "c"], tk 3 "d"], tk 4 "e"]

example : FullL tree.kids ∧ Ordered tree.toks ∧ tree.at [1, 1] = some (.ctx 2 [tk 2 "c"]) ∧
    qNext tree [[1, 1], [0]] = [[1, 2], [1, 0]] ∧ qPrevious tree [[1, 1]] = [[1, 0]] ∧ qLeft tree [[1, 1], [0]] = [[1, 0]] ∧
    qRightSiblings tree [[0]] = [[1], [2]] ∧ qFirst tree [[1], [0]] = [[1, 0]] ∧ qLast tree [[1], []] = [[1, 2], [2]] ∧
    qParent tree [[1, 1, 0], [], [0]] = [[1, 1], []] := by
  refine ⟨by simp [FullL, tree, Node.kids, Node.Full, tk], by simp [Ordered, toksL, tree, Node.toks, tk, TokN.stop], ?_⟩
  decide +kernel

end Parce.Nd

import Verif.Lemmas.NodesDelete
/-!
# C95: Node.delete
-/
namespace Parce.Nd
open Parce
variable {α L A : Type}

theorem delete_eq {l : L} {cs : List (Node α L A)} {path : List Nat} {n : Node α L A}
    (hn : (Node.ctx l cs).at path = some n) (hp : path ≠ []) :
    delete (Node.ctx l cs) path = inner (Node.ctx l cs) path := by
  have h := loop_inner (Node.ctx l cs) path [] (Node.ctx l cs) rfl ⟨n, hn⟩
  rw [List.nil_append] at h
  rw [delete, h]
  cases inner (Node.ctx l cs) path with
  | mk x r =>
    cases r with
    | none => rfl
    | some a => rfl

theorem full_of_at {l : L} {cs : List (Node α L A)} (hf : FullL cs) {path : List Nat} {n : Node α L A}
    (hn : (Node.ctx l cs).at path = some n) (hp : path ≠ []) : (Node.ctx l cs).Full := by
  refine ⟨?_, hf⟩
  rintro rfl
  cases path with
  | nil => exact hp rfl
  | cons i p => simp [Node.at, Node.kids] at hn

theorem pr_root {l : L} {cs : List (Node α L A)} {path : List Nat} (hp : path ≠ []) :
    (pr (Node.ctx l cs) [] path).getD (withKids (.ctx l cs) []) = .ctx l (without (.ctx l cs) path) := by
  have h0 : ¬ [] = path := fun h => hp h.symm
  simp only [pr, Node.prune, List.nil_append, h0, decide_false, Bool.false_eq_true, if_false, without, Node.kids]
  cases pruneL (fun q => decide (q = path)) [] 0 cs <;> rfl

/-- **C95** (partial: every context that gets empty must be at an index `n / 2`, `n / 4`, … among
    the `n` children of its parent; see `C95_left_empty` and `C95_violated`). In a tree without
    empty contexts `delete` removes the node and the contexts that have nothing left, and no
    other node; it returns the innermost ancestor that remains, and None if none does. -/
theorem C95_delete_partial (l : L) (cs : List (Node α L A)) (hf : FullL cs) (ho : Ordered (toksL cs)) (path : List Nat)
    (hp : path ≠ []) (n : Node α L A) (hn : (Node.ctx l cs).at path = some n)
    (hlook : ∀ q i, q ++ [i] <+: path → q ++ [i] ≠ path → Emptied (.ctx l cs) path (q ++ [i]) →
      Looked ((Node.ctx l cs).kidsAt q).length i) :
    (delete (.ctx l cs) path).1 = .ctx l (without (.ctx l cs) path) ∧
    ∀ a, (delete (.ctx l cs) path).2 = some a ↔
      (a <+: path ∧ a ≠ path ∧ ¬ Emptied (.ctx l cs) path a ∧
        ∀ b, b <+: path → b ≠ path → ¬ Emptied (.ctx l cs) path b → b <+: a) := by
  have hc : CondR (.ctx l cs) [] path := (condR_iff path [] _ ⟨n, hn⟩).2 (by simpa [Emptied] using hlook)
  rw [delete_eq hn hp, inner_good path [] _ (full_of_at hf hn hp) ho hp ⟨n, hn⟩ hc, pr_root hp]
  refine ⟨rfl, fun a => ?_⟩
  have hret : ret (.ctx l cs) [] path =
      (ancestorsOf path).find? (fun a => ((Node.ctx l cs).at a).bind (fun n => n.prune (fun q => decide (q = path)) a) |>.isSome) := by
    simp [ret]
  rw [hret]
  have hem : ∀ b, ¬ Emptied (Node.ctx l cs) path b ↔
      (((Node.ctx l cs).at b).bind (fun n => n.prune (fun q => decide (q = path)) b)).isSome = true := by
    intro b
    unfold Emptied
    cases ((Node.ctx l cs).at b).bind (fun n => n.prune (fun q => decide (q = path)) b) <;> simp
  constructor
  · intro h
    have h1 := List.mem_of_find?_eq_some h
    have h2 := List.find?_some h
    obtain ⟨h3, h4⟩ := (mem_ancestors path a).1 h1
    refine ⟨h3, h4, (hem a).2 h2, fun b hb1 hb2 hb3 => ?_⟩
    -- the ancestors are longest first
    obtain ⟨_, pre, post, hs, hpre⟩ := List.find?_eq_some_iff_append.1 h
    have hmem := (mem_ancestors path b).2 ⟨hb1, hb2⟩
    rw [hs] at hmem
    rcases List.mem_append.1 hmem with hm | hm
    · have := hpre b hm
      rw [(hem b).1 hb3] at this
      cases this
    · rcases List.mem_cons.1 hm with rfl | hm
      · exact List.prefix_rfl
      · have hsorted : (ancestorsOf path).Pairwise (fun x y => y.length < x.length) := by
          unfold ancestorsOf
          rw [List.pairwise_map, List.pairwise_reverse]
          refine List.Pairwise.imp_of_mem ?_ List.pairwise_lt_range
          intro x y hx hy hxy
          simp only [List.mem_range] at hx hy
          simp only [List.length_take]
          omega
        rw [hs, List.pairwise_append] at hsorted
        have hlt := (List.pairwise_cons.1 hsorted.2.1).1 b hm
        rcases List.prefix_or_prefix_of_prefix hb1 h3 with h5 | h5
        · exact h5
        · have := h5.length_le; omega
  · rintro ⟨h1, h2, h3, h4⟩
    cases hfd : (ancestorsOf path).find? (fun a => ((Node.ctx l cs).at a).bind (fun n => n.prune (fun q => decide (q = path)) a) |>.isSome) with
    | none =>
      have := List.find?_eq_none.1 hfd a ((mem_ancestors path a).2 ⟨h1, h2⟩)
      exact absurd ((hem a).1 h3) this
    | some b =>
      have hb1 := List.mem_of_find?_eq_some hfd
      have hb2 := List.find?_some hfd
      obtain ⟨hb3, hb4⟩ := (mem_ancestors path b).1 hb1
      have h5 := h4 b hb3 hb4 ((hem b).2 hb2)
      obtain ⟨_, pre, post, hs, hpre⟩ := List.find?_eq_some_iff_append.1 hfd
      have hmem := (mem_ancestors path a).2 ⟨h1, h2⟩
      rw [hs] at hmem
      rcases List.mem_append.1 hmem with hm | hm
      · have := hpre a hm
        rw [(hem a).1 h3] at this
        cases this
      · rcases List.mem_cons.1 hm with rfl | hm
        · rfl
        · have hsorted : (ancestorsOf path).Pairwise (fun x y => y.length < x.length) := by
            unfold ancestorsOf
            rw [List.pairwise_map, List.pairwise_reverse]
            refine List.Pairwise.imp_of_mem ?_ List.pairwise_lt_range
            intro x y hx hy hxy
            simp only [List.mem_range] at hx hy
            simp only [List.length_take]
            omega
          rw [hs, List.pairwise_append] at hsorted
          have hlt := (List.pairwise_cons.1 hsorted.2.1).1 a hm
          have := h5.length_le
          omega

/-- **C95.** The tokens of the tree `delete` should give are those that are not in the node. -/
theorem C95_tokens (l : L) (cs : List (Node α L A)) (path : List Nat) (hp : path ≠ []) :
    toksL (without (.ctx l cs) path) =
      (((Node.ctx l cs).leavesAt []).filter (fun q => !path.isPrefixOf q.1)).map (·.2) ∧
    FullL (without (.ctx l cs) path) := by
  have h : (fun q => decide (q = path)) = fun q => decide (q ∈ [path]) := by
    funext q
    simp
  unfold without
  refine ⟨?_, pruneL_full _ _ _ _⟩
  rw [h]
  simp only [Node.kids]
  rw [pruneL_toks [path] cs [] 0 (by
    intro j s hs hpre
    rw [List.mem_singleton] at hs
    subst hs
    have := hpre.length_le
    refine hpre.eq_of_length ?_
    have := List.length_pos_iff.2 hp
    simp only [List.nil_append, List.length_singleton] at *
    omega)]
  simp [Node.leavesAt]

/-- **C95 is violated by the code** in all other cases: an empty context stays in the tree, so it
    is not the tree without the node (`C95_tokens`). -/
theorem C95_left_empty (l : L) (cs : List (Node α L A)) (hf : FullL cs) (ho : Ordered (toksL cs)) (path : List Nat)
    (hp : path ≠ []) (n : Node α L A) (hn : (Node.ctx l cs).at path = some n)
    (hlook : ¬ ∀ q i, q ++ [i] <+: path → q ++ [i] ≠ path → Emptied (.ctx l cs) path (q ++ [i]) →
      Looked ((Node.ctx l cs).kidsAt q).length i) :
    ¬ FullL (delete (.ctx l cs) path).1.kids := by
  have hc : ¬ CondR (.ctx l cs) [] path := fun h => hlook (by
    have := (condR_iff path [] _ ⟨n, hn⟩).1 h
    simpa [Emptied] using this)
  obtain ⟨x, a, h1, h2⟩ := inner_bad path [] _ (full_of_at hf hn hp) ho ⟨n, hn⟩ hc
  rw [delete_eq hn hp, h1]
  exact h2

/-- **C95.** A node that has a sibling is removed, and nothing else. -/
theorem C95_sibling (l : L) (cs : List (Node α L A)) (hf : FullL cs) (ho : Ordered (toksL cs)) (q : List Nat) (i : Nat)
    (n : Node α L A) (hn : (Node.ctx l cs).at (q ++ [i]) = some n) (hs : 1 < ((Node.ctx l cs).kidsAt q).length) :
    (delete (.ctx l cs) (q ++ [i])).1 = .ctx l (without (.ctx l cs) (q ++ [i])) ∧
    (delete (.ctx l cs) (q ++ [i])).2 = some q := by
  have key : ∀ (p : List Nat) (sub : Node α L A) (base : List Nat) (m : Node α L A), sub.Full →
      sub.at (p ++ [i]) = some m → 1 < (sub.kidsAt p).length → (pr sub base (p ++ [i])).isSome = true := by
    intro p
    induction p with
    | nil =>
      intro sub base m hfull hat hlen
      cases sub with
      | tok t => simp [Node.at, Node.kids] at hat
      | ctx l' ds =>
        obtain ⟨m', hm', _⟩ := at_cons hat
        have hm2 : ds[i]? = some m' := hm'
        have hlen' : 1 < ds.length := hlen
        rw [List.nil_append, pr_cons hm2 hfull.2, pr_nil]
        rw [if_neg]
        · rfl
        · intro h
          have he := congrArg List.length h
          have hlt := getElem?_lt hm2
          simp only [Option.toList_none, List.nil_append, List.length_append, List.length_take, List.length_drop,
            List.length_nil] at he
          omega
    | cons j p ih =>
      intro sub base m hfull hat hlen
      cases sub with
      | tok t => simp [Node.at, Node.kids] at hat
      | ctx l' ds =>
        obtain ⟨m', hm', hat'⟩ := at_cons hat
        have hm2 : ds[j]? = some m' := hm'
        have hk : (Node.ctx l' ds).kidsAt (j :: p) = m'.kidsAt p := by simp [Node.kidsAt, Node.at, Node.kids, hm2]
        rw [hk] at hlen
        have := ih m' (base ++ [j]) m (hfull.2.get hm2) hat' hlen
        rw [List.cons_append, pr_cons hm2 hfull.2]
        cases hp : pr m' (base ++ [j]) (p ++ [i]) with
        | none => rw [hp] at this; cases this
        | some x => simp
  have hfull := full_of_at hf hn (by simp)
  have hrem : ∀ a, a <+: q → ¬ Emptied (.ctx l cs) (q ++ [i]) a := by
    rintro a ⟨b, rfl⟩
    unfold Emptied
    rw [List.append_assoc, at_append] at hn
    cases ha : (Node.ctx l cs).at a with
    | none => rw [ha] at hn; cases hn
    | some s =>
      rw [ha] at hn
      have hsf : s.Full := by
        rcases a with _ | ⟨j, a⟩
        · simp only [Node.at, Option.some.injEq] at ha; exact ha ▸ hfull
        · have hctx : s.isCtx = true := by
            cases b with
            | nil => exact isCtx_of_kid (at_cons hn).choose_spec.1
            | cons k b => exact isCtx_of_kid (at_cons hn).choose_spec.1
          have h1 := (at_wf (root := .ctx l cs) hf ho ha).1
          cases s with
          | tok t => cases hctx
          | ctx l' ds =>
            refine ⟨?_, h1⟩
            rintro rfl
            cases b with
            | nil => simp [Node.at, Node.kids] at hn
            | cons k b => simp [Node.at, Node.kids] at hn
      have hkk : (Node.ctx l cs).kidsAt (a ++ b) = s.kidsAt b := by simp [Node.kidsAt, at_append, ha]
      rw [hkk] at hs
      have := key b s a n hsf hn hs
      simp only [pr] at this
      simp only [Option.bind_some, List.append_assoc]
      intro h
      rw [h] at this
      cases this
  obtain ⟨h1, h2⟩ := C95_delete_partial l cs hf ho (q ++ [i]) (by simp) n hn (by
    intro q' j hpre hne hem
    rcases List.prefix_concat_iff.1 hpre with h | h
    · exact absurd h hne
    · exact absurd hem (hrem _ h))
  refine ⟨h1, (h2 q).2 ⟨List.prefix_append _ _, by simp, hrem q List.prefix_rfl, ?_⟩⟩
  intro b hb1 hb2 _
  rcases List.prefix_concat_iff.1 hb1 with h | h
  · exact absurd h hb2
  · exact h

/-! ### Examples -/

private def tk (p : Nat) (s : String) : Node Char Nat Nat := .tok ⟨p, s.toList, 0, none⟩
private def abc : List (Node Char Nat Nat) := [tk 0 "a", tk 1 "b", .ctx 1 [tk 2 "c"]]
private def abd : List (Node Char Nat Nat) := [tk 0 "a", .ctx 1 [.ctx 2 [tk 1 "b"]], tk 2 "c"]

/-- The hypotheses can be met: the contexts of `b` are at index 1 of 3 and at index 0 of 1. -/
example : FullL abd ∧ Ordered (toksL abd) ∧ (Node.ctx 0 abd).at [1, 0, 0] = some (tk 1 "b") ∧
    Looked 3 1 ∧ Looked 1 0 ∧ delete (.ctx 0 abd) [1, 0, 0] = (.ctx 0 [tk 0 "a", tk 2 "c"], some []) ∧
    without (.ctx 0 abd) [1, 0, 0] = [tk 0 "a", tk 2 "c"] := by
  refine ⟨by simp [FullL, abd, Node.Full, tk], by simp [Ordered, toksL, abd, Node.toks, tk, TokN.stop], by decide,
    ⟨0, by decide⟩, ⟨0, by decide⟩, by decide +kernel, by decide +kernel⟩

/-- **C95 is violated by the code**: deleting the only token of the third child of the root
    removes the first child instead of the context. -/
theorem C95_violated : FullL abc ∧ Ordered (toksL abc) ∧ (Node.ctx 0 abc).at [2, 0] = some (tk 2 "c") ∧
    delete (.ctx 0 abc) [2, 0] = (.ctx 0 [tk 1 "b", .ctx 1 []], some []) ∧
    without (.ctx 0 abc) [2, 0] = [tk 0 "a", tk 1 "b"] := by
  refine ⟨by simp [FullL, abc, Node.Full, tk], by simp [Ordered, toksL, abc, Node.toks, tk, TokN.stop], by decide,
    by decide +kernel, by decide +kernel⟩

end Parce.Nd

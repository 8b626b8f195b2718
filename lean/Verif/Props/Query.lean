import Verif.Lemmas.QueryLoop
/-!
# C50 – C52, C62: queries
-/
namespace Parce
variable {α L A : Type}

/-- A small tree for the examples. -/
def exTok (i : Nat) : Node Nat Nat Nat := .tok ⟨i, [i], i, none⟩
def exTree : Node Nat Nat Nat := .ctx 0 [exTok 0, .ctx 1 [exTok 1, .ctx 2 [exTok 2]], exTok 3, .ctx 1 [exTok 4]]

/-! ## C50: all -/

/-- **C50.** `all` yields every start node followed by its descendants in document order. -/
theorem C50_all (root : Node α L A) (q : List (List Nat × Node α L A)) (hq : ∀ x ∈ q, root.at x.1 = some x.2) :
    qAll root (q.map (·.1)) = q.flatMap (fun x => (x.2.preorder x.1).map (·.1)) := by
  induction q with
  | nil => rfl
  | cons x q ih =>
    have hx := hq x (by simp)
    have ih' := ih (fun y hy => hq y (by simp [hy]))
    have hstep : qAll root ((x :: q).map (·.1)) = qAll root [x.1] ++ qAll root (q.map (·.1)) := by simp [qAll]
    rw [hstep, ih', List.flatMap_cons]
    congr 1
    obtain ⟨p, n⟩ := x
    simp only at hx
    cases n with
    | tok t => simp [qAll, isCtxAt, hx, Node.isCtx, Node.preorder]
    | ctx l cs =>
      simp only [qAll, isCtxAt, hx, isCtx_ctx, List.flatMap_cons, List.flatMap_nil, List.append_nil, Option.map_some,
        Option.getD_some, if_true, Node.preorder, List.map_cons]
      rw [allLoop_spec false root _ p [] 0 (by simp [allWork, kidsAt_eq hx, Node.kids])]
      simp [kidsAt_eq hx, Node.kids, allRest, yielded, show ∀ l : List (List Nat × Node α L A), l.filter (fun _ => true) = l from fun l => List.filter_eq_self.2 (fun _ _ => rfl)]

/-- **C50.** `allcontexts` yields the contexts of these. -/
theorem C50_allcontexts (root : Node α L A) (q : List (List Nat × Node α L A)) (hq : ∀ x ∈ q, root.at x.1 = some x.2) :
    qAllContexts root (q.map (·.1)) = q.flatMap (fun x => ((x.2.preorder x.1).filter (fun y => y.2.isCtx)).map (·.1)) := by
  induction q with
  | nil => rfl
  | cons x q ih =>
    have hx := hq x (by simp)
    have ih' := ih (fun y hy => hq y (by simp [hy]))
    have hstep : qAllContexts root ((x :: q).map (·.1)) = qAllContexts root [x.1] ++ qAllContexts root (q.map (·.1)) := by
      simp [qAllContexts]
    rw [hstep, ih', List.flatMap_cons]
    congr 1
    obtain ⟨p, n⟩ := x
    simp only at hx
    cases n with
    | tok t => simp [qAllContexts, isCtxAt, hx, isCtx_tok, Node.preorder]
    | ctx l cs =>
      simp only [qAllContexts, isCtxAt, hx, isCtx_ctx, List.flatMap_cons, List.flatMap_nil, List.append_nil, Option.map_some,
        Option.getD_some, if_true, Node.preorder, List.map_cons, List.filter_cons]
      rw [allLoop_spec true root _ p [] 0 (by simp [allWork, kidsAt_eq hx, Node.kids])]
      simp [kidsAt_eq hx, Node.kids, allRest, yielded]

/-- **C50.** `alltokens` yields the tokens of these. -/
theorem C50_alltokens (root : Node α L A) (q : List (List Nat × Node α L A)) (hq : ∀ x ∈ q, root.at x.1 = some x.2) :
    qAllTokens root (q.map (·.1)) = q.flatMap (fun x => ((x.2.preorder x.1).filter (fun y => !y.2.isCtx)).map (·.1)) := by
  induction q with
  | nil => rfl
  | cons x q ih =>
    have hx := hq x (by simp)
    have ih' := ih (fun y hy => hq y (by simp [hy]))
    have hstep : qAllTokens root ((x :: q).map (·.1)) = qAllTokens root [x.1] ++ qAllTokens root (q.map (·.1)) := by
      simp [qAllTokens]
    rw [hstep, ih', List.flatMap_cons]
    congr 1
    obtain ⟨p, n⟩ := x
    simp only at hx
    cases n with
    | tok t => simp [qAllTokens, isCtxAt, hx, isCtx_tok, Node.preorder]
    | ctx l cs =>
      simp only [qAllTokens, isCtxAt, hx, isCtx_ctx, List.flatMap_cons, List.flatMap_nil, List.append_nil, Option.map_some,
        Option.getD_some, if_true, Node.preorder, List.filter_cons, Bool.not_true, Bool.false_eq_true, if_false]
      rw [preorderL_tokens, tokens_eq, kidsAt_eq hx]
      simp [Node.kids]

/-- **C50.** This is every node below (or at) the start node exactly once. -/
theorem C50_once (n : Node α L A) (p : List Nat) :
    ((n.preorder p).map (·.1)).Nodup ∧ ∀ q m, (q, m) ∈ n.preorder p ↔ ∃ s, q = p ++ s ∧ n.at s = some m := by
  refine ⟨preorder_nodup n p, fun q m => ⟨preorder_rel n p q m, ?_⟩⟩
  rintro ⟨s, rfl, h⟩
  exact mem_preorder n p s m h

example : qAll exTree [[]] = [[], [0], [1], [1, 0], [1, 1], [1, 1, 0], [2], [3], [3, 0]] ∧
    qAllContexts exTree [[1]] = [[1], [1, 1]] ∧ qAllTokens exTree [[1], [0]] = [[1, 0], [1, 1, 0], [0]] := by decide

/-! ## C51: selectors -/

section
variable [DecidableEq α] [DecidableEq L] [DecidableEq A]

/-- **C51.** A selector yields, in order, the nodes for which it holds. -/
theorem C51_select (s : Sel α L A) (nodes : List (Node α L A)) :
    ((⟨nodes, false⟩ : Qry α L A).sel s).nodes.Sublist nodes ∧
    ∀ n, n ∈ ((⟨nodes, false⟩ : Qry α L A).sel s).nodes ↔ n ∈ nodes ∧ s.Holds n := by
  refine ⟨List.filter_sublist, fun n => ?_⟩
  simp only [Qry.sel, List.mem_filter, yields_iff]

/-- **C51** (partial). Inverted, every other selector than `in_range` yields, in order, exactly the
    other nodes of the kind that it is for; together they yield all nodes of the kind. Double
    inversion changes nothing, and the result is not inverted. For `in_range` this does not hold,
    see `C51_violated`. -/
theorem C51_complement_partial (s : Sel α L A) (hs : ∀ a b, s ≠ .inRange a b) (nodes : List (Node α L A)) :
    (((⟨nodes, false⟩ : Qry α L A).isNot).sel s).nodes.Sublist nodes ∧
    (∀ n, n ∈ (((⟨nodes, false⟩ : Qry α L A).isNot).sel s).nodes ↔ n ∈ nodes ∧ s.kind n = true ∧ ¬ s.Holds n) ∧
    ((⟨nodes, false⟩ : Qry α L A).sel s).nodes.length + (((⟨nodes, false⟩ : Qry α L A).isNot).sel s).nodes.length =
      (nodes.filter s.kind).length ∧
    (⟨nodes, false⟩ : Qry α L A).isNot.isNot = ⟨nodes, false⟩ ∧
    (((⟨nodes, false⟩ : Qry α L A).isNot).sel s).inv = false := by
  refine ⟨List.filter_sublist, fun n => ?_, ?_, rfl, rfl⟩
  · simp only [Qry.sel, Qry.isNot, Bool.not_false, List.mem_filter, yields_inv s hs, Bool.and_eq_true, Bool.not_eq_true']
    rw [← yields_iff, Bool.not_eq_true]
  · simp only [Qry.sel, Qry.isNot, Bool.not_false]
    have hk : ∀ n, s.yields false n = true → s.kind n = true := by
      intro n h
      cases s <;> cases n <;> first | rfl | (simp [Sel.yields] at h)
    induction nodes with
    | nil => rfl
    | cons n nodes ih =>
      simp only [List.filter_cons, yields_inv s hs n]
      cases hy : s.yields false n with
      | true =>
        rw [hk n hy]
        simp only [Bool.not_true, Bool.and_false, Bool.false_eq_true, if_false, if_true, List.length_cons]
        omega
      | false =>
        cases s.kind n with
        | true => simp only [Bool.not_false, Bool.and_true, Bool.false_eq_true, if_false, if_true, List.length_cons]; omega
        | false => simp only [Bool.not_false, Bool.and_true, Bool.false_eq_true, if_false]; exact ih

/-- **C51** (partial). The inverted `in_range` yields the nodes that are completely outside the range;
    no node that is not empty is yielded by both. -/
theorem C51_in_range_partial (a b : Nat) (nodes : List (Node α L A)) :
    (∀ n, n ∈ (((⟨nodes, false⟩ : Qry α L A).isNot).sel (.inRange a b)).nodes ↔ n ∈ nodes ∧ (n.stop ≤ a ∨ b ≤ n.pos)) ∧
    ∀ n, n.pos < n.stop → n ∈ ((⟨nodes, false⟩ : Qry α L A).sel (.inRange a b)).nodes →
      n ∉ (((⟨nodes, false⟩ : Qry α L A).isNot).sel (.inRange a b)).nodes := by
  have h : ∀ n, n ∈ (((⟨nodes, false⟩ : Qry α L A).isNot).sel (.inRange a b)).nodes ↔ n ∈ nodes ∧ (n.stop ≤ a ∨ b ≤ n.pos) := by
    intro n
    simp only [Qry.sel, Qry.isNot, Bool.not_false, List.mem_filter, Sel.yields, if_true, decide_eq_true_eq, ge_iff_le]
  refine ⟨h, fun n hn h1 h2 => ?_⟩
  rw [h] at h2
  have h1' := ((C51_select (.inRange a b) nodes).2 n).1 h1
  simp only [Sel.Holds] at h1'
  omega

end

/-- **C51 does not hold** for `in_range`: a token that is partly in the range is yielded neither by
    `in_range` nor by `is_not.in_range`. -/
theorem C51_violated :
    ((⟨[Node.tok ⟨1, [7, 7], 0, none⟩], false⟩ : Qry Nat Nat Nat).sel (.inRange 2 4)).nodes.length = 0 ∧
    ((⟨[Node.tok ⟨1, [7, 7], 0, none⟩], false⟩ : Qry Nat Nat Nat).isNot.sel (.inRange 2 4)).nodes.length = 0 := by decide

example : ((⟨[exTok 1, exTok 2, exTree], false⟩ : Qry Nat Nat Nat).sel (.startingwith [1])).nodes.length = 1 ∧
    ((⟨[exTok 1, exTok 2, exTree], false⟩ : Qry Nat Nat Nat).isNot.sel (.startingwith [1])).nodes.length = 1 ∧
    (∀ a b, (.startingwith [1] : Sel Nat Nat Nat) ≠ .inRange a b) := by
  refine ⟨by decide, by decide, ?_⟩
  intro a b h; cases h

/-! ## C52: delete -/

/-- **C52.** Deleting nodes (`q` are their paths) from a tree with tokens in order and without empty
    contexts: the selected nodes are removed, and contexts that become empty (but not the root);
    the result is the number of removed nodes, not counting nodes in removed contexts. -/
theorem C52_delete (l : L) (cs : List (Node α L A)) (hfull : FullL cs) (hord : Ordered (toksL cs)) (q : List (List Nat))
    (hq : ∀ p ∈ q, (Node.ctx l cs).at p ≠ none) :
    qDelete (.ctx l cs) q = some (if [] ∈ q then (cs.length, .ctx l [])
      else (removedL (fun p => decide (p ∈ q)) [] 0 cs, .ctx l (pruneL (fun p => decide (p ∈ q)) [] 0 cs))) := by
  obtain ⟨hu1, hu2⟩ := uniqLoop_spec q []
  have hmem : ∀ p, p ∈ qRemoveDescendants (qUniq q) ↔ p ∈ q ∧ ∀ a ∈ q, a <+: p → a = p := by
    intro p
    rw [mem_removeDesc]
    have : ∀ x, x ∈ qUniq q ↔ x ∈ q := fun x => by unfold qUniq; rw [hu2]; simp
    simp only [this]
  have hroot : [] ∈ qRemoveDescendants (qUniq q) ↔ [] ∈ q := by
    rw [hmem]
    exact ⟨fun h => h.1, fun h => ⟨h, fun a _ ha => List.prefix_nil.1 ha⟩⟩
  unfold qDelete
  simp only
  by_cases h0 : [] ∈ q
  · rw [if_pos (hroot.2 h0), if_pos h0]
    rfl
  · rw [if_neg (fun h => h0 (hroot.1 h)), if_neg h0]
    generalize hns : qRemoveDescendants (qUniq q) = ns at *
    have hnsd : ns.Nodup := by
      rw [← hns]
      exact hu1.sublist List.filter_sublist
    have hne : ∀ n ∈ ns, n ≠ [] := fun n hn he => h0 (by rw [he] at hn; exact ((hmem []).1 hn).1)
    obtain ⟨e1, e2, e3, e4⟩ := foldl_dAdd ns [] hne hnsd (fun n _ => by simp [Td, dGet_nil]) (by simp) (by simp) (by simp [dGet_nil])
    have hTd : ∀ p, Td (ns.foldl dAdd []) p = decide (p ∈ ns) := fun p => by
      rw [e4]
      simp [Td, dGet_nil]
    have hD : DInv (.ctx l cs) (ns.foldl dAdd []) := by
      refine ⟨e1, e2, e3, ?_, ?_⟩
      · intro p i hi
        have : p ++ [i] ∈ ns := by
          have := hTd (p ++ [i])
          rw [Td_concat] at this
          simpa [hi] using this.symm
        have hat := hq _ ((hmem _).1 this).1
        obtain ⟨n, hn⟩ := Option.ne_none_iff_exists'.1 hat
        obtain ⟨m, hm1, hm2⟩ := at_prefix hn
        rw [kidsAt_eq hm1]
        exact at_index hm2
      · intro p i hi a ha
        have hp : p ++ [i] ∈ ns := by
          have := hTd (p ++ [i])
          rw [Td_concat] at this
          simpa [hi] using this.symm
        rw [hTd, decide_eq_false_iff_not]
        intro han
        have := ((hmem _).1 hp).2 a ((hmem a).1 han).1 (ha.trans (List.prefix_append _ _))
        have h1 := ha.length_le
        rw [this, List.length_append, List.length_singleton] at h1
        omega
    obtain ⟨c1, c2, c3⟩ := collapse_spec l cs (dWork (ns.foldl dAdd []) + 1) _ hD (by omega)
    generalize hd' : collapse (.ctx l cs) (dWork (ns.foldl dAdd []) + 1) (ns.foldl dAdd []) = d at *
    have hrem := c1.remains c3 hfull
    have hsort : ∀ e ∈ d, (sortPos ((Node.ctx l cs).kidsAt e.1) e.2).Perm e.2 ∧
        (sortPos ((Node.ctx l cs).kidsAt e.1) e.2).Pairwise (· < ·) := by
      intro e he
      have hg := mem_dGet c1.keys he
      obtain ⟨i0, hi0⟩ := List.exists_mem_of_ne_nil _ (c1.ne e he)
      obtain ⟨l', cs', hat, _⟩ := at_of_kids (c1.bound e.1 i0 (by rw [hg]; exact hi0))
      obtain ⟨w1, w2⟩ := at_wf (root := .ctx l cs) hfull hord hat
      rw [kidsAt_eq hat]
      refine sortPos_spec w1 (toks_kids w2) e.2 (by rw [← hg]; exact c1.nodup e.1) (fun i hi => ?_)
      have := c1.bound e.1 i (by rw [hg]; exact hi)
      rwa [kidsAt_eq hat] at this
    obtain ⟨dels, g1, g2⟩ := delLoop_spec (root := .ctx l cs) hfull hord c1 hrem
      (d.map (fun e => (e.1, sortPos ((Node.ctx l cs).kidsAt e.1) e.2))) [] ⟨by
        rw [List.map_map]
        exact c1.keys, by
        intro e he
        obtain ⟨x, hx, rfl⟩ := List.mem_map.1 he
        obtain ⟨s1, s2⟩ := hsort x hx
        refine ⟨fun h => c1.ne x hx ?_, s2, fun j => ?_⟩
        · simp only at h
          rw [h] at s1
          exact s1.symm.eq_nil
        · simp only
          rw [s1.mem_iff, mem_dGet c1.keys hx], fun _ _ => rfl, fun _ => trivial, by
        intro p j h
        simp [cutsAt, inSlices] at h, by
        intro p hp j hj
        exfalso
        apply hp
        rw [List.map_map]
        exact List.mem_map.2 ⟨_, dGet_mem hj, rfl⟩⟩
    rw [g1]
    simp only [Option.map_some, Option.some.injEq, Prod.mk.injEq]
    have hTs : ∀ p, Tdels dels p = Td d p := by
      intro p
      by_cases hp : p = []
      · subst hp; rfl
      · rw [concat_split hp, Tdels_concat, Td_concat, Bool.eq_iff_iff, decide_eq_true_iff]
        exact ⟨g2.sub _ _, g2.done _ (by simp) _⟩
    have htop := pruneL_top l cs (T := Td (ns.foldl dAdd [])) (U := fun p => decide (p ∈ q))
      (fun p hp => by rw [hTd] at hp; simpa using ((hmem p).1 (by simpa using hp)).1)
      (fun p hp => by
        obtain ⟨a, ha1, ha2⟩ := top_exists q p.length p (Nat.le_refl _) (by simpa using hp)
        refine ⟨a, ha1, ?_⟩
        rw [hTd]
        have := (mem_removeDesc q a).1 ha2
        simpa using (hmem a).2 this)
      (Td_nil _)
    refine ⟨?_, ?_⟩
    · rw [List.map_map]
      rw [← htop.2, c2.2, ← c1.count hrem]
      refine congrArg List.sum (List.map_congr_left ?_)
      intro e he
      exact (hsort e he).1.length_eq
    · rw [delAt_plain (.ctx l cs) dels (fun p l' cs' hp => by have := g2.desc p; rwa [kidsAt_eq hp] at this) _ [] rfl]
      rw [show Tdels dels = Td d from funext hTs, Node.plain]
      rw [← pruneL_plain hrem cs [] 0 (fun j n hn => by simp [Node.at, Node.kids, hn])]
      rw [← htop.1, c2.1]

/-- **C52.** The tokens that remain are, in order, those that are not selected and not in a selected
    context, and no empty context remains. -/
theorem C52_tokens (l : L) (cs : List (Node α L A)) (hfull : FullL cs) (hord : Ordered (toksL cs)) (q : List (List Nat))
    (hq : ∀ p ∈ q, (Node.ctx l cs).at p ≠ none) :
    ∃ count cs', qDelete (.ctx l cs) q = some (count, .ctx l cs') ∧ FullL cs' ∧
      toksL cs' = ((leavesL [] 0 cs).filter (fun x => !q.any (fun s => s.isPrefixOf x.1))).map (·.2) := by
  rw [C52_delete l cs hfull hord q hq]
  by_cases h0 : [] ∈ q
  · rw [if_pos h0]
    refine ⟨_, _, rfl, trivial, ?_⟩
    have : (leavesL [] 0 cs).filter (fun x => !q.any (fun s => s.isPrefixOf x.1)) = [] := by
      rw [List.filter_eq_nil_iff]
      intro x _
      have : q.any (fun s => s.isPrefixOf x.1) = true := List.any_eq_true.2 ⟨[], h0, by simp⟩
      rw [this]; simp
    rw [this]
    rfl
  · rw [if_neg h0]
    refine ⟨_, _, rfl, pruneL_full _ cs [] 0, ?_⟩
    refine pruneL_toks q cs [] 0 ?_
    intro j s hs hp
    rcases List.prefix_concat_iff.1 hp with h | h
    · exact h
    · rw [List.prefix_nil.1 h] at hs
      exact absurd hs h0

example : FullL exTree.kids ∧ Ordered (toksL exTree.kids) ∧ (∀ p ∈ [[1, 0], [1, 1, 0], [3]], exTree.at p ≠ none) := by
  refine ⟨?_, ?_, by decide⟩
  · simp [exTree, Node.kids, FullL, Node.Full, exTok]
  · refine ⟨?_, ?_⟩
    · simp [exTree, Node.kids, toksL, Node.toks, exTok]
    · simp [exTree, Node.kids, toksL, Node.toks, exTok, TokN.stop]

/-- The context that becomes empty disappears. -/
example : (qDelete exTree [[1, 0], [1, 1, 0], [3]]).map (fun r => (r.1, r.2.toks.map (·.pos))) = some (2, [0, 3]) := by decide

/-! ## C62: sets of nodes -/

/-- **C62.** `uniq` keeps every node once. -/
theorem C62_uniq (q : List (List Nat)) : (qUniq q).Nodup ∧ (∀ p, p ∈ qUniq q ↔ p ∈ q) ∧ (qUniq q).Sublist q := by
  obtain ⟨h1, h2⟩ := uniqLoop_spec q []
  refine ⟨h1, fun p => by unfold qUniq; rw [h2]; simp, ?_⟩
  have : ∀ (q seen : List (List Nat)), (uniqLoop seen q).Sublist q := by
    intro q
    induction q with
    | nil => intro _; exact List.Sublist.refl _
    | cons x q ih =>
      intro seen
      rw [uniqLoop]
      split
      · exact (ih seen).trans (List.sublist_cons_self _ _)
      · exact (ih _).cons_cons x
  exact this q []

/-- **C62.** `remove_descendants` keeps, in order, the nodes that are not below another node. -/
theorem C62_remove_descendants (q : List (List Nat)) :
    (qRemoveDescendants q).Sublist q ∧ ∀ p, p ∈ qRemoveDescendants q ↔ p ∈ q ∧ ∀ a ∈ q, a <+: p → a = p :=
  ⟨List.filter_sublist, mem_removeDesc q⟩

/-- **C62.** `remove_ancestors` keeps, in order, the nodes that are not above another node. -/
theorem C62_remove_ancestors (q : List (List Nat)) :
    (qRemoveAncestors q).Sublist q ∧ ∀ p, p ∈ qRemoveAncestors q ↔ p ∈ q ∧ ∀ a ∈ q, p <+: a → a = p := by
  refine ⟨List.filter_sublist, fun p => ?_⟩
  unfold qRemoveAncestors
  simp only [List.mem_filter, Bool.not_eq_true', decide_eq_false_iff_not, decide_eq_true_eq, qAncestors, List.mem_flatMap, mem_ancestors]
  constructor
  · rintro ⟨h1, h2⟩
    refine ⟨h1, fun a ha hp => ?_⟩
    by_cases he : a = p
    · exact he
    · exact absurd ⟨h1, a, ha, hp, fun h => he h.symm⟩ h2
  · rintro ⟨h1, h2⟩
    refine ⟨h1, ?_⟩
    rintro ⟨_, a, ha, hp, hne⟩
    exact hne (h2 a ha hp).symm

example : qUniq [[1], [0], [1]] = [[1], [0]] ∧ qRemoveDescendants [[1, 0], [1], [0]] = [[1], [0]] ∧
    qRemoveAncestors [[1, 0], [1], [0]] = [[1, 0], [0]] := by decide

/-- **C62.** `range` is the lowest position and the highest end. -/
theorem C62_range (nodes : List (Node α L A)) :
    (nodes = [] ∧ qRange nodes = none) ∨ ∃ a b, qRange nodes = some (a, b) ∧
      (∃ n ∈ nodes, n.pos = a) ∧ (∃ n ∈ nodes, n.stop = b) ∧ ∀ n ∈ nodes, a ≤ n.pos ∧ n.stop ≤ b := by
  cases nodes with
  | nil => exact Or.inl ⟨rfl, rfl⟩
  | cons n ns =>
    right
    unfold qRange
    have key : ∀ (ns : List (Node α L A)) (r : Nat × Nat), ∃ a b,
        ns.foldl (fun r m => (min r.1 m.pos, max r.2 m.stop)) r = (a, b) ∧ a ≤ r.1 ∧ r.2 ≤ b ∧ (∀ n ∈ ns, a ≤ n.pos ∧ n.stop ≤ b) ∧
        (a = r.1 ∨ ∃ n ∈ ns, n.pos = a) ∧ (b = r.2 ∨ ∃ n ∈ ns, n.stop = b) := by
      intro ns
      induction ns with
      | nil => intro r; exact ⟨r.1, r.2, rfl, by simp, by simp, by simp, Or.inl rfl, Or.inl rfl⟩
      | cons m ns ih =>
        intro r
        obtain ⟨a, b, h1, h2, h3, h4, h5, h6⟩ := ih (min r.1 m.pos, max r.2 m.stop)
        simp only at h2 h3 h5 h6
        refine ⟨a, b, h1, by clear h4 h5 h6 ih; omega, by clear h4 h5 h6 ih; omega, ?_, ?_, ?_⟩
        · intro x hx
          rcases List.mem_cons.1 hx with rfl | hx
          · clear h4 h5 h6 ih
            omega
          · exact h4 x hx
        · clear h6 h4 ih
          rcases h5 with h | ⟨x, hx, h⟩
          · by_cases hc : r.1 ≤ m.pos
            · exact Or.inl (by omega)
            · exact Or.inr ⟨m, by simp, by omega⟩
          · exact Or.inr ⟨x, by simp [hx], h⟩
        · clear h5 h4 ih
          rcases h6 with h | ⟨x, hx, h⟩
          · by_cases hc : m.stop ≤ r.2
            · exact Or.inl (by omega)
            · exact Or.inr ⟨m, by simp, by omega⟩
          · exact Or.inr ⟨x, by simp [hx], h⟩
    obtain ⟨a, b, h1, h2, h3, h4, h5, h6⟩ := key ns (n.pos, n.stop)
    refine ⟨a, b, by simp only [h1], ?_, ?_, ?_⟩
    · rcases h5 with h | ⟨x, hx, h⟩
      · exact ⟨n, by simp, h.symm⟩
      · exact ⟨x, by simp [hx], h⟩
    · rcases h6 with h | ⟨x, hx, h⟩
      · exact ⟨n, by simp, h.symm⟩
      · exact ⟨x, by simp [hx], h⟩
    · intro x hx
      rcases List.mem_cons.1 hx with rfl | hx
      · exact ⟨h2, h3⟩
      · exact h4 x hx

example : qRange [exTok 3, exTok 1] = some (1, 4) := by decide

/-- **C62.** Indexing and the children: an item is yielded for every node that has one, a negative
    index counts from the end. -/
theorem C62_children (root : Node α L A) (p : List Nat) (n : Node α L A) (h : root.at p = some n) :
    (∀ c, c ∈ qChildren root [p] ↔ ∃ i, c = p ++ [i] ∧ i < n.kids.length) ∧
    (∀ key : Int, qItem root key [p] =
      match (if key < 0 then (if -key ≤ n.kids.length then some (n.kids.length - (-key).toNat) else none)
        else if key < n.kids.length then some key.toNat else none) with
      | some i => [p ++ [i]]
      | none => []) := by
  have hk := kidsAt_eq h
  refine ⟨fun c => ?_, fun key => ?_⟩
  · simp only [qChildren, List.flatMap_cons, List.flatMap_nil, List.append_nil, List.mem_map, List.mem_range, hk]
    constructor
    · rintro ⟨i, hi, rfl⟩; exact ⟨i, rfl, hi⟩
    · rintro ⟨i, rfl, hi⟩; exact ⟨i, hi, rfl⟩
  · simp only [qItem, List.flatMap_cons, List.flatMap_nil, List.append_nil, hk]
    by_cases h1 : key < 0
    · simp only [h1, if_true]
      by_cases h2 : -key ≤ (n.kids.length : Int)
      · rw [if_pos h2, if_pos (by omega)]
        simp only [List.cons.injEq, List.append_cancel_left_eq, and_true]
        omega
      · rw [if_neg h2, if_neg (by omega)]
    · simp only [h1, if_false]
      by_cases h2 : key < (n.kids.length : Int)
      · rw [if_pos h2, if_pos (by omega)]
      · rw [if_neg h2, if_neg (by omega)]

example : qChildren exTree [[1]] = [[1, 0], [1, 1]] ∧ qItem exTree (-1) [[], [1], [0]] = [[3], [1, 1]] := by decide

end Parce

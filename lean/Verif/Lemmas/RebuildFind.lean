import Verif.Lemmas.RebuildCut
/-!
# Finding the token to start from
-/
set_option linter.unusedSectionVars false
namespace Parce.RB
variable {α L A ρ : Type}

/-! ### Leaves -/

theorem back_backward {rl : L} {cs : List (Node α L A)} (hf : FullL cs) (ho : Ordered (toksL cs)) {q : List Nat} {t : TokN α A}
    (h : (Node.ctx rl cs).at q = some (.tok t)) : back (.ctx rl cs) q = backward (.ctx rl cs) [] q := by
  unfold back backward ancestorsWithIndex
  rw [List.flatMap_map]
  have hc : ∀ (l : List Nat), (∀ k ∈ l, k < q.length) → l.flatMap (fun k =>
      let i := q[k]?.getD 0
      if i ≠ 0 then utilTokens true ((children false (q.take k) ((Node.ctx rl cs).kidsAt (q.take k))).take i) else []) =
      l.flatMap (fun k => if parentIndex ((Node.ctx rl cs).kidsAt ([] ++ q.take k)) (q[k]?.getD 0) ≠ 0 then
        utilTokens true ((children false ([] ++ q.take k) ((Node.ctx rl cs).kidsAt ([] ++ q.take k))).take
          (parentIndex ((Node.ctx rl cs).kidsAt ([] ++ q.take k)) (q[k]?.getD 0))) else []) := by
    intro l hl
    induction l with
    | nil => rfl
    | cons k l ih =>
      simp only [List.flatMap_cons]
      rw [ih (fun k hk => hl k (List.mem_cons_of_mem _ hk))]
      congr 1
      have hk := hl k List.mem_cons_self
      have hq : q = q.take k ++ q[k] :: q.drop (k + 1) := by
        rw [List.getElem_cons_drop, List.take_append_drop]
      have h' := h
      rw [hq] at h'
      obtain ⟨l, m, a1, a2, a3, a4⟩ := at_ctx h'
      have hwf := at_wf (root := .ctx rl cs) hf ho a1
      have hm : (Node.ctx rl cs).kidsAt (q.take k) = (Node.ctx l ((Node.ctx rl cs).kidsAt (q.take k))).kids := rfl
      have hp : parentIndex ((Node.ctx rl cs).kidsAt (q.take k)) q[k] = q[k] := by
        exact parentIndex_eq hwf.1 hwf.2 a2
      rw [List.getElem?_eq_getElem hk]
      simp only [Option.getD_some, List.nil_append, hp]
  exact hc _ (fun k hk => by simpa using hk)

/-- The leaves before a leaf. -/
theorem back_split {rl : L} {cs : List (Node α L A)} (hf : FullL cs) (ho : Ordered (toksL cs)) {q : List Nat} {t : TokN α A}
    (h : (Node.ctx rl cs).at q = some (.tok t)) :
    ∃ after, leavesL [] 0 cs = (back (.ctx rl cs) q).reverse ++ (q, t) :: after := by
  obtain ⟨bef, h1, h2⟩ := walk_split (root := .ctx rl cs) hf ho (base := []) (sub := .ctx rl cs) rfl h
  refine ⟨forward (.ctx rl cs) [] q, ?_⟩
  rw [back_backward hf ho h, h2, List.reverse_reverse]
  simpa [Node.leavesAt] using h1

theorem leaf_mem {rl : L} {cs : List (Node α L A)} {q : Leaf α A} :
    q ∈ leavesL [] 0 cs ↔ (Node.ctx rl cs).at q.1 = some (.tok q.2) := by
  have := mem_leavesAt (.ctx rl cs) [] q.1 q.2
  simp only [Node.leavesAt, List.nil_append] at this
  rw [show q = (q.1, q.2) from rfl, this]
  simp

/-- The order of the leaves determines the position. -/
theorem leaves_split_unique {cs : List (Node α L A)} {a b a' b' : List (Leaf α A)} {q : List Nat} {t t' : TokN α A}
    (h : leavesL [] 0 cs = a ++ (q, t) :: b) (h' : leavesL [] 0 cs = a' ++ (q, t') :: b') : a = a' ∧ b = b' ∧ t = t' := by
  have hn := leavesL_nodup cs [] 0
  have := split_unique (p := q) (t := t) (u := t') (by rw [← h]; exact hn) (h.symm.trans h')
  exact ⟨this.1, this.2.2, this.2.1⟩

/-- What comes before an earlier leaf is a part of what comes before a leaf. -/
theorem back_of_back {rl : L} {cs : List (Node α L A)} (hf : FullL cs) (ho : Ordered (toksL cs)) {q : List Nat} {t : TokN α A}
    (h : (Node.ctx rl cs).at q = some (.tok t)) {pre post : List (Leaf α A)} {c : Leaf α A}
    (hb : back (.ctx rl cs) q = pre ++ c :: post) :
    (Node.ctx rl cs).at c.1 = some (.tok c.2) ∧ back (.ctx rl cs) c.1 = post := by
  obtain ⟨after, h1⟩ := back_split hf ho h
  rw [hb] at h1
  simp only [List.reverse_append, List.reverse_cons, List.append_assoc, List.cons_append, List.nil_append] at h1
  have hc : (Node.ctx rl cs).at c.1 = some (.tok c.2) := leaf_mem.1 (by rw [h1]; simp)
  obtain ⟨after', h2⟩ := back_split hf ho hc
  refine ⟨hc, ?_⟩
  have := (leaves_split_unique (q := c.1) (t := c.2) (t' := c.2) h1 h2).1
  rw [← List.reverse_reverse post, this, List.reverse_reverse]

/-! ### Order -/

theorem ordered_app {a b : List (TokN α A)} (h : Ordered (a ++ b)) : Ordered a ∧ Ordered b ∧ ∀ x ∈ a, ∀ y ∈ b, x.stop ≤ y.pos := by
  obtain ⟨h1, h2⟩ := h
  rw [List.pairwise_append] at h2
  exact ⟨⟨fun t ht => h1 t (by simp [ht]), h2.1⟩, ⟨fun t ht => h1 t (by simp [ht]), h2.2.1⟩, h2.2.2⟩

theorem ordered_len : ∀ (ts : List (TokN α A)) (u : TokN α A) (r : Nat), Ordered (ts ++ [u]) →
    (∀ x ∈ ts ++ [u], r ≤ x.pos) → r + ts.length + 1 ≤ u.stop := by
  intro ts
  induction ts with
  | nil =>
    intro u r h hr
    have h1 := hr u (by simp)
    have h2 := List.length_pos_iff.2 (h.1 u (by simp))
    simp only [TokN.stop, List.length_nil]; omega
  | cons x xs ih =>
    intro u r h hr
    have h1 := hr x (by simp)
    have h2 := List.length_pos_iff.2 (h.1 x (by simp))
    have h3 := ordered_app (a := [x]) (b := xs ++ [u]) h
    have := ih u (r + 1) h3.2.1 (fun y hy => by
      have := h3.2.2 x (by simp) y hy
      simp only [TokN.stop] at this; omega)
    simp only [List.length_cons]; omega

/-! ### find_token_before -/

theorem bisect_true (f : Nat → Bool) : ∀ (fuel lo hi : Nat), bisect f fuel lo hi = lo ∨
    (bisect f fuel lo hi ≠ 0 ∧ f (bisect f fuel lo hi - 1) = true) := by
  intro fuel
  induction fuel with
  | zero => intro lo hi; exact Or.inl rfl
  | succ fuel ih =>
    intro lo hi
    simp only [bisect]
    split
    · split
      · rename_i h
        rcases ih ((lo + hi) / 2 + 1) hi with h1 | h1
        · rw [h1]; exact Or.inr ⟨by omega, by simpa using h⟩
        · exact Or.inr h1
      · exact ih lo _
    · exact Or.inl rfl

theorem findBefore_ok {pos : Nat} {rl : L} : ∀ (fuel : Nat) (path : List Nat) (cs : List (Node α L A)) (q : Leaf α A),
    findBefore pos fuel path cs = some q →
    ∃ r, q.1 = path ++ r ∧ (Node.ctx rl cs).at r = some (.tok q.2) ∧ q.2.stop ≤ pos := by
  intro fuel
  induction fuel generalizing rl with
  | zero => intro path cs q h; simp [findBefore] at h
  | succ fuel ih =>
    intro path cs q h
    simp only [findBefore] at h
    generalize hi : bisect (nodeIs cs (fun n => !((n.firstTok.map (fun t => decide (pos < t.stop))).getD false)))
      cs.length 0 cs.length = i at h
    split at h
    · simp at h
    · rename_i h0
      cases hc : cs[i - 1]? with
      | none => rw [hc] at h; simp at h
      | some n =>
        rw [hc] at h
        cases n with
        | tok t =>
          simp only [Option.some.injEq] at h
          subst h
          refine ⟨[i - 1], rfl, by simp [Node.at, Node.kids, hc], ?_⟩
          rcases bisect_true (nodeIs cs (fun n => !((n.firstTok.map (fun t => decide (pos < t.stop))).getD false)))
            cs.length 0 cs.length with h1 | ⟨_, h1⟩
          · omega
          · rw [hi] at h1
            simp only [nodeIs, hc, Option.map_some, Option.getD_some, Node.firstTok] at h1
            simpa using h1
        | ctx l ds =>
          simp only at h
          obtain ⟨r, h1, h2, h3⟩ := ih (rl := l) _ _ _ h
          refine ⟨(i - 1) :: r, by rw [h1]; simp, ?_, h3⟩
          simp [Node.at, Node.kids, hc, h2]

/-! ### Going back -/

theorem seek_true (ok : Leaf α A → Bool) : ∀ (rest : List (Leaf α A)) (cur : Leaf α A) (count : Nat) (c : Leaf α A)
    (rem : List (Leaf α A)), 1 ≤ count → seek ok cur rest count = (c, rem, true) →
    ∃ pre nxt, cur :: rest = pre ++ c :: nxt :: rem ∧ ok c = true ∧ (pre.filter ok).length + 1 = count := by
  intro rest
  induction rest with
  | nil => intro cur count c rem _ h; simp [seek] at h
  | cons nxt rest ih =>
    intro cur count c rem hc h
    simp only [seek] at h
    split at h
    · rename_i hok
      split at h
      · rename_i h1
        simp only [Prod.mk.injEq, and_true] at h
        obtain ⟨rfl, rfl⟩ := h
        exact ⟨[], nxt, by simp, hok, by simp [h1]⟩
      · obtain ⟨pre, nx, h1, h2, h3⟩ := ih nxt (count - 1) c rem (by omega) h
        refine ⟨cur :: pre, nx, by simp [h1], h2, ?_⟩
        rw [List.filter_cons_of_pos hok, List.length_cons]; omega
    · rename_i hok
      obtain ⟨pre, nx, h1, h2, h3⟩ := ih nxt count c rem hc h
      refine ⟨cur :: pre, nx, by simp [h1], h2, ?_⟩
      rw [List.filter_cons_of_neg hok]; omega

theorem seek_false (ok : Leaf α A → Bool) : ∀ (rest : List (Leaf α A)) (cur : Leaf α A) (count : Nat) (c : Leaf α A)
    (rem : List (Leaf α A)), seek ok cur rest count = (c, rem, false) → ∃ pre, cur :: rest = pre ++ [c] := by
  intro rest
  induction rest with
  | nil => intro cur count c rem h; simp only [seek, Prod.mk.injEq] at h; exact ⟨[], by simp [h.1]⟩
  | cons nxt rest ih =>
    intro cur count c rem h
    simp only [seek] at h
    split at h
    · split at h
      · simp at h
      · obtain ⟨pre, h1⟩ := ih nxt _ c rem h
        exact ⟨cur :: pre, by simp [h1]⟩
    · obtain ⟨pre, h1⟩ := ih nxt _ c rem h
      exact ⟨cur :: pre, by simp [h1]⟩

/-! ### Comparing the events -/

variable [DecidableEq α] [DecidableEq L] [DecidableEq A]

theorem compare_ok : ∀ (old : List (EvT α L A)) (new : List (Event α L A)) (prev : Option (EvT α L A))
    (evs : List (Event α L A)) (p : EvT α L A), compareEvents old new prev = some (evs, p) →
    (prev = some p ∧ new = evs) ∨ ∃ o1 o2, old = o1 ++ p :: o2 ∧ new = o1.map EvT.ev ++ p.ev :: evs := by
  intro old
  induction old with
  | nil =>
    intro new prev evs p h
    cases prev with
    | none => simp [compareEvents] at h
    | some x => simp only [compareEvents, Option.map_some, Option.some.injEq, Prod.mk.injEq] at h; exact Or.inl ⟨by rw [h.2], h.1⟩
  | cons o os ih =>
    intro new prev evs p h
    cases new with
    | nil =>
      cases prev with
      | none => simp [compareEvents] at h
      | some x => simp only [compareEvents, Option.map_some, Option.some.injEq, Prod.mk.injEq] at h; exact Or.inl ⟨by rw [h.2], h.1⟩
    | cons n ns =>
      simp only [compareEvents] at h
      split at h
      · rename_i he
        rcases ih ns (some o) evs p h with ⟨h1, h2⟩ | ⟨o1, o2, h1, h2⟩
        · cases h1
          exact Or.inr ⟨[], os, by simp, by simp [he, h2]⟩
        · exact Or.inr ⟨o :: o1, o2, by simp [h1], by simp [h2, he]⟩
      · cases prev with
        | none => simp at h
        | some x => simp only [Option.map_some, Option.some.injEq, Prod.mk.injEq] at h; exact Or.inl ⟨by rw [h.2], h.1⟩

end Parce.RB

import Verif.Lemmas.Find
/-!
# Lemmas about walking through a tree
-/
namespace Parce
variable {α L A : Type}

/-! ### Leaves -/

theorem leavesL_append (p : List Nat) (i : Nat) (a b : List (Node α L A)) :
    leavesL p i (a ++ b) = leavesL p i a ++ leavesL p (i + a.length) b := by
  induction a generalizing i with
  | nil => simp [leavesL]
  | cons x xs ih =>
    simp only [List.cons_append, leavesL, ih, List.append_assoc, List.length_cons]
    rw [Nat.add_assoc, Nat.add_comm 1]

/-- The children with their paths, the first having index `i`. -/
def kidsFrom (p : List Nat) (i : Nat) (cs : List (Node α L A)) : List (List Nat × Node α L A) :=
  cs.mapIdx (fun k n => (p ++ [i + k], n))

theorem kidsFrom_cons (p : List Nat) (i : Nat) (c : Node α L A) (cs : List (Node α L A)) :
    kidsFrom p i (c :: cs) = (p ++ [i], c) :: kidsFrom p (i + 1) cs := by
  simp only [kidsFrom, List.mapIdx_cons, Nat.add_zero]
  congr 1
  congr 1
  funext k n
  rw [Nat.add_assoc, Nat.add_comm 1]

theorem children_false (p : List Nat) (cs : List (Node α L A)) : children false p cs = kidsFrom p 0 cs := by
  simp [children, kidsFrom]

theorem children_true (p : List Nat) (cs : List (Node α L A)) : children true p cs = (kidsFrom p 0 cs).reverse := by
  simp [children, kidsFrom]

theorem kidsFrom_leaves (p : List Nat) (i : Nat) (cs : List (Node α L A)) :
    (kidsFrom p i cs).flatMap (fun q => q.2.leavesAt q.1) = leavesL p i cs := by
  induction cs generalizing i with
  | nil => simp [kidsFrom, leavesL]
  | cons c cs ih => simp [kidsFrom_cons, leavesL, ih]

theorem kidsFrom_drop (p : List Nat) (i k : Nat) (cs : List (Node α L A)) :
    (kidsFrom p i cs).drop k = kidsFrom p (i + k) (cs.drop k) := by
  induction k generalizing i cs with
  | zero => rfl
  | succ k ih =>
    cases cs with
    | nil => simp [kidsFrom]
    | cons c cs =>
      rw [kidsFrom_cons, List.drop_succ_cons, ih, List.drop_succ_cons]
      congr 1; omega

theorem kidsFrom_take (p : List Nat) (i k : Nat) (cs : List (Node α L A)) :
    (kidsFrom p i cs).take k = kidsFrom p i (cs.take k) := by
  induction k generalizing i cs with
  | zero => simp [kidsFrom]
  | succ k ih =>
    cases cs with
    | nil => simp [kidsFrom]
    | cons c cs => rw [kidsFrom_cons, List.take_succ_cons, ih, List.take_succ_cons, kidsFrom_cons]

theorem kidsFrom_length (p : List Nat) (i : Nat) (cs : List (Node α L A)) : (kidsFrom p i cs).length = cs.length := by
  simp [kidsFrom]

/-- Total size of nodes with paths. -/
def psize (l : List (List Nat × Node α L A)) : Nat := (l.map (fun q => q.2.size)).sum

theorem psize_append (a b : List (List Nat × Node α L A)) : psize (a ++ b) = psize a + psize b := by
  simp [psize]

theorem psize_kids (p : List Nat) (i : Nat) (cs : List (Node α L A)) : psize (kidsFrom p i cs) = sizeL cs := by
  induction cs generalizing i with
  | nil => simp [psize, kidsFrom, sizeL]
  | cons c cs ih =>
    have := ih (i + 1)
    simp only [psize] at this ⊢
    simp [kidsFrom_cons, sizeL, this]

theorem psize_children (rev : Bool) (p : List Nat) (cs : List (Node α L A)) : psize (children rev p cs) = sizeL cs := by
  cases rev
  · rw [children_false, psize_kids]
  · rw [children_true]
    have := psize_kids p 0 cs
    simp only [psize] at this ⊢
    rw [List.map_reverse, List.sum_reverse, this]

/-- The leaves of a node in one or the other direction. -/
def val (rev : Bool) (q : List Nat × Node α L A) : List (List Nat × TokN α A) :=
  if rev then (q.2.leavesAt q.1).reverse else q.2.leavesAt q.1

theorem children_val (rev : Bool) (p : List Nat) (cs : List (Node α L A)) :
    (children rev p cs).flatMap (val rev) = if rev then (leavesL p 0 cs).reverse else leavesL p 0 cs := by
  cases rev
  · rw [children_false]
    simp only [Bool.false_eq_true, if_false]
    rw [← kidsFrom_leaves]
    congr 1
  · rw [children_true]
    simp only [if_true]
    rw [← kidsFrom_leaves, List.reverse_flatMap]
    congr 1

theorem tokensLoop_eq (rev : Bool) : ∀ (fuel : Nat) (gen : List (List Nat × Node α L A))
    (stack : List (List (List Nat × Node α L A))),
    2 * psize (gen ++ stack.flatten) + stack.length + 1 ≤ fuel →
    tokensLoop rev fuel gen stack = (gen ++ stack.flatten).flatMap (val rev) := by
  intro fuel
  induction fuel with
  | zero => intro gen stack h; omega
  | succ fuel ih =>
    intro gen stack h
    cases gen with
    | nil =>
      cases stack with
      | nil => simp [tokensLoop]
      | cons g st =>
        simp only [tokensLoop]
        rw [ih g st (by simp only [List.nil_append, List.flatten_cons, List.length_cons] at h; omega)]
        simp
    | cons q gen =>
      obtain ⟨p, n⟩ := q
      simp only [List.cons_append] at h
      have h2 : psize ((p, n) :: (gen ++ stack.flatten)) = n.size + psize (gen ++ stack.flatten) := by simp [psize]
      rw [h2] at h
      cases n with
      | tok t =>
        simp only [Node.size] at h
        simp only [tokensLoop]
        rw [ih gen stack (by omega)]
        simp [val, Node.leavesAt]
      | ctx l cs =>
        simp only [Node.size] at h
        simp only [tokensLoop]
        rw [ih _ _ (by
          simp only [List.flatten_cons, List.length_cons, psize_append, psize_children]
          rw [psize_append] at h
          omega)]
        simp only [List.flatten_cons, List.flatMap_append, children_val, List.cons_append, List.flatMap_cons]
        congr 1

theorem tokens_eq (rev : Bool) (p : List Nat) (cs : List (Node α L A)) :
    Node.tokens rev p cs = if rev then (leavesL p 0 cs).reverse else leavesL p 0 cs := by
  unfold Node.tokens
  rw [tokensLoop_eq rev _ _ _ (by simp [psize_children])]
  simp [children_val]

theorem utilTokens_eq (rev : Bool) (nodes : List (List Nat × Node α L A)) :
    utilTokens rev nodes = if rev then (nodes.flatMap (fun q => q.2.leavesAt q.1)).reverse
      else nodes.flatMap (fun q => q.2.leavesAt q.1) := by
  have h : ∀ q : List Nat × Node α L A, (match q.2 with
      | .tok t => [(q.1, t)]
      | .ctx _ cs => Node.tokens rev q.1 cs) = val rev q := by
    intro q
    obtain ⟨p, n⟩ := q
    cases n with
    | tok t => cases rev <;> simp [val, Node.leavesAt]
    | ctx l cs => simp only [tokens_eq]; cases rev <;> simp [val, Node.leavesAt]
  have h' : utilTokens rev nodes = (if rev then nodes.reverse else nodes).flatMap (val rev) := by
    unfold utilTokens
    congr 1
    funext q
    exact h q
  rw [h']
  cases rev
  · rfl
  · simp only [if_true, List.reverse_flatMap]
    rfl

/-! ### parent_index -/

theorem pos_lt {cs : List (Node α L A)} (hf : FullL cs) (ho : Ordered (toksL cs)) {i j : Nat} {m n : Node α L A}
    (hi : cs[i]? = some m) (hj : cs[j]? = some n) : m.pos < n.pos ↔ i < j := by
  have key : ∀ {i j : Nat} {m n : Node α L A}, cs[i]? = some m → cs[j]? = some n → i < j → m.pos < n.pos := by
    intro i j m n hi hj hij
    obtain ⟨h1, h2, _⟩ := full_toks m (hf.get hi)
    obtain ⟨h3, h4, _⟩ := full_toks n (hf.get hj)
    cases hm : m.toks with
    | nil => exact absurd hm h1
    | cons x xs =>
      cases hn : n.toks with
      | nil => exact absurd hn h3
      | cons y ys =>
        have hb := ho.between hi hj hij (x := x) (y := y) (by rw [hm]; simp) (by rw [hn]; simp)
        have hx : x.text ≠ [] := ho.1 x (mem_toksL hi (by rw [hm]; simp))
        have : 0 < x.text.length := List.length_pos_iff.2 hx
        rw [hm] at h2; rw [hn] at h4
        simp only [Node.pos, h2, h4, List.head?_cons, Option.map_some, Option.getD_some]
        simp only [TokN.stop] at hb
        omega
  constructor
  · intro h
    rcases Nat.lt_trichotomy i j with h1 | h1 | h1
    · exact h1
    · subst h1; rw [hi] at hj; cases hj; omega
    · have := key hj hi h1; omega
  · exact key hi hj

theorem parentIndexLoop_eq {cs : List (Node α L A)} (hf : FullL cs) (ho : Ordered (toksL cs)) {i : Nat}
    {n : Node α L A} (hi : cs[i]? = some n) : ∀ (fuel lo hi : Nat), hi - lo ≤ fuel → lo ≤ i → i < hi → hi ≤ cs.length →
    parentIndexLoop cs n.pos i fuel lo hi = i := by
  intro fuel
  induction fuel with
  | zero => intro lo hi h1 h2 h3; omega
  | succ fuel ih =>
    intro lo hi h1 h2 h3 h4
    simp only [parentIndexLoop]
    rw [if_pos (by omega)]
    have hmid : lo ≤ (lo + hi) / 2 ∧ (lo + hi) / 2 < hi := by omega
    obtain ⟨m, hm⟩ : ∃ m, cs[(lo + hi) / 2]? = some m := ⟨_, List.getElem?_eq_getElem (by omega)⟩
    have hval : nodeIs cs (fun k => decide (k.pos < n.pos)) ((lo + hi) / 2) = decide ((lo + hi) / 2 < i) := by
      simp only [nodeIs, hm, Option.map_some, Option.getD_some]
      rw [decide_eq_decide]
      exact pos_lt hf ho hm (by assumption)
    rw [hval]
    by_cases hc : (lo + hi) / 2 < i
    · rw [if_pos (by simpa using hc)]
      exact ih _ _ (by omega) (by omega) h3 h4
    · rw [if_neg (by simpa using hc)]
      by_cases he : (lo + hi) / 2 = i
      · rw [if_pos he]; exact he
      · rw [if_neg he]
        exact ih _ _ (by omega) h2 (by omega) (by omega)

theorem parentIndex_eq {cs : List (Node α L A)} (hf : FullL cs) (ho : Ordered (toksL cs)) {i : Nat}
    {n : Node α L A} (hi : cs[i]? = some n) : parentIndex cs i = i := by
  unfold parentIndex
  rw [hi]
  simp only [Option.map_some, Option.getD_some]
  exact parentIndexLoop_eq hf ho hi _ _ _ (by omega) (Nat.zero_le _) (getElem?_lt hi) (Nat.le_refl _)

/-! ### Paths -/

theorem at_append (n : Node α L A) (p q : List Nat) : n.at (p ++ q) = (n.at p).bind (fun m => m.at q) := by
  induction p generalizing n with
  | nil => simp [Node.at]
  | cons i p ih =>
    simp only [List.cons_append, Node.at]
    cases n.kids[i]? with
    | none => rfl
    | some m => simp [ih]

theorem Full.kids {n : Node α L A} (h : n.Full) : FullL n.kids := by
  cases n with
  | tok t => trivial
  | ctx l cs => exact h.2

theorem toks_kids {n : Node α L A} (h : Ordered n.toks) : Ordered (toksL n.kids) := by
  cases n with
  | tok t => simp [Node.kids, toksL, Ordered]
  | ctx l cs => exact h

/-- Subtrees of a well-formed tree. -/
theorem at_wf {root : Node α L A} (hf : FullL root.kids) (ho : Ordered root.toks) {p : List Nat} {n : Node α L A}
    (h : root.at p = some n) : FullL n.kids ∧ Ordered n.toks := by
  induction p generalizing root with
  | nil => simp only [Node.at, Option.some.injEq] at h; subst h; exact ⟨hf, ho⟩
  | cons i p ih =>
    simp only [Node.at] at h
    cases hi : root.kids[i]? with
    | none => rw [hi] at h; simp at h
    | some m =>
      rw [hi] at h
      exact ih (Full.kids (hf.get hi)) (Ordered.get (toks_kids ho) hi) h

theorem split_at {cs : List (Node α L A)} {i : Nat} {n : Node α L A} (hi : cs[i]? = some n) :
    cs = cs.take i ++ n :: cs.drop (i + 1) := by
  have hlt := getElem?_lt hi
  have h2 : cs.drop i = n :: cs.drop (i + 1) := by
    rw [List.drop_eq_getElem_cons hlt]
    congr 1
    rw [List.getElem?_eq_getElem hlt] at hi
    exact Option.some.inj hi
  rw [← h2, List.take_append_drop]

theorem leavesL_split (p : List Nat) (k : Nat) {cs : List (Node α L A)} {i : Nat} {n : Node α L A} (hi : cs[i]? = some n) :
    leavesL p k cs = leavesL p k (cs.take i) ++ (n.leavesAt (p ++ [k + i]) ++ leavesL p (k + i + 1) (cs.drop (i + 1))) := by
  have h1 := split_at hi
  have hlen : (cs.take i).length = i := by
    rw [List.length_take]; have := getElem?_lt hi; omega
  conv => lhs; rw [h1]
  rw [leavesL_append, hlen]
  simp [leavesL]

theorem leavesAt_ctx {n m : Node α L A} {p : List Nat} {i : Nat} (h : n.kids[i]? = some m) :
    n.leavesAt p = leavesL p 0 n.kids := by
  cases n with
  | tok t => simp [Node.kids] at h
  | ctx l cs => rfl

theorem range_succ_rev (n : Nat) : (List.range (n + 1)).reverse = (List.range n).reverse.map (· + 1) ++ [0] := by
  rw [List.range_succ_eq_map]
  simp

theorem ancestors_cons (root : Node α L A) (base : List Nat) (i : Nat) (path : List Nat) :
    ancestorsWithIndex root base (i :: path) =
      ancestorsWithIndex root (base ++ [i]) path ++ [(base, parentIndex (root.kidsAt base) i)] := by
  simp only [ancestorsWithIndex, List.length_cons, range_succ_rev, List.map_append, List.map_map, List.map_cons,
    List.map_nil]
  congr 1
  · apply List.map_congr_left
    intro k _
    simp
  · simp

theorem kidsAt_eq {root n : Node α L A} {p : List Nat} (h : root.at p = some n) : root.kidsAt p = n.kids := by
  simp [Node.kidsAt, h]

/-- The leaves of the subtree at `base`, split at a descendant. -/
theorem walk_split {root : Node α L A} (hf : FullL root.kids) (ho : Ordered root.toks) {base path : List Nat}
    {sub n : Node α L A} (hb : root.at base = some sub) (hp : sub.at path = some n) :
    ∃ before, sub.leavesAt base = before ++ (n.leavesAt (base ++ path) ++ forward root base path) ∧
      backward root base path = before.reverse := by
  induction path generalizing base sub with
  | nil =>
    simp only [Node.at, Option.some.injEq] at hp
    subst hp
    exact ⟨[], by simp [forward, ancestorsWithIndex], by simp [backward, ancestorsWithIndex]⟩
  | cons i path ih =>
    simp only [Node.at] at hp
    cases hi : sub.kids[i]? with
    | none => rw [hi] at hp; simp at hp
    | some m =>
      rw [hi] at hp
      simp only [Option.bind_some] at hp
      obtain ⟨hfs, hos⟩ := at_wf hf ho hb
      have hbm : root.at (base ++ [i]) = some m := by
        rw [at_append, hb]
        simp [Node.at, hi]
      obtain ⟨before, h1, h2⟩ := ih hbm hp
      have hidx := parentIndex_eq hfs (toks_kids hos) hi
      refine ⟨leavesL base 0 (sub.kids.take i) ++ before, ?_, ?_⟩
      · rw [leavesAt_ctx hi, leavesL_split base 0 hi, Nat.zero_add, h1]
        simp only [forward, ancestors_cons, List.flatMap_append, List.flatMap_cons, List.flatMap_nil,
          kidsAt_eq hb, hidx, List.append_nil]
        rw [utilTokens_eq, children_false, kidsFrom_drop]
        simp only [Bool.false_eq_true, if_false, kidsFrom_leaves, List.append_assoc, List.cons_append, List.nil_append,
          Nat.zero_add]
      · simp only [backward, ancestors_cons, List.flatMap_append, List.flatMap_cons, List.flatMap_nil,
          kidsAt_eq hb, hidx, List.append_nil]
        have h3 : backward root (base ++ [i]) path = List.flatMap (fun q =>
            if q.2 ≠ 0 then utilTokens true ((children false q.1 (root.kidsAt q.1)).take q.2) else [])
            (ancestorsWithIndex root (base ++ [i]) path) := rfl
        rw [← h3, h2, List.reverse_append]
        congr 1
        rw [utilTokens_eq, children_false, kidsFrom_take]
        simp only [if_true, kidsFrom_leaves]
        split
        · rfl
        · next h => 
          have : i = 0 := by omega
          subst this
          simp [leavesL]

/-! ### Paths of leaves -/

mutual
theorem mem_leavesAt : (n : Node α L A) → (p q : List Nat) → (t : TokN α A) →
    ((q, t) ∈ n.leavesAt p ↔ ∃ r, q = p ++ r ∧ n.at r = some (.tok t))
  | .tok u, p, q, t => by
    simp only [Node.leavesAt, List.mem_singleton, Prod.mk.injEq]
    constructor
    · rintro ⟨rfl, rfl⟩; exact ⟨[], by simp, rfl⟩
    · rintro ⟨r, rfl, h⟩
      cases r with
      | nil => simp only [Node.at, Option.some.injEq, Node.tok.injEq] at h; exact ⟨by simp, h.symm⟩
      | cons i r => simp [Node.at, Node.kids] at h
  | .ctx l cs, p, q, t => by
    simp only [Node.leavesAt]
    rw [mem_leavesL cs p 0 q t]
    constructor
    · rintro ⟨i, r, n, rfl, h1, h2⟩
      exact ⟨i :: r, by simp, by simp [Node.at, Node.kids, h1, h2]⟩
    · rintro ⟨r, rfl, h⟩
      cases r with
      | nil => simp [Node.at] at h
      | cons i r =>
        simp only [Node.at, Node.kids] at h
        cases hi : cs[i]? with
        | none => rw [hi] at h; simp at h
        | some m => rw [hi] at h; exact ⟨i, r, m, by simp, hi, h⟩
theorem mem_leavesL : (cs : List (Node α L A)) → (p : List Nat) → (k : Nat) → (q : List Nat) → (t : TokN α A) →
    ((q, t) ∈ leavesL p k cs ↔ ∃ i r n, q = p ++ (k + i) :: r ∧ cs[i]? = some n ∧ n.at r = some (.tok t))
  | [], p, k, q, t => by simp [leavesL]
  | c :: cs, p, k, q, t => by
    simp only [leavesL, List.mem_append]
    rw [mem_leavesAt c (p ++ [k]) q t, mem_leavesL cs p (k + 1) q t]
    constructor
    · rintro (⟨r, rfl, h⟩ | ⟨i, r, n, rfl, h1, h2⟩)
      · exact ⟨0, r, c, by simp, rfl, h⟩
      · exact ⟨i + 1, r, n, by rw [Nat.add_assoc, Nat.add_comm 1], by simpa using h1, h2⟩
    · rintro ⟨i, r, n, rfl, h1, h2⟩
      cases i with
      | zero =>
        simp only [List.getElem?_cons_zero, Option.some.injEq] at h1
        subst h1
        exact Or.inl ⟨r, by simp, h2⟩
      | succ i =>
        exact Or.inr ⟨i, r, n, by rw [Nat.add_assoc, Nat.add_comm 1], by simpa using h1, h2⟩
end

mutual
theorem leavesAt_nodup : (n : Node α L A) → (p : List Nat) → ((n.leavesAt p).map (·.1)).Nodup
  | .tok u, p => by simp [Node.leavesAt]
  | .ctx l cs, p => by simp only [Node.leavesAt]; exact leavesL_nodup cs p 0
theorem leavesL_nodup : (cs : List (Node α L A)) → (p : List Nat) → (k : Nat) → ((leavesL p k cs).map (·.1)).Nodup
  | [], p, k => by simp [leavesL]
  | c :: cs, p, k => by
    simp only [leavesL, List.map_append]
    refine List.nodup_append.2 ⟨leavesAt_nodup c _, leavesL_nodup cs p (k + 1), ?_⟩
    intro a ha b hb hab
    simp only [List.mem_map] at ha hb
    obtain ⟨⟨a1, t1⟩, h1, rfl⟩ := ha
    obtain ⟨⟨b1, t2⟩, h2, rfl⟩ := hb
    obtain ⟨r, h3, _⟩ := (mem_leavesAt c (p ++ [k]) a1 t1).1 h1
    obtain ⟨i, r2, n, h4, _⟩ := (mem_leavesL cs p (k + 1) b1 t2).1 h2
    simp only at hab
    rw [h3, h4] at hab
    simp only [List.append_assoc, List.cons_append, List.nil_append, List.append_cancel_left_eq, List.cons.injEq] at hab
    omega
end

mutual
theorem leavesAt_toks : (n : Node α L A) → (p : List Nat) → (n.leavesAt p).map (·.2) = n.toks
  | .tok u, p => by simp [Node.leavesAt, Node.toks]
  | .ctx l cs, p => by simp only [Node.leavesAt, Node.toks]; exact leavesL_toks cs p 0
theorem leavesL_toks : (cs : List (Node α L A)) → (p : List Nat) → (k : Nat) → (leavesL p k cs).map (·.2) = toksL cs
  | [], p, k => by simp [leavesL, toksL]
  | c :: cs, p, k => by simp [leavesL, toksL, leavesAt_toks c, leavesL_toks cs]
end

/-- A split of the leaves at a path is unique. -/
theorem split_unique {β γ : Type} {l1 r1 l2 r2 : List (β × γ)} {p : β} {t u : γ}
    (hn : ((l1 ++ (p, t) :: r1).map (·.1)).Nodup) (h : l1 ++ (p, t) :: r1 = l2 ++ (p, u) :: r2) :
    l1 = l2 ∧ t = u ∧ r1 = r2 := by
  induction l1 generalizing l2 with
  | nil =>
    cases l2 with
    | nil => simp only [List.nil_append, List.cons.injEq, Prod.mk.injEq, true_and] at h; exact ⟨rfl, h.1, h.2⟩
    | cons y ys =>
      simp only [List.nil_append, List.cons_append, List.cons.injEq] at h
      rw [List.nil_append, h.2] at hn
      simp at hn
  | cons x xs ih =>
    cases l2 with
    | nil =>
      simp only [List.nil_append, List.cons_append, List.cons.injEq] at h
      obtain ⟨h1, h2⟩ := h
      simp only [List.cons_append, List.map_cons, List.map_append, List.nodup_cons, List.mem_append, List.mem_cons] at hn
      rw [h1] at hn
      exact absurd (Or.inr (Or.inl rfl)) hn.1
    | cons y ys =>
      simp only [List.cons_append, List.cons.injEq] at h
      simp only [List.cons_append, List.map_cons, List.nodup_cons] at hn
      obtain ⟨h1, h2, h3⟩ := ih hn.2 h.2
      exact ⟨by rw [h.1, h1], h2, h3⟩

/-! ### Height -/

mutual
/-- Nesting depth of contexts. -/
def Node.cd : Node α L A → Nat
  | .tok _ => 0
  | .ctx _ cs => cdL cs + 1
def cdL : List (Node α L A) → Nat
  | [] => 0
  | n :: ns => max n.cd (cdL ns)
end

mutual
theorem depth_cd : (n : Node α L A) → n.Full → n.depth = n.cd
  | .tok _, _ => rfl
  | .ctx _ cs, h => by
    simp only [Node.depth, Node.cd, if_neg h.1, depthL_cd cs h.2]
theorem depthL_cd : (cs : List (Node α L A)) → FullL cs → depthL cs = cdL cs
  | [], _ => rfl
  | n :: ns, h => by simp only [depthL, cdL, depth_cd n h.1, depthL_cd ns h.2]
end

/-- The level reached by contexts nested `c` deep in the level `s`. -/
def lvl (s c : Nat) : Nat := if c = 0 then 0 else s + c

/-- The deepest level reached in the rest of the stack. -/
def restHeight : List (List (Node α L A) × Nat) → Nat
  | [] => 0
  | (cs, i) :: st => max (lvl st.length (cdL (cs.drop (i + 1)))) (restHeight st)

def restSize : List (List (Node α L A) × Nat) → Nat
  | [] => 0
  | (cs, i) :: st => 2 * sizeL (cs.drop (i + 1)) + 1 + restSize st

theorem heightLoop_eq : ∀ (fuel : Nat) (cs : List (Node α L A)) (i : Nat) (stack : List (List (Node α L A) × Nat))
    (h : Nat), 2 * sizeL (cs.drop i) + restSize stack + 1 ≤ fuel →
    heightLoop fuel cs i stack h =
      max (max h (lvl stack.length (cdL (cs.drop i)))) (restHeight stack) + 1 := by
  intro fuel
  induction fuel with
  | zero => intro cs i stack h hf; omega
  | succ fuel ih =>
    intro cs i stack h hf
    simp only [heightLoop]
    cases hi : cs[i]? with
    | none =>
      have hd : cs.drop i = [] := List.drop_eq_nil_of_le (List.getElem?_eq_none_iff.1 hi)
      rw [hd] at hf ⊢
      cases stack with
      | nil => simp [cdL, restHeight, lvl]
      | cons q st =>
        obtain ⟨cs', i'⟩ := q
        simp only [restSize, sizeL] at hf
        simp only
        rw [ih cs' (i' + 1) st h (by omega)]
        simp only [cdL, restHeight, lvl, if_true]
        split <;> omega
    | some n =>
      have hd : cs.drop i = n :: cs.drop (i + 1) := by
        rw [List.drop_eq_getElem_cons (getElem?_lt hi)]
        congr 1
        rw [List.getElem?_eq_getElem (getElem?_lt hi)] at hi
        exact Option.some.inj hi
      rw [hd] at hf ⊢
      simp only [sizeL] at hf
      cases n with
      | tok t =>
        simp only [Node.size] at hf
        simp only
        rw [ih cs (i + 1) stack h (by omega)]
        simp [cdL, Node.cd]
      | ctx l ds =>
        simp only [Node.size] at hf
        simp only
        rw [ih ds 0 _ _ (by simp only [List.drop_zero, restSize]; omega)]
        simp only [List.drop_zero, restHeight, List.length_cons, cdL, Node.cd]
        unfold lvl
        split <;> split <;> split <;> omega

/-! ### Copy -/

/-- The copies made so far are prefixes of the originals. -/
def CopyOK : List (Node α L A) → Frame α L A → List (List (Node α L A) × Frame α L A) → Node α L A → Prop
  | cs, copy, [], target => copy.kids = cs.take copy.kids.length ∧ target = .ctx copy.lex cs
  | cs, copy, (cs', f) :: st, target =>
    copy.kids = cs.take copy.kids.length ∧ cs'[f.kids.length]? = some (.ctx copy.lex cs) ∧ CopyOK cs' f st target

def copySize : List (List (Node α L A) × Frame α L A) → Nat
  | [] => 0
  | (cs, f) :: st => 2 * sizeL (cs.drop (f.kids.length + 1)) + 1 + copySize st

theorem CopyOK.pre {cs : List (Node α L A)} {copy : Frame α L A} {stack : List (List (Node α L A) × Frame α L A)}
    {target : Node α L A} (h : CopyOK cs copy stack target) : copy.kids = cs.take copy.kids.length := by
  cases stack with
  | nil => exact h.1
  | cons q st => obtain ⟨cs', f⟩ := q; exact h.1

theorem CopyOK.next {cs : List (Node α L A)} {copy : Frame α L A} {stack : List (List (Node α L A) × Frame α L A)}
    {target : Node α L A} (h : CopyOK cs copy stack target) {n : Node α L A} (hi : cs[copy.kids.length]? = some n) :
    CopyOK cs ⟨copy.lex, copy.kids ++ [n]⟩ stack target := by
  have hpre := h.pre
  have h2 : copy.kids ++ [n] = cs.take (copy.kids ++ [n]).length := by
    rw [List.length_append, List.length_singleton, List.take_add_one, hi]
    simp [← hpre]
  cases stack with
  | nil => exact ⟨h2, h.2⟩
  | cons q st => obtain ⟨cs', f⟩ := q; exact ⟨h2, h.2⟩

theorem copyLoop_eq : ∀ (fuel : Nat) (cs : List (Node α L A)) (copy : Frame α L A)
    (stack : List (List (Node α L A) × Frame α L A)) (target : Node α L A),
    CopyOK cs copy stack target → 2 * sizeL (cs.drop copy.kids.length) + copySize stack + 1 ≤ fuel →
    copyLoop fuel cs copy.kids.length copy stack = some target := by
  intro fuel
  induction fuel with
  | zero => intro cs copy stack target _ h; omega
  | succ fuel ih =>
    intro cs copy stack target hok hf
    simp only [copyLoop]
    have hpre := hok.pre
    cases hi : cs[copy.kids.length]? with
    | none =>
      have hle := List.getElem?_eq_none_iff.1 hi
      have hfull : copy.kids = cs := by
        rw [List.take_of_length_le hle] at hpre; exact hpre
      cases stack with
      | nil =>
        simp only
        rw [hok.2, hfull]
      | cons q st =>
        obtain ⟨cs', f⟩ := q
        obtain ⟨_, h2, h3⟩ := hok
        simp only [copySize] at hf
        simp only
        rw [hfull]
        have h5 : sizeL (cs.drop copy.kids.length) = 0 := by
          rw [List.drop_eq_nil_of_le hle]; rfl
        exact ih cs' ⟨f.lex, f.kids ++ [.ctx copy.lex cs]⟩ st target (h3.next h2) (by
          simp only [List.length_append, List.length_singleton]; omega)
    | some n =>
      have hd : cs.drop copy.kids.length = n :: cs.drop (copy.kids.length + 1) := by
        rw [List.drop_eq_getElem_cons (getElem?_lt hi)]
        congr 1
        rw [List.getElem?_eq_getElem (getElem?_lt hi)] at hi
        exact Option.some.inj hi
      rw [hd] at hf
      simp only [sizeL] at hf
      cases n with
      | tok t =>
        simp only [Node.size] at hf
        have := ih cs ⟨copy.lex, copy.kids ++ [.tok t]⟩ stack target (hok.next hi) (by
          simp only [List.length_append, List.length_singleton]; omega)
        simp only [List.length_append, List.length_singleton] at this
        exact this
      | ctx l ds =>
        simp only [Node.size] at hf
        exact ih ds ⟨l, []⟩ ((cs, copy) :: stack) target ⟨rfl, hi, hok⟩ (by
          simp only [List.length_nil, List.drop_zero, copySize]; omega)

end Parce

import Verif.Lemmas.NodesDelete
/-!
# Lemmas for the methods that relate nodes
-/
namespace Parce.Nd
open Parce
variable {α L A : Type}

/-! ### Ancestors -/

theorem ancestors_none (p : List Nat) : ancestors p none = ancestorsOf p := by
  unfold ancestors
  split
  · next h =>
    rw [List.reverse_eq_nil_iff] at h
    subst h
    rfl
  · rfl

theorem ancestorsOf_sorted (p : List Nat) : (ancestorsOf p).Pairwise (fun x y => y.length < x.length) := by
  unfold ancestorsOf
  rw [List.pairwise_map, List.pairwise_reverse]
  refine List.Pairwise.imp_of_mem ?_ List.pairwise_lt_range
  intro x y hx hy hxy
  simp only [List.mem_range] at hx hy
  simp only [List.length_take]
  omega

theorem ancestorsOf_snoc (p : List Nat) (i : Nat) : ancestorsOf (p ++ [i]) = p :: ancestorsOf p := by
  unfold ancestorsOf
  rw [List.length_append, List.length_singleton, List.range_succ, List.reverse_append]
  simp only [List.reverse_cons, List.reverse_nil, List.nil_append, List.singleton_append, List.map_cons]
  congr 1
  · simp
  · apply List.map_congr_left
    intro k hk
    rw [List.mem_reverse, List.mem_range] at hk
    exact List.take_append_of_le_length (by omega)

theorem mem_climb (p : List Nat) : (rev a : List Nat) →
    (a ∈ climb p rev ↔ a <+: rev.reverse ∧ ¬ (a <+: p ∧ p <+: rev.reverse))
  | [], a => by
    simp only [climb, List.reverse_nil, List.prefix_nil]
    split
    · next h => subst h; simp
    · next h =>
      have h' : ¬ p = [] := fun h2 => h h2.symm
      simp [h']
  | i :: rev, a => by
    have ih := mem_climb p rev a
    simp only [climb]
    rw [List.reverse_cons]
    split
    · next h =>
      subst h
      simp
    · next h =>
      rw [List.mem_cons, ih, List.prefix_concat_iff, List.prefix_concat_iff]
      constructor
      · rintro (rfl | ⟨h1, h2⟩)
        · refine ⟨Or.inl rfl, ?_⟩
          rintro ⟨h3, h4 | h4⟩
          · exact h h4.symm
          · have := h3.length_le
            have := h4.length_le
            simp at *
            omega
        · refine ⟨Or.inr h1, ?_⟩
          rintro ⟨h3, h4 | h4⟩
          · exact h h4.symm
          · exact h2 ⟨h3, h4⟩
      · rintro ⟨h1 | h1, h2⟩
        · exact Or.inl h1
        · exact Or.inr ⟨h1, fun ⟨h3, h4⟩ => h2 ⟨h3, Or.inr h4⟩⟩

theorem climb_sorted (p : List Nat) : (rev : List Nat) → (climb p rev).Pairwise (fun x y => y.length < x.length)
  | [] => by simp only [climb]; split <;> simp
  | i :: rev => by
    simp only [climb]
    split
    · exact List.Pairwise.nil
    · refine List.pairwise_cons.2 ⟨?_, climb_sorted p rev⟩
      intro a ha
      have := ((mem_climb p rev a).1 ha).1.length_le
      simp at *
      omega

theorem mem_ancestors_upto (path u a : List Nat) (hu : u ≠ []) :
    a ∈ ancestors path (some (false, u)) ↔ a <+: path ∧ a ≠ path ∧ ¬ (a <+: u.dropLast ∧ u.dropLast <+: path ∧ u.dropLast ≠ path) := by
  unfold ancestors
  rcases List.eq_nil_or_concat path with rfl | ⟨q, i, rfl⟩
  · simp
  · simp only [List.concat_eq_append, List.reverse_append, List.reverse_cons, List.reverse_nil, List.nil_append, List.singleton_append]
    rw [if_pos hu, mem_climb, List.reverse_reverse]
    have hpre : ∀ b : List Nat, b <+: q ↔ b <+: q ++ [i] ∧ b ≠ q ++ [i] := by
      intro b
      rw [List.prefix_concat_iff]
      constructor
      · intro h
        refine ⟨Or.inr h, ?_⟩
        rintro rfl
        have := h.length_le
        simp at this
        omega
      · rintro ⟨h1 | h1, h2⟩
        · exact absurd h1 h2
        · exact h1
    rw [hpre a, hpre u.dropLast, and_assoc]

theorem ancestors_upto_sorted (path : List Nat) (u : Option (Bool × List Nat)) :
    (ancestors path u).Pairwise (fun x y => y.length < x.length) := by
  unfold ancestors
  split
  · exact List.Pairwise.nil
  · split
    · split
      · exact climb_sorted _ _
      · exact ancestorsOf_sorted path
    · exact ancestorsOf_sorted path

/-- The first of the sorted list that has the property is the longest. -/
theorem find_longest {xs : List (List Nat)} (hs : xs.Pairwise (fun x y => y.length < x.length)) {P : List Nat → Bool}
    {a : List Nat} (h : xs.find? P = some a) : ∀ b ∈ xs, P b = true → b.length ≤ a.length := by
  intro b hb hp
  obtain ⟨_, pre, post, he, hpre⟩ := List.find?_eq_some_iff_append.1 h
  rw [he] at hb hs
  rcases List.mem_append.1 hb with hm | hm
  · have := hpre b hm
    rw [hp] at this
    cases this
  · rcases List.mem_cons.1 hm with rfl | hm
    · exact Nat.le_refl _
    · rw [List.pairwise_append] at hs
      exact Nat.le_of_lt ((List.pairwise_cons.1 hs.2.1).1 b hm)

theorem isCtxAt_prefix {root : Node α L A} {p q : List Nat} {n : Node α L A} (hq : root.at q = some n) (h : p <+: q)
    (hne : p ≠ q) : isCtxAt root p = true := by
  obtain ⟨r, rfl⟩ := h
  rw [at_append] at hq
  cases hp : root.at p with
  | none => rw [hp] at hq; cases hq
  | some m =>
    rw [hp] at hq
    cases r with
    | nil => simp at hne
    | cons i r =>
      obtain ⟨k, hk, _⟩ := at_cons hq
      simp [isCtxAt, hp, isCtx_of_kid hk]

/-! ### Trails -/

theorem ancestors_append (root : Node α L A) (base c r : List Nat) :
    ancestorsWithIndex root base (c ++ r) = ancestorsWithIndex root (base ++ c) r ++ ancestorsWithIndex root base c := by
  induction c generalizing base with
  | nil => simp [ancestorsWithIndex]
  | cons i c ih =>
    rw [List.cons_append, ancestors_cons, ih, ancestors_cons, List.append_assoc, List.append_assoc, List.singleton_append]

theorem ancestors_snd {root : Node α L A} (hf : FullL root.kids) (ho : Ordered root.toks) : (path base : List Nat) →
    (sub n : Node α L A) → root.at base = some sub → sub.at path = some n →
    (ancestorsWithIndex root base path).map (·.2) = path.reverse
  | [], base, sub, n, hb, hp => by simp [ancestorsWithIndex]
  | i :: path, base, sub, n, hb, hp => by
    obtain ⟨m, hm, hp'⟩ := at_cons hp
    obtain ⟨hfs, hos⟩ := at_wf hf ho hb
    rw [ancestors_cons, List.map_append, ancestors_snd hf ho path (base ++ [i]) m n (at_snoc hb hm) hp', kidsAt_eq hb]
    simp [parentIndex_eq hfs (toks_kids hos) hm]

theorem ancestors_fst (root : Node α L A) (base path : List Nat) :
    ∀ a ∈ (ancestorsWithIndex root base path).map (·.1), base <+: a ∧ a <+: base ++ path := by
  intro a ha
  simp only [ancestorsWithIndex, List.map_map, List.mem_map, Function.comp] at ha
  obtain ⟨k, _, rfl⟩ := ha
  exact ⟨List.prefix_append _ _, (List.prefix_append_right_inj _).2 (List.take_prefix _ _)⟩

theorem trailLoop_skip (s : List (List Nat × Nat)) : (o1 o2 : List (List Nat × Nat)) → (acc : List Nat) →
    (∀ a ∈ o1.map (·.1), a ∉ s.map (·.1)) → trailLoop s (o1 ++ o2) acc = trailLoop s o2 (acc ++ o1.map (·.2))
  | [], o2, acc, _ => by simp
  | (n, i) :: o1, o2, acc, h => by
    have hn : n ∉ s.map (·.1) := h n (by simp)
    have h1 : (s.map (·.1)).idxOf? n = none := List.idxOf?_eq_none_iff.2 hn
    rw [List.cons_append, trailLoop, h1]
    simp only
    rw [trailLoop_skip s o1 o2 (acc ++ [i]) (fun a ha => h a (List.mem_cons_of_mem _ ha))]
    simp

theorem trail_eq {root : Node α L A} (hf : FullL root.kids) (ho : Ordered root.toks) {c is js : List Nat} {i j : Nat}
    {m n : Node α L A} (hi : root.at (c ++ i :: is) = some m) (hj : root.at (c ++ j :: js) = some n) (hij : i ≠ j) :
    trailLoop (ancestorsWithIndex root [] (c ++ i :: is)) (ancestorsWithIndex root [] (c ++ j :: js)) [] =
      some (c, i :: is, j :: js) := by
  rw [at_append] at hi hj
  cases hc : root.at c with
  | none => rw [hc] at hi; cases hi
  | some sub =>
    rw [hc, Option.bind_some] at hi hj
    obtain ⟨m1, hm1, hi'⟩ := at_cons hi
    obtain ⟨n1, hn1, hj'⟩ := at_cons hj
    obtain ⟨hfs, hos⟩ := at_wf hf ho hc
    have e : ∀ k ks, ancestorsWithIndex root [] (c ++ k :: ks) =
        ancestorsWithIndex root (c ++ [k]) ks ++ (c, parentIndex (root.kidsAt c) k) :: ancestorsWithIndex root [] c := by
      intro k ks
      rw [ancestors_append, List.nil_append, ancestors_cons, List.append_assoc, List.singleton_append]
    rw [e i is, e j js, kidsAt_eq hc, parentIndex_eq hfs (toks_kids hos) hm1, parentIndex_eq hfs (toks_kids hos) hn1]
    have hne : ∀ a ∈ (ancestorsWithIndex root (c ++ [i]) is).map (·.1), a ≠ c := by
      rintro a ha rfl
      have := (ancestors_fst root _ _ a ha).1.length_le
      simp at this
      omega
    rw [trailLoop_skip]
    · have hidx : ((ancestorsWithIndex root (c ++ [i]) is ++ (c, i) :: ancestorsWithIndex root [] c).map (·.1)).idxOf? c =
          some (ancestorsWithIndex root (c ++ [i]) is).length := by
        rw [List.map_append, List.map_cons, List.idxOf?_eq_some_iff]
        refine ⟨by simp, by simp, ?_⟩
        intro k hk
        rw [List.getElem_append_left (by simpa using hk)]
        have := hne _ (List.getElem_mem (h := by simpa using hk))
        simpa using this
      simp only [trailLoop, hidx]
      rw [List.map_append, List.map_cons, List.take_append]
      simp only [List.length_map, Nat.add_sub_cancel_left, List.take_succ_cons, List.take_zero]
      rw [List.take_of_length_le (by simp), List.nil_append, ancestors_snd hf ho is (c ++ [i]) m1 m (at_snoc hc hm1) hi',
        ancestors_snd hf ho js (c ++ [j]) n1 n (at_snoc hc hn1) hj']
      simp
    · intro a ha hmem
      have h1 := ancestors_fst root _ _ a ha
      rw [List.map_append, List.mem_append, List.map_cons, List.mem_cons] at hmem
      rcases hmem with h2 | h2 | h2
      · have h3 := ancestors_fst root _ _ a h2
        obtain ⟨r1, e1⟩ := h1.1
        obtain ⟨r2, e2⟩ := h3.1
        rw [← e2, List.append_assoc, List.append_assoc] at e1
        have := List.append_cancel_left e1
        simp at this
        exact hij this.1.symm
      · have := h1.1.length_le
        rw [h2] at this
        simp at this
        omega
      · have h3 := (ancestors_fst root _ _ a h2).2.length_le
        have := h1.1.length_le
        simp at *
        omega

/-- Two different paths, none of which continues the other, part somewhere. -/
theorem paths_part : (p q : List Nat) → ¬ p <+: q → ¬ q <+: p →
    ∃ c i is j js, p = c ++ i :: is ∧ q = c ++ j :: js ∧ i ≠ j
  | [], q, h, _ => absurd List.nil_prefix h
  | _ :: _, [], _, h => absurd List.nil_prefix h
  | x :: p, y :: q, h1, h2 => by
    by_cases hxy : x = y
    · subst hxy
      obtain ⟨c, i, is, j, js, rfl, rfl, hij⟩ := paths_part p q
        (fun h => h1 (List.cons_prefix_cons.2 ⟨rfl, h⟩)) (fun h => h2 (List.cons_prefix_cons.2 ⟨rfl, h⟩))
      exact ⟨x :: c, i, is, j, js, rfl, rfl, hij⟩
    · exact ⟨[], x, p, y, q, rfl, rfl, hxy⟩

theorem tok_no_prefix {root : Node α L A} {p q : List Nat} {t : TokN α A} {n : Node α L A}
    (hp : root.at p = some (.tok t)) (hq : root.at q = some n) (h : p <+: q) : p = q := by
  obtain ⟨r, rfl⟩ := h
  rw [at_append, hp] at hq
  cases r with
  | nil => simp
  | cons i r => simp [Node.at, Node.kids] at hq

theorem mem_toks_at {sub : Node α L A} {r : List Nat} {t : TokN α A} (h : sub.at r = some (.tok t)) : t ∈ sub.toks := by
  rw [← leavesAt_toks sub []]
  exact List.mem_map.2 ⟨(r, t), (mem_leavesAt sub [] r t).2 ⟨r, by simp, h⟩, rfl⟩

/-- Tokens at paths that part: the one with the smaller index is first. -/
theorem part_lt {root : Node α L A} (hf : FullL root.kids) (ho : Ordered root.toks) {c is js : List Nat} {i j : Nat}
    {t u : TokN α A} (hi : root.at (c ++ i :: is) = some (.tok t)) (hj : root.at (c ++ j :: js) = some (.tok u)) (hij : i < j) :
    t.pos < u.pos := by
  rw [at_append] at hi hj
  cases hc : root.at c with
  | none => rw [hc] at hi; cases hi
  | some sub =>
    rw [hc, Option.bind_some] at hi hj
    obtain ⟨m1, hm1, hi'⟩ := at_cons hi
    obtain ⟨n1, hn1, hj'⟩ := at_cons hj
    obtain ⟨hfs, hos⟩ := at_wf hf ho hc
    have hos' := toks_kids hos
    have h1 := mem_toks_at hi'
    have h2 := mem_toks_at hj'
    have h3 := hos'.between hm1 hn1 hij h1 h2
    have h4 := List.length_pos_iff.2 (hos'.1 t (mem_toksL hm1 h1))
    simp only [TokN.stop] at h3
    omega

/-- The leaves from the one token to the other. -/
theorem part_leaves {root : Node α L A} (hf : FullL root.kids) (ho : Ordered root.toks) {c is js : List Nat} {i j : Nat}
    {t u : TokN α A} (hi : root.at (c ++ i :: is) = some (.tok t)) (hj : root.at (c ++ j :: js) = some (.tok u)) (hij : i < j) :
    ∃ before mid after, root.leavesAt [] = before ++ ((c ++ i :: is, t) :: mid ++ [(c ++ j :: js, u)]) ++ after ∧
      Rng.tokens root ⟨c, i :: is, j :: js⟩ = (c ++ i :: is, t) :: mid ++ [(c ++ j :: js, u)] := by
  rw [at_append] at hi hj
  cases hc : root.at c with
  | none => rw [hc] at hi; cases hi
  | some sub =>
    rw [hc, Option.bind_some] at hi hj
    obtain ⟨before, mid, after, h1, h2⟩ := slices_toks hc hi hj hij
    obtain ⟨b2, h3, _⟩ := walk_split hf ho (base := []) (path := c) rfl hc
    refine ⟨b2 ++ before, mid, after ++ forward root [] c, ?_, h2⟩
    rw [h3, List.nil_append, h1]
    simp

/-! ### Lexicons -/

def upLex (root : Node α L A) (p : List Nat) : List (Option L) := (ancestorsOf p).map (lexAt root)

theorem upLex_lexicons : (p : List Nat) → (root n : Node α L A) → root.at p = some n →
    upLex root p = ((lexicons root p).map some).reverse
  | [], root, n, _ => by cases root <;> rfl
  | i :: p, .tok t, n, h => by simp [Node.at, Node.kids] at h
  | i :: p, .ctx l cs, n, h => by
    obtain ⟨m, hm, h'⟩ := at_cons h
    have hm' : cs[i]? = some m := hm
    have ih := upLex_lexicons p m n h'
    unfold upLex at ih ⊢
    rw [ancestorsOf_cons, List.map_append, List.map_map]
    have : (lexAt (Node.ctx l cs) ∘ fun x => i :: x) = lexAt m := by
      funext a
      simp [Function.comp, lexAt, Node.at, Node.kids, hm']
    rw [this, ih]
    simp [lexicons, hm', lexAt, Node.at]

theorem stateLoop_iff [DecidableEq L] (trees : Nat → Node α L A) : (n : Nat) → (l1 l2 : Ref) → l1.path.length ≤ n →
    (stateLoop trees l1 l2 ((ancestorsOf l1.path).map (⟨l1.tree, ·⟩)) ((ancestorsOf l2.path).map (⟨l2.tree, ·⟩)) = true ↔
      upLex (trees l1.tree) l1.path = upLex (trees l2.tree) l2.path)
  | n, ⟨t1, p1⟩, ⟨t2, p2⟩, hn => by
    simp only at hn ⊢
    rcases List.eq_nil_or_concat p1 with rfl | ⟨q1, i1, rfl⟩
    · have h0 : ancestorsOf [] = [] := rfl
      rcases List.eq_nil_or_concat p2 with rfl | ⟨q2, i2, rfl⟩
      · simp [h0, stateLoop, upLex]
      · simp only [h0, List.concat_eq_append, ancestorsOf_snoc, List.map_nil, stateLoop, upLex, List.map_cons]
        simp
    · rcases List.eq_nil_or_concat p2 with rfl | ⟨q2, i2, rfl⟩
      · have h0 : ancestorsOf [] = [] := rfl
        simp only [h0, List.concat_eq_append, ancestorsOf_snoc, List.map_nil, stateLoop, upLex, List.map_cons]
        simp
      · simp only [List.concat_eq_append, ancestorsOf_snoc, stateLoop, upLex, List.map_cons]
        split
        · next h =>
          cases h
          simp
        · split
          · next h =>
            simp only [Bool.false_eq_true, false_iff]
            intro he
            exact h (List.cons.inj he).1
          · next h =>
            have h' : lexAt (trees t1) q1 = lexAt (trees t2) q2 := Classical.not_not.1 h
            match n, hn with
            | 0, hn => simp at hn
            | n + 1, hn =>
              have ih := stateLoop_iff trees n ⟨t1, q1⟩ ⟨t2, q2⟩ (by simp at hn ⊢; omega)
              simp only at ih
              rw [ih, h']
              simp [upLex]

end Parce.Nd

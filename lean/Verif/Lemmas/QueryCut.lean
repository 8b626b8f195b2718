import Verif.Lemmas.Query
/-!
# Lemmas for deleting: slices and sorting
-/
namespace Parce
variable {α L A β : Type}

/-- The members of which the index is not in `S`. -/
def keepIdx (S : Nat → Bool) : Nat → List β → List β
  | _, [] => []
  | i, x :: xs => if S i then keepIdx S (i + 1) xs else x :: keepIdx S (i + 1) xs

theorem keepIdx_append (S : Nat → Bool) : (i : Nat) → (a b : List β) →
    keepIdx S i (a ++ b) = keepIdx S i a ++ keepIdx S (i + a.length) b
  | i, [], b => by simp [keepIdx]
  | i, x :: a, b => by
    simp only [List.cons_append, keepIdx, keepIdx_append S (i + 1) a b, List.length_cons]
    rw [show i + 1 + a.length = i + (a.length + 1) from by omega]
    split <;> simp

theorem keepIdx_none (S : Nat → Bool) : (i : Nat) → (a : List β) → (∀ j, i ≤ j → j < i + a.length → S j = false) →
    keepIdx S i a = a
  | _, [], _ => rfl
  | i, x :: a, h => by
    rw [keepIdx, h i (Nat.le_refl _) (by simp)]
    simp only [Bool.false_eq_true, if_false]
    rw [keepIdx_none S (i + 1) a (fun j h1 h2 => h j (by omega) (by simp; omega))]

theorem keepIdx_all (S : Nat → Bool) : (i : Nat) → (a : List β) → (∀ j, i ≤ j → j < i + a.length → S j = true) →
    keepIdx S i a = []
  | _, [], _ => rfl
  | i, x :: a, h => by
    rw [keepIdx, h i (Nat.le_refl _) (by simp)]
    simp only [if_true]
    exact keepIdx_all S (i + 1) a (fun j h1 h2 => h j (by omega) (by simp; omega))

theorem keepIdx_congr (S T : Nat → Bool) : (i : Nat) → (a : List β) → (∀ j, i ≤ j → j < i + a.length → S j = T j) →
    keepIdx S i a = keepIdx T i a
  | _, [], _ => rfl
  | i, x :: a, h => by
    rw [keepIdx, keepIdx, h i (Nat.le_refl _) (by simp),
      keepIdx_congr S T (i + 1) a (fun j h1 h2 => h j (by omega) (by simp; omega))]

/-- The index is in one of the slices. -/
def inSlices (sl : List (Nat × Nat)) (j : Nat) : Bool := sl.any (fun s => decide (s.1 ≤ j) && decide (j < s.2))

/-- The slices are below the bound and each slice is below the one before it. -/
def DescS : Nat → List (Nat × Nat) → Prop
  | _, [] => True
  | b, s :: r => s.1 ≤ s.2 ∧ s.2 ≤ b ∧ DescS s.1 r

theorem DescS.mono {a b : Nat} (h : a ≤ b) : {sl : List (Nat × Nat)} → DescS a sl → DescS b sl
  | [], _ => trivial
  | _ :: _, hs => ⟨hs.1, Nat.le_trans hs.2.1 h, hs.2.2⟩

theorem inSlices_bound : {b : Nat} → {sl : List (Nat × Nat)} → DescS b sl → ∀ j, b ≤ j → inSlices sl j = false
  | _, [], _, _, _ => rfl
  | b, s :: r, h, j, hj => by
    have := inSlices_bound h.2.2 j (by have := h.1; have := h.2.1; omega)
    simp only [inSlices, List.any_cons, Bool.or_eq_false_iff] at this ⊢
    refine ⟨?_, this⟩
    have := h.2.1
    simp; omega

theorem cutAll_append : (sl : List (Nat × Nat)) → (xs ys : List β) → DescS xs.length sl →
    cutAll sl (xs ++ ys) = keepIdx (inSlices sl) 0 xs ++ ys
  | [], xs, ys, _ => by
    rw [keepIdx_none (inSlices []) 0 xs (fun _ _ _ => rfl)]
    rfl
  | s :: r, xs, ys, h => by
    obtain ⟨h1, h2, h3⟩ := h
    have hcut : cutAll (s :: r) (xs ++ ys) = cutAll r (xs.take s.1 ++ (xs.drop s.2 ++ ys)) := by
      simp only [cutAll, List.foldl_cons]
      rw [List.take_append_of_le_length (by omega), List.drop_append_of_le_length h2]
    rw [hcut, cutAll_append r (xs.take s.1) _ (by rw [List.length_take, Nat.min_eq_left (by omega)]; exact h3), ← List.append_assoc]
    congr 1
    have hsplit : xs = xs.take s.1 ++ ((xs.drop s.1).take (s.2 - s.1) ++ xs.drop s.2) := by
      conv => lhs; rw [← List.take_append_drop s.1 xs, ← List.take_append_drop (s.2 - s.1) (xs.drop s.1), List.drop_drop]
      rw [show s.1 + (s.2 - s.1) = s.2 from by omega]
    have hl1 : (xs.take s.1).length = s.1 := by rw [List.length_take]; omega
    have hl2 : ((xs.drop s.1).take (s.2 - s.1)).length = s.2 - s.1 := by rw [List.length_take, List.length_drop]; omega
    conv => rhs; rw [hsplit]
    rw [keepIdx_append, keepIdx_append, hl1, hl2]
    rw [keepIdx_congr (inSlices (s :: r)) (inSlices r) 0 (xs.take s.1) (fun j _ hj => by
      simp only [inSlices, List.any_cons]
      have : decide (s.1 ≤ j) = false := by simp; omega
      rw [this]; simp)]
    rw [keepIdx_all _ _ ((xs.drop s.1).take (s.2 - s.1)) (fun j hj1 hj2 => by
      simp only [inSlices, List.any_cons]
      have e1 : decide (s.1 ≤ j) = true := by simp; omega
      have e2 : decide (j < s.2) = true := by simp; omega
      rw [e1, e2]; simp)]
    rw [keepIdx_none _ _ (xs.drop s.2) (fun j hj1 hj2 => by
      have e2 : decide (j < s.2) = false := by simp; omega
      have := inSlices_bound h3 j (by omega)
      simp only [inSlices, List.any_cons] at this ⊢
      rw [e2, this]; simp)]
    simp

theorem cutAll_eq (sl : List (Nat × Nat)) (xs : List β) (h : DescS xs.length sl) : cutAll sl xs = keepIdx (inSlices sl) 0 xs := by
  have := cutAll_append sl xs [] h
  simpa using this

theorem slicesLoop_spec {cs : List (Node α L A)} (hpi : ∀ j, j < cs.length → parentIndex cs j = j) : (ns : List Nat) →
    (i a : Nat) → (r : List (Nat × Nat)) → a ≤ i → i < cs.length → DescS a r → ns.Pairwise (· < ·) → (∀ n ∈ ns, i < n ∧ n < cs.length) →
    ∃ sl, slicesLoop cs i ((a, i + 1) :: r) ns = some sl ∧ DescS cs.length sl ∧
      ∀ j, (inSlices sl j = true ↔ inSlices ((a, i + 1) :: r) j = true ∨ j ∈ ns)
  | [], i, a, r, h1, h2, h3, _, _ => ⟨_, rfl, ⟨by simp; omega, by simp; omega, h3⟩, by simp⟩
  | n :: ns, i, a, r, h1, h2, h3, h4, h5 => by
    have hn := h5 n (by simp)
    rw [slicesLoop, if_neg (by omega)]
    rw [List.pairwise_cons] at h4
    by_cases he : n = i + 1
    · rw [if_pos he]
      obtain ⟨sl, e1, e2, e3⟩ := slicesLoop_spec hpi ns (i + 1) a r (by omega) (by omega) h3 h4.2
        (fun m hm => ⟨by have := h4.1 m hm; omega, (h5 m (by simp [hm])).2⟩)
      refine ⟨sl, e1, e2, fun j => ?_⟩
      rw [e3]
      simp only [inSlices, List.any_cons, Bool.or_eq_true, Bool.and_eq_true, decide_eq_true_eq, List.mem_cons]
      constructor
      · rintro ((h | h) | h)
        · by_cases hj : j = n
          · exact Or.inr (Or.inl hj)
          · exact Or.inl (Or.inl (by omega))
        · exact Or.inl (Or.inr h)
        · exact Or.inr (Or.inr h)
      · rintro ((h | h) | h | h)
        · exact Or.inl (Or.inl (by omega))
        · exact Or.inl (Or.inr h)
        · exact Or.inl (Or.inl (by omega))
        · exact Or.inr h
    · rw [if_neg he, hpi n hn.2]
      obtain ⟨sl, e1, e2, e3⟩ := slicesLoop_spec hpi ns n n ((a, i + 1) :: r) (Nat.le_refl _) hn.2 ⟨by simp; omega, by simp; omega, h3⟩ h4.2
        (fun m hm => ⟨h4.1 m hm, (h5 m (by simp [hm])).2⟩)
      refine ⟨sl, e1, e2, fun j => ?_⟩
      rw [e3]
      simp only [inSlices, List.any_cons, Bool.or_eq_true, Bool.and_eq_true, decide_eq_true_eq, List.mem_cons]
      constructor
      · rintro ((h | h) | h)
        · exact Or.inr (Or.inl (by omega))
        · exact Or.inl h
        · exact Or.inr (Or.inr h)
      · rintro (h | h | h)
        · exact Or.inl (Or.inr h)
        · exact Or.inl (Or.inl (by omega))
        · exact Or.inr h

theorem slicesOf_spec {cs : List (Node α L A)} (hpi : ∀ j, j < cs.length → parentIndex cs j = j) (ns : List Nat) (hne : ns ≠ [])
    (ha : ns.Pairwise (· < ·)) (hb : ∀ n ∈ ns, n < cs.length) :
    ∃ sl, slicesOf cs ns = some sl ∧ DescS cs.length sl ∧ ∀ j, (inSlices sl j = true ↔ j ∈ ns) := by
  cases ns with
  | nil => exact absurd rfl hne
  | cons n ns =>
    rw [List.pairwise_cons] at ha
    have hi : (if n = 0 then 0 else parentIndex cs n) = n := by
      split
      · next h => exact h.symm
      · exact hpi n (hb n (by simp))
    obtain ⟨sl, e1, e2, e3⟩ := slicesLoop_spec hpi ns n n [] (Nat.le_refl _) (hb n (by simp)) trivial ha.2
      (fun m hm => ⟨ha.1 m hm, hb m (by simp [hm])⟩)
    refine ⟨sl, ?_, e2, fun j => ?_⟩
    · simp only [slicesOf, hi]
      exact e1
    · rw [e3]
      simp only [inSlices, List.any_cons, List.any_nil, Bool.or_false, Bool.and_eq_true, decide_eq_true_eq, List.mem_cons]
      constructor
      · rintro (h | h)
        · exact Or.inl (by omega)
        · exact Or.inr h
      · rintro (h | h)
        · exact Or.inl (by omega)
        · exact Or.inr h

/-! ## Sorting -/

theorem insertBy_perm (key : Nat → Nat) (x : Nat) : (l : List Nat) → (insertBy key x l).Perm (x :: l)
  | [] => .refl _
  | y :: ys => by
    rw [insertBy]
    split
    · exact .refl _
    · exact ((insertBy_perm key x ys).cons y).trans (.swap x y ys)

theorem insertBy_sorted (key : Nat → Nat) (x : Nat) : (l : List Nat) → l.Pairwise (fun a b => key a ≤ key b) →
    (insertBy key x l).Pairwise (fun a b => key a ≤ key b)
  | [], _ => by simp [insertBy]
  | y :: ys, h => by
    rw [insertBy]
    rw [List.pairwise_cons] at h
    split
    · next hlt =>
      rw [List.pairwise_cons, List.pairwise_cons]
      refine ⟨?_, h⟩
      intro z hz
      rcases List.mem_cons.1 hz with rfl | hz
      · omega
      · have := h.1 z hz; omega
    · next hge =>
      rw [List.pairwise_cons]
      refine ⟨?_, insertBy_sorted key x ys h.2⟩
      intro z hz
      rcases List.mem_cons.1 ((insertBy_perm key x ys).mem_iff.1 hz) with rfl | hz
      · omega
      · exact h.1 z hz

theorem sort_fold (key : Nat → Nat) : (l acc : List Nat) → acc.Pairwise (fun a b => key a ≤ key b) →
    (l.foldl (fun acc x => insertBy key x acc) acc).Perm (l ++ acc) ∧
    (l.foldl (fun acc x => insertBy key x acc) acc).Pairwise (fun a b => key a ≤ key b)
  | [], acc, h => ⟨.refl _, h⟩
  | x :: l, acc, h => by
    obtain ⟨h1, h2⟩ := sort_fold key l (insertBy key x acc) (insertBy_sorted key x acc h)
    refine ⟨h1.trans ?_, h2⟩
    refine ((insertBy_perm key x acc).append_left l).trans ?_
    simp

theorem sortPos_spec {cs : List (Node α L A)} (hf : FullL cs) (ho : Ordered (toksL cs)) (l : List Nat) (hn : l.Nodup)
    (hb : ∀ i ∈ l, i < cs.length) : (sortPos cs l).Perm l ∧ (sortPos cs l).Pairwise (· < ·) := by
  obtain ⟨h1, h2⟩ := sort_fold (fun i => (cs[i]?.map Node.pos).getD 0) l [] List.Pairwise.nil
  rw [List.append_nil] at h1
  refine ⟨h1, ?_⟩
  have hn' : (sortPos cs l).Nodup := h1.symm.nodup hn
  refine (List.Pairwise.and h2 hn').imp_of_mem ?_
  rintro a b ha hb' ⟨hle, hne⟩
  have ha2 := hb a (h1.mem_iff.1 ha)
  have hb2 := hb b (h1.mem_iff.1 hb')
  have hp := pos_lt hf ho (List.getElem?_eq_getElem hb2) (List.getElem?_eq_getElem ha2)
  simp only [List.getElem?_eq_getElem ha2, List.getElem?_eq_getElem hb2, Option.map_some, Option.getD_some] at hle
  have : ¬ b < a := fun h => by have := hp.2 h; omega
  omega

end Parce

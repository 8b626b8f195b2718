import Verif.Spec.Edit
namespace Parce
variable {α : Type}

theorem flatMap_congr' {β γ : Type} {l : List β} {f g : β → List γ} (h : ∀ a ∈ l, f a = g a) :
    l.flatMap f = l.flatMap g := by
  induction l with
  | nil => rfl
  | cons a l ih =>
    rw [List.flatMap_cons, List.flatMap_cons, h a (by simp), ih (fun b hb => h b (by simp [hb]))]

theorem mem_insertKey (n m : Nat) (l : List Nat) : m ∈ insertKey n l ↔ m = n ∨ m ∈ l := by
  induction l with
  | nil => simp [insertKey]
  | cons a l ih =>
    simp only [insertKey]
    split
    · simp
    · split
      · subst_vars; simp
      · simp only [List.mem_cons, ih]; grind

theorem pairwise_insertKey (n : Nat) (l : List Nat) (h : l.Pairwise (· < ·)) :
    (insertKey n l).Pairwise (· < ·) := by
  induction l with
  | nil => simp [insertKey]
  | cons a l ih =>
    simp only [insertKey]
    rw [List.pairwise_cons] at h
    split
    · rename_i hlt
      rw [List.pairwise_cons]
      refine ⟨?_, List.pairwise_cons.2 h⟩
      intro b hb
      rcases List.mem_cons.1 hb with rfl | hb
      · exact hlt
      · exact Nat.lt_trans hlt (h.1 b hb)
    · split
      · exact List.pairwise_cons.2 h
      · rw [List.pairwise_cons]
        refine ⟨?_, ih h.2⟩
        intro b hb
        rw [mem_insertKey] at hb
        rcases hb with rfl | hb
        · omega
        · exact h.1 b hb

theorem mem_sortedKeys (m : Nat) (l : List Nat) : m ∈ sortedKeys l ↔ m ∈ l := by
  induction l with
  | nil => simp [sortedKeys]
  | cons a l ih => simp [sortedKeys, mem_insertKey, ih]

theorem pairwise_sortedKeys (l : List Nat) : (sortedKeys l).Pairwise (· < ·) := by
  induction l with
  | nil => simp [sortedKeys]
  | cons a l ih => exact pairwise_insertKey _ _ ih

/-- Two strictly sorted lists with the same members are equal. -/
theorem sorted_ext : ∀ (l l' : List Nat), l.Pairwise (· < ·) → l'.Pairwise (· < ·) →
    (∀ x, x ∈ l ↔ x ∈ l') → l = l'
  | [], [], _, _, _ => rfl
  | [], b :: l', _, _, h => by simpa using h b
  | a :: l, [], _, _, h => by simpa using h a
  | a :: l, b :: l', h1, h2, h => by
    rw [List.pairwise_cons] at h1 h2
    have hab : a = b := by
      have h3 := (h a).1 (by simp)
      have h4 := (h b).2 (by simp)
      rcases List.mem_cons.1 h3 with h3 | h3
      · exact h3
      · rcases List.mem_cons.1 h4 with h4 | h4
        · exact h4.symm
        · have := h1.1 _ h4; have := h2.1 _ h3; omega
    subst hab
    congr 1
    refine sorted_ext l l' h1.2 h2.2 fun x => ?_
    have := h x
    simp only [List.mem_cons] at this
    constructor
    · intro hx
      have h5 := this.1 (Or.inr hx)
      have := h1.1 x hx
      rcases h5 with h5 | h5
      · omega
      · exact h5
    · intro hx
      have h5 := this.2 (Or.inr hx)
      have := h2.1 x hx
      rcases h5 with h5 | h5
      · omega
      · exact h5

/-- The merged change for one start position. -/
def merged (p : List (Change α)) (s : Nat) : Change α :=
  ⟨s, maxStop (p.filter (fun r => r.start == s)),
    (p.filter (fun r => r.start == s)).flatMap (fun r => r.text)⟩

theorem getChangesLoop_eq (p : List (Change α)) : ∀ (ss : List Nat) (e : Nat),
    ss.Pairwise (· < ·) →
    getChangesLoop p e ss =
      if (∀ s ∈ ss, e ≤ s) ∧ (∀ s ∈ ss, ∀ s' ∈ ss, s < s' → (merged p s).stop ≤ s')
      then some (ss.map (merged p)) else none
  | [], e, _ => by simp [getChangesLoop]
  | s :: ss, e, h => by
    rw [List.pairwise_cons] at h
    simp only [getChangesLoop]
    rw [getChangesLoop_eq p ss _ h.2]
    by_cases hse : s < e
    · rw [if_pos hse, if_neg]
      rintro ⟨h1, _⟩
      have := h1 s (by simp)
      omega
    · rw [if_neg hse]
      by_cases hc : (∀ s' ∈ ss, (merged p s).stop ≤ s') ∧
          (∀ s ∈ ss, ∀ s' ∈ ss, s < s' → (merged p s).stop ≤ s')
      · have hc' : (∀ s' ∈ ss, maxStop (p.filter (fun r => r.start == s)) ≤ s') ∧
          (∀ s ∈ ss, ∀ s' ∈ ss, s < s' → (merged p s).stop ≤ s') := hc
        rw [if_pos hc', if_pos]
        · simp [merged]
        · constructor
          · intro x hx
            rcases List.mem_cons.1 hx with rfl | hx
            · omega
            · have := h.1 x hx; omega
          · intro x hx y hy hxy
            rcases List.mem_cons.1 hx with rfl | hx
            · rcases List.mem_cons.1 hy with rfl | hy
              · omega
              · exact hc.1 y hy
            · rcases List.mem_cons.1 hy with h9 | hy
              · have := h.1 x hx; omega
              · exact hc.2 x hx y hy hxy
      · rw [if_neg, if_neg]
        · rfl
        · rintro ⟨_, h2⟩
          apply hc
          constructor
          · intro y hy
            exact h2 s (by simp) y (by simp [hy]) (h.1 y hy)
          · intro x hx y hy hxy
            exact h2 x (by simp [hx]) y (by simp [hy]) hxy
        · exact hc

theorem le_maxStop (l : List (Change α)) (r : Change α) (h : r ∈ l) : r.stop ≤ maxStop l := by
  induction l with
  | nil => simp at h
  | cons a l ih =>
    simp only [maxStop]
    rcases List.mem_cons.1 h with rfl | h
    · omega
    · have := ih h; omega

theorem maxStop_mem (l : List (Change α)) (h : l ≠ []) : ∃ r ∈ l, r.stop = maxStop l := by
  induction l with
  | nil => simp at h
  | cons a l ih =>
    simp only [maxStop]
    by_cases hl : l = []
    · subst hl; exact ⟨a, by simp, by simp [maxStop]⟩
    · obtain ⟨r, hr, h2⟩ := ih hl
      by_cases ha : a.stop ≤ maxStop l
      · exact ⟨r, by simp [hr], by omega⟩
      · exact ⟨a, by simp, by omega⟩

theorem merged_stop_le (p : List (Change α)) (s n : Nat) :
    (merged p s).stop ≤ n ↔ ∀ r ∈ p, r.start = s → r.stop ≤ n := by
  constructor
  · intro h r hr hs
    have := le_maxStop (p.filter (fun r => r.start == s)) r (by simp [hr, hs])
    simp only [merged] at h
    omega
  · intro h
    simp only [merged]
    by_cases he : p.filter (fun r => r.start == s) = []
    · rw [he]; simp [maxStop]
    · obtain ⟨r, hr, h2⟩ := maxStop_mem _ he
      rw [← h2]
      simp only [List.mem_filter, beq_iff_eq] at hr
      exact h r hr.1 hr.2

/-- Acceptance is exactly the independent non-overlap condition. -/
theorem getChanges_eq (p : List (Change α)) :
    (NonOverlapping p → getChanges p = some ((sortedKeys (p.map (·.start))).map (merged p))) ∧
    (¬ NonOverlapping p → getChanges p = none) := by
  have hs := pairwise_sortedKeys (p.map (·.start))
  have hcond : ((∀ s ∈ sortedKeys (p.map (·.start)), (sortedKeys (p.map (·.start))).headD 0 ≤ s) ∧
      (∀ s ∈ sortedKeys (p.map (·.start)), ∀ s' ∈ sortedKeys (p.map (·.start)), s < s' →
        (merged p s).stop ≤ s')) ↔ NonOverlapping p := by
    constructor
    · rintro ⟨_, h⟩ r hr r' hr' hlt
      have := h r.start (by rw [mem_sortedKeys]; exact List.mem_map_of_mem hr) r'.start
        (by rw [mem_sortedKeys]; exact List.mem_map_of_mem hr') hlt
      rw [merged_stop_le] at this
      exact this r hr rfl
    · intro h
      constructor
      · intro s hsm
        generalize sortedKeys (p.map (·.start)) = l at *
        cases l with
        | nil => simp at hsm
        | cons a l =>
          simp only [List.headD_cons]
          rcases List.mem_cons.1 hsm with rfl | hsm
          · exact Nat.le_refl _
          · exact Nat.le_of_lt ((List.pairwise_cons.1 hs).1 s hsm)
      · intro s hsm s' hsm' hlt
        rw [merged_stop_le]
        intro r hr hrs
        rw [mem_sortedKeys, List.mem_map] at hsm'
        obtain ⟨r', hr', rfl⟩ := hsm'
        exact h r hr r' hr' (by omega)
  constructor
  · intro h
    unfold getChanges
    rw [getChangesLoop_eq _ _ _ hs, if_pos (hcond.2 h)]
  · intro h
    unfold getChanges
    rw [getChangesLoop_eq _ _ _ hs, if_neg (fun h' => h (hcond.1 h'))]

/-! ### updateFrom against the position-wise specification -/

/-- Contribution of position `i`. -/
def contrib (t : List α) (cs : List (Change α)) (i : Nat) : List α :=
  (cs.filter (fun r => r.start == i)).flatMap (fun r => r.text) ++
    (if cs.any (fun r => decide (r.start ≤ i ∧ i < r.stop)) then [] else t[i]?.toList)

theorem splice_eq (t : List α) (cs : List (Change α)) :
    splice t cs = (List.range (t.length + 1)).flatMap (contrib t cs) := rfl

/-- Sorted, disjoint, in range: what `_get_changes` yields. -/
inductive Chain (n : Nat) : Nat → List (Change α) → Prop
  | nil (k) : k ≤ n → Chain n k []
  | cons (k c cs) : k ≤ c.start → c.start ≤ c.stop → c.stop ≤ n →
      Chain n c.stop cs → Chain n k (c :: cs)

theorem Chain.le {n k : Nat} {cs : List (Change α)} (h : Chain n k cs) : k ≤ n := by
  induction h with
  | nil k h => exact h
  | cons k c cs h1 h2 h3 _ ih => omega

theorem Chain.start_ge {n k : Nat} {cs : List (Change α)} (h : Chain n k cs) :
    ∀ c ∈ cs, k ≤ c.start := by
  induction h with
  | nil k h => simp
  | cons k c cs h1 h2 h3 _ ih =>
    intro d hd
    rcases List.mem_cons.1 hd with rfl | hd
    · exact h1
    · have := ih d hd; omega

theorem flatMap_range'_getElem (t : List α) : ∀ (k a : Nat), a + k ≤ t.length →
    (List.range' a k).flatMap (fun i => t[i]?.toList) = slice t a (a + k)
  | 0, a, h => by simp [slice]
  | k + 1, a, h => by
    rw [List.range'_succ, List.flatMap_cons, flatMap_range'_getElem t k (a + 1) (by omega)]
    have ha : a < t.length := by omega
    simp only [slice]
    rw [List.getElem?_eq_getElem ha]
    conv => rhs; rw [List.drop_eq_getElem_cons (by rw [List.length_take]; omega)]
    simp only [List.getElem_take, Option.toList_some, List.singleton_append]
    have : a + 1 + k = a + (k + 1) := by omega
    rw [this]

theorem flatMap_range'_congr {β : Type} (f g : Nat → List β) (a k : Nat)
    (h : ∀ i, a ≤ i → i < a + k → f i = g i) :
    (List.range' a k).flatMap f = (List.range' a k).flatMap g := by
  apply flatMap_congr'
  intro i hi
  rw [List.mem_range'_1] at hi
  exact h i hi.1 hi.2

theorem flatMap_range'_split {β : Type} (f : Nat → List β) (a b n : Nat) (h : a ≤ b) (h2 : b ≤ n) :
    (List.range' a (n - a)).flatMap f =
      (List.range' a (b - a)).flatMap f ++ (List.range' b (n - b)).flatMap f := by
  have : List.range' a (n - a) = List.range' a (b - a) ++ List.range' b (n - b) := by
    have h3 := List.range'_append_1 (s := a) (m := b - a) (n := n - b)
    rw [show a + (b - a) = b by omega, show b - a + (n - b) = n - a by omega] at h3
    exact h3.symm
  rw [this, List.flatMap_append]

theorem flatMap_range'_nil {β : Type} (f : Nat → List β) (a k : Nat)
    (h : ∀ i, a ≤ i → i < a + k → f i = []) : (List.range' a k).flatMap f = [] := by
  rw [List.flatMap_eq_nil_iff]
  intro i hi
  rw [List.mem_range'_1] at hi
  exact h i hi.1 hi.2

theorem contrib_cons (t : List α) (c : Change α) (cs : List (Change α)) (i : Nat) :
    contrib t (c :: cs) i = (if c.start = i then c.text else []) ++
      (cs.filter (fun r => r.start == i)).flatMap (fun r => r.text) ++
      (if (c.start ≤ i ∧ i < c.stop) ∨ cs.any (fun r => decide (r.start ≤ i ∧ i < r.stop)) = true
        then [] else t[i]?.toList) := by
  unfold contrib
  simp only [List.filter_cons, List.any_cons, Bool.or_eq_true, decide_eq_true_eq]
  by_cases h : c.start = i
  · simp [h]
  · simp [h]

theorem updateFrom_eq (t : List α) {k : Nat} {cs : List (Change α)} (h : Chain t.length k cs) :
    updateFrom t k cs = (List.range' k (t.length + 1 - k)).flatMap (contrib t cs) := by
  induction h with
  | nil k h =>
    have : (contrib t ([] : List (Change α))) = fun i => t[i]?.toList := by
      funext i; simp [contrib]
    rw [this, flatMap_range'_split _ k t.length _ h (by omega),
      flatMap_range'_getElem t _ _ (by omega)]
    simp only [updateFrom]
    rw [show t.length + 1 - t.length = 1 by omega]
    simp [slice, show k + (t.length - k) = t.length by omega]
  | cons k c cs h1 h2 h3 h5 ih =>
    have hge := h5.start_ge
    simp only [updateFrom]
    rw [flatMap_range'_split _ k c.start _ h1 (by omega)]
    have e1 : (List.range' k (c.start - k)).flatMap (contrib t (c :: cs)) =
        (if c.start > k then slice t k c.start else []) := by
      rw [flatMap_range'_congr _ (fun i => t[i]?.toList)]
      · rw [flatMap_range'_getElem t _ _ (by omega), show k + (c.start - k) = c.start by omega]
        split
        · rfl
        · rw [slice, List.drop_eq_nil_iff, List.length_take]; omega
      · intro i hi1 hi2
        rw [contrib_cons, if_neg (by omega), if_neg]
        · rw [List.filter_eq_nil_iff.2]
          · simp
          · intro d hd
            have := hge d hd
            simp; omega
        · rintro (⟨h6, _⟩ | h6)
          · omega
          · rw [List.any_eq_true] at h6
            obtain ⟨d, hd, h6⟩ := h6
            have := hge d hd
            simp at h6; omega
    rw [e1, List.append_assoc]
    congr 1
    rw [ih]
    -- the head position
    rw [show t.length + 1 - c.start = (t.length - c.start) + 1 by omega, List.range'_succ,
      List.flatMap_cons]
    have e3 : ∀ i, c.stop ≤ i → c.start < i → contrib t (c :: cs) i = contrib t cs i := by
      intro i hi1 hi2
      rw [contrib_cons, if_neg (by omega)]
      unfold contrib
      simp only [List.nil_append]
      congr 2
      simp; omega
    by_cases hcs : c.start = c.stop
    · rw [← hcs, show t.length + 1 - c.start = (t.length - c.start) + 1 by omega, List.range'_succ,
        List.flatMap_cons]
      rw [flatMap_range'_congr (contrib t (c :: cs)) (contrib t cs) (c.start + 1)]
      · rw [← List.append_assoc]
        congr 1
        rw [contrib_cons, if_pos rfl]
        unfold contrib
        simp only [List.append_assoc]
        congr 3
        simp; omega
      · intro i hi _
        exact e3 i (by omega) (by omega)
    · have e4 : contrib t (c :: cs) c.start = c.text := by
        rw [contrib_cons, if_pos rfl, if_pos (Or.inl ⟨by omega, by omega⟩)]
        rw [List.filter_eq_nil_iff.2]
        · simp
        · intro d hd
          have := hge d hd
          simp; omega
      rw [e4]
      congr 1
      have := flatMap_range'_split (contrib t (c :: cs)) (c.start + 1) c.stop (t.length + 1)
        (by omega) (by omega)
      rw [show t.length + 1 - (c.start + 1) = t.length - c.start by omega] at this
      rw [this, flatMap_range'_nil (contrib t (c :: cs)) (c.start + 1), List.nil_append]
      · apply flatMap_range'_congr
        intro i hi _
        exact (e3 i (by omega) (by omega)).symm
      · intro i hi1 hi2
        rw [contrib_cons, if_neg (by omega), if_pos (Or.inl ⟨by omega, by omega⟩)]
        rw [List.filter_eq_nil_iff.2]
        · simp
        · intro d hd
          have := hge d hd
          simp; omega

/-- The merged changes form a chain. -/
theorem chain_merged {n : Nat} (p : List (Change α)) (hv : ∀ r ∈ p, ValidReq n r) :
    ∀ (ss : List Nat) (k : Nat), k ≤ n → ss.Pairwise (· < ·) → (∀ s ∈ ss, k ≤ s) →
    (∀ s ∈ ss, ∃ r ∈ p, r.start = s) →
    (∀ s ∈ ss, ∀ s' ∈ ss, s < s' → (merged p s).stop ≤ s') →
    Chain n k (ss.map (merged p))
  | [], k, hk, _, _, _, _ => Chain.nil k hk
  | s :: ss, k, hk, h1, h2, h3, h4 => by
    rw [List.pairwise_cons] at h1
    obtain ⟨r, hr, hrs⟩ := h3 s (by simp)
    have h5 := (merged_stop_le p s n).2 (fun r hr _ => (hv r hr).2)
    have h6 := (merged_stop_le p s _).1 (Nat.le_refl _) r hr hrs
    have h7 := (hv r hr).1
    refine Chain.cons _ _ _ ?_ ?_ h5 ?_
    · exact h2 s (by simp)
    · show s ≤ _
      omega
    · refine chain_merged p hv ss _ h5 h1.2 ?_ ?_ ?_
      · intro s' hs'
        exact h4 s (by simp) s' (by simp [hs']) (h1.1 s' hs')
      · intro s' hs'; exact h3 s' (by simp [hs'])
      · intro x hx y hy; exact h4 x (by simp [hx]) y (by simp [hy])

theorem chain_of_nonOverlapping {n : Nat} (p : List (Change α)) (hv : ∀ r ∈ p, ValidReq n r)
    (h : NonOverlapping p) : Chain n 0 ((sortedKeys (p.map (·.start))).map (merged p)) := by
  refine chain_merged p hv _ 0 (by omega) (pairwise_sortedKeys _) (by simp) ?_ ?_
  · intro s hs
    rw [mem_sortedKeys, List.mem_map] at hs
    exact hs
  · intro s hs s' hs' hlt
    rw [merged_stop_le]
    intro r hr hrs
    rw [mem_sortedKeys, List.mem_map] at hs'
    obtain ⟨r', hr', rfl⟩ := hs'
    exact h r hr r' hr' (by omega)

theorem flatMap_filter_sorted {p : List (Change α)} (i : Nat) : ∀ (ss : List Nat),
    ss.Pairwise (· < ·) →
    ((ss.map (merged p)).filter (fun r => r.start == i)).flatMap (fun r => r.text) =
      if i ∈ ss then (merged p i).text else []
  | [], _ => by simp
  | s :: ss, h => by
    rw [List.pairwise_cons] at h
    simp only [List.map_cons, List.filter_cons]
    have ih := flatMap_filter_sorted (p := p) i ss h.2
    by_cases hs : s = i
    · subst hs
      have : s ∉ ss := fun hm => by have := h.1 s hm; omega
      rw [if_neg this] at ih
      simp only [merged, beq_self_eq_true, if_true, List.flatMap_cons, List.mem_cons, true_or]
      rw [ih]; simp
    · have h8 : ((merged p s).start == i) = false := by simp [merged, hs]
      rw [h8]
      simp only [Bool.false_eq_true, if_false]
      rw [ih]
      simp [Ne.symm hs]

theorem contrib_merged (t : List α) (p : List (Change α)) (i : Nat) :
    contrib t ((sortedKeys (p.map (·.start))).map (merged p)) i = contrib t p i := by
  unfold contrib
  rw [flatMap_filter_sorted i _ (pairwise_sortedKeys _)]
  congr 1
  · simp only [mem_sortedKeys]
    split
    · rfl
    · rename_i hn
      rw [List.filter_eq_nil_iff.2]
      · rfl
      · intro r hr
        simp only [beq_iff_eq]
        intro hri
        exact hn (List.mem_map.2 ⟨r, hr, hri⟩)
  · have : (List.map (merged p) (sortedKeys (p.map (·.start)))).any
        (fun r => decide (r.start ≤ i ∧ i < r.stop)) =
        p.any (fun r => decide (r.start ≤ i ∧ i < r.stop)) := by
      rw [Bool.eq_iff_iff, List.any_eq_true, List.any_eq_true]
      constructor
      · rintro ⟨c, hc, h1⟩
        rw [List.mem_map] at hc
        obtain ⟨s, hs, rfl⟩ := hc
        rw [mem_sortedKeys, List.mem_map] at hs
        obtain ⟨r0, hr0, hr0s⟩ := hs
        simp only [decide_eq_true_eq] at h1
        have hne : p.filter (fun r => r.start == s) ≠ [] := by
          intro h2
          rw [List.filter_eq_nil_iff] at h2
          exact h2 r0 hr0 (by simp [hr0s])
        obtain ⟨r, hr, h2⟩ := maxStop_mem _ hne
        simp only [List.mem_filter, beq_iff_eq] at hr
        refine ⟨r, hr.1, ?_⟩
        simp only [merged] at h1
        simp only [decide_eq_true_eq]
        omega
      · rintro ⟨r, hr, h1⟩
        simp only [decide_eq_true_eq] at h1
        refine ⟨merged p r.start, List.mem_map.2 ⟨r.start, ?_, rfl⟩, ?_⟩
        · rw [mem_sortedKeys]; exact List.mem_map_of_mem hr
        · have := (merged_stop_le p r.start _).1 (Nat.le_refl _) r hr rfl
          simp only [decide_eq_true_eq]
          simp only [merged] at this ⊢
          omega
    rw [this]

theorem updateText_merged (t : List α) (p : List (Change α)) (hv : ∀ r ∈ p, ValidReq t.length r)
    (h : NonOverlapping p) :
    updateText t ((sortedKeys (p.map (·.start))).map (merged p)) = splice t p := by
  unfold updateText
  rw [updateFrom_eq t (chain_of_nonOverlapping p hv h), splice_eq, List.range_eq_range']
  apply flatMap_congr'
  intro i _
  exact contrib_merged t p i

end Parce

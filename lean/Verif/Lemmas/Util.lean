import Verif.Spec.Util
/-!
# Lemmas for Util
-/
namespace Parce
variable {R β : Type}

theorem asc_mono {a b : Nat} {rs : List (Rg R)} (h : Asc b rs) (hab : a ≤ b) : Asc a rs := by
  cases rs with
  | nil => trivial
  | cons r rs => exact ⟨by have := h.1; omega, h.2.1, h.2.2⟩

theorem inRg_cons {r : Rg R} {rs : List (Rg R)} {p : Nat} {v : R} :
    InRg (r :: rs) p v ↔ (r.pos ≤ p ∧ p < r.stop ∧ r.rest = v) ∨ InRg rs p v := by
  simp only [InRg, List.mem_cons]
  constructor
  · rintro ⟨x, rfl | hx, h⟩
    · exact Or.inl h
    · exact Or.inr ⟨x, hx, h⟩
  · rintro (h | ⟨x, hx, h⟩)
    · exact ⟨r, Or.inl rfl, h⟩
    · exact ⟨x, Or.inr hx, h⟩

theorem mergeLoop_spec [DecidableEq R] (rs : List (Rg R)) : ∀ (a pos stop : Nat) (rest : R), a ≤ pos → pos ≤ stop →
    Asc stop rs →
    Asc a (mergeLoop pos stop rest rs) ∧
    (∀ p v, InRg (mergeLoop pos stop rest rs) p v ↔ InRg (⟨pos, stop, rest⟩ :: rs) p v) ∧
    Merged (mergeLoop pos stop rest rs) ∧
    (∃ e tl, mergeLoop pos stop rest rs = ⟨pos, e, rest⟩ :: tl) := by
  induction rs with
  | nil =>
    intro a pos stop rest h1 h2 _
    exact ⟨⟨h1, h2, trivial⟩, fun p v => Iff.rfl, trivial, stop, [], rfl⟩
  | cons n s ih =>
    intro a pos stop rest h1 h2 h3
    obtain ⟨g1, g2, g3⟩ := h3
    unfold mergeLoop
    by_cases h : n.rest ≠ rest ∨ n.pos > stop
    · rw [if_pos h]
      obtain ⟨i1, i2, i3, e, tl, i4⟩ := ih stop n.pos n.stop n.rest g1 g2 g3
      refine ⟨⟨h1, h2, i1⟩, ?_, ?_, stop, _, rfl⟩
      · intro p v
        rw [inRg_cons, i2, ← inRg_cons]
      · rw [i4] at i3 ⊢
        refine ⟨?_, i3⟩
        rintro ⟨h4, h5⟩
        rcases h with h | h
        · exact h h5.symm
        · simp only at h4; omega
    · rw [if_neg h]
      have h' : n.rest = rest ∧ n.pos = stop := by
        constructor
        · exact Decidable.byContradiction (fun hc => h (Or.inl hc))
        · exact Nat.le_antisymm (Nat.le_of_not_lt (fun hc => h (Or.inr hc))) g1
      obtain ⟨i1, i2, i3, i4⟩ := ih a pos n.stop rest h1 (by omega) g3
      refine ⟨i1, ?_, i3, i4⟩
      intro p v
      rw [i2, inRg_cons, inRg_cons, inRg_cons]
      obtain ⟨h5, h6⟩ := h'
      rw [h5, h6]
      simp only
      constructor
      · rintro (⟨q1, q2, q3⟩ | q)
        · by_cases hp : p < stop
          · exact Or.inl ⟨q1, hp, q3⟩
          · exact Or.inr (Or.inl ⟨by omega, q2, q3⟩)
        · exact Or.inr (Or.inr q)
      · rintro (⟨q1, q2, q3⟩ | ⟨q1, q2, q3⟩ | q)
        · exact Or.inl ⟨q1, by omega, q3⟩
        · exact Or.inl ⟨by omega, q2, q3⟩
        · exact Or.inr q

/-- The part of `fix_boundaries` after the first item. -/
theorem fixTail_spec (e : Nat) (s : List (Rg R)) : ∀ (a : Nat) (i : Rg R), a ≤ i.pos → i.pos ≤ i.stop → Asc i.stop s →
    i.pos < e → (∀ r ∈ s, r.pos < e) →
    Asc a (fixTail (some e) i s) ∧ (∀ r ∈ fixTail (some e) i s, r.stop ≤ e) ∧
    ∀ p v, InRg (fixTail (some e) i s) p v ↔ InRg (i :: s) p v ∧ p < e := by
  induction s with
  | nil =>
    intro a i h1 h2 _ h4 _
    unfold fixTail
    simp only
    split
    · refine ⟨⟨h1, by simp only; omega, trivial⟩, by simp, ?_⟩
      intro p v
      simp only [InRg, List.mem_singleton, exists_eq_left]
      constructor
      · rintro ⟨q1, q2, q3⟩; exact ⟨⟨q1, by omega, q3⟩, q2⟩
      · rintro ⟨⟨q1, q2, q3⟩, q4⟩; exact ⟨q1, q4, q3⟩
    · refine ⟨⟨h1, h2, trivial⟩, by simp only [List.mem_singleton]; rintro r rfl; omega, ?_⟩
      intro p v
      simp only [InRg, List.mem_singleton, exists_eq_left]
      constructor
      · rintro ⟨q1, q2, q3⟩; exact ⟨⟨q1, q2, q3⟩, by omega⟩
      · rintro ⟨q, _⟩; exact q
  | cons j s ih =>
    intro a i h1 h2 h3 h4 h5
    obtain ⟨g1, g2, g3⟩ := h3
    have hj := h5 j (by simp)
    obtain ⟨i1, i2, i3⟩ := ih i.stop j g1 g2 g3 hj (fun r hr => h5 r (by simp [hr]))
    refine ⟨⟨h1, h2, i1⟩, ?_, ?_⟩
    · intro r hr
      rcases List.mem_cons.1 hr with rfl | hr
      · omega
      · exact i2 r hr
    · intro p v
      show InRg (i :: fixTail (some e) j s) p v ↔ _
      rw [inRg_cons, i3, inRg_cons (r := i)]
      constructor
      · rintro (⟨q1, q2, q3⟩ | ⟨q1, q2⟩)
        · exact ⟨Or.inl ⟨q1, q2, q3⟩, by omega⟩
        · exact ⟨Or.inr q1, q2⟩
      · rintro ⟨q1 | q1, q2⟩
        · exact Or.inl q1
        · exact Or.inr ⟨q1, q2⟩

theorem fixTail_none (i : Rg R) (s : List (Rg R)) : fixTail none i s = i :: s := by
  induction s generalizing i with
  | nil => rfl
  | cons j s ih => rw [fixTail, ih]

theorem asc_mem {a : Nat} {rs : List (Rg R)} (h : Asc a rs) : ∀ r ∈ rs, a ≤ r.pos ∧ r.pos ≤ r.stop := by
  induction rs generalizing a with
  | nil => simp
  | cons x rs ih =>
    intro r hr
    rcases List.mem_cons.1 hr with rfl | hr
    · exact ⟨h.1, h.2.1⟩
    · have := ih h.2.2 r hr
      have h1 := h.1
      have h2 := h.2.1
      omega

theorem indexFrom_some [DecidableEq β] {l : List β} {sep : β} {i j : Nat} (h : indexFrom l sep i = some j) :
    i ≤ j ∧ l[j]? = some sep ∧ ∀ k, i ≤ k → k < j → l[k]? ≠ some sep := by
  unfold indexFrom at h
  obtain ⟨h1, as, bs, h2, h3⟩ := List.find?_eq_some_iff_append.1 h
  have hj : ∃ k, k = as.length ∧ i + k = j ∧ j < l.length := by
    have hlt : as.length < ((List.range l.length).drop i).length := by rw [h2]; simp
    have := congrArg (fun x => x[as.length]?) h2
    simp only [List.getElem?_drop, List.getElem?_append_right (Nat.le_refl _), Nat.sub_self, List.getElem?_cons_zero] at this
    rw [List.getElem?_range (by simp at hlt; omega)] at this
    simp at hlt
    exact ⟨_, rfl, Option.some.inj this, by have := Option.some.inj this; omega⟩
  obtain ⟨k, rfl, hk, hl⟩ := hj
  refine ⟨by omega, of_decide_eq_true h1, ?_⟩
  intro m hm1 hm2
  have hmem : m ∈ as := by
    have := congrArg (fun x => x[m - i]?) h2
    simp only [List.getElem?_drop] at this
    rw [List.getElem?_range (by omega), List.getElem?_append_left (by omega)] at this
    rw [show i + (m - i) = m from by omega] at this
    exact List.mem_of_getElem? this.symm
  have := h3 m hmem
  simpa using this

theorem indexFrom_none [DecidableEq β] {l : List β} {sep : β} {i : Nat} (h : indexFrom l sep i = none) :
    sep ∉ l.drop i := by
  unfold indexFrom at h
  intro hm
  obtain ⟨k, hk, he⟩ := List.mem_drop_iff_getElem.1 hm
  have := List.find?_eq_none.1 h (i + k) (by
    rw [List.mem_drop_iff_getElem]
    exact ⟨k, by simpa using hk, by simp⟩)
  simp only [decide_eq_true_eq] at this
  exact this (by rw [List.getElem?_eq_getElem (by omega)]; simpa [Nat.add_comm] using he)

theorem splitLoop_spec [DecidableEq β] (l : List β) (sep : β) : ∀ (fuel i : Nat), i ≤ l.length → l.length - i < fuel →
    joinSep sep (splitLoop l sep fuel i) = l.drop i ∧ (∀ p ∈ splitLoop l sep fuel i, sep ∉ p) ∧
    splitLoop l sep fuel i ≠ [] ∧ (splitLoop l sep fuel i).length = (l.drop i).count sep + 1 := by
  intro fuel
  induction fuel with
  | zero => intro i _ h; omega
  | succ fuel ih =>
    intro i hi h
    unfold splitLoop
    cases hx : indexFrom l sep i with
    | none =>
      have := indexFrom_none hx
      refine ⟨rfl, by simpa using this, by simp, ?_⟩
      simp [List.count_eq_zero.2 this]
    | some j =>
      obtain ⟨g1, g2, g3⟩ := indexFrom_some hx
      obtain ⟨g4, g5⟩ := List.getElem?_eq_some_iff.1 g2
      obtain ⟨i1, i2, i3, i4⟩ := ih (j + 1) (by omega) (by omega)
      simp only
      have hno : sep ∉ (l.take j).drop i := by
        intro hm
        obtain ⟨k, hk, he⟩ := List.mem_drop_iff_getElem.1 hm
        simp only [List.length_take] at hk
        apply g3 (i + k) (by omega) (by omega)
        rw [List.getElem?_eq_getElem (by omega)]
        rw [List.getElem_take] at he
        simpa [Nat.add_comm] using he
      have hsplit : l.drop i = (l.take j).drop i ++ sep :: l.drop (j + 1) := by
        have h1 : l = l.take j ++ sep :: l.drop (j + 1) := by
          rw [← g5, ← List.drop_eq_getElem_cons g4, List.take_append_drop]
        have h2 := congrArg (List.drop i) h1
        rw [h2, List.drop_append_of_le_length (by simp; omega)]
      refine ⟨?_, ?_, by simp, ?_⟩
      · cases hs : splitLoop l sep fuel (j + 1) with
        | nil => exact absurd hs i3
        | cons q qs =>
          rw [joinSep, ← hs, i1, hsplit]
      · intro p hp
        rcases List.mem_cons.1 hp with rfl | hp
        · exact hno
        · exact i2 p hp
      · rw [List.length_cons, i4, hsplit, List.count_append, List.count_cons_self, List.count_eq_zero.2 hno]
        omega

theorem unrollLoop_spec : ∀ (fuel : Nat) (gen : List (Obj β)) (stack : List (List (Obj β))),
    2 * sizeObjs gen + (stack.map (fun g => 2 * sizeObjs g + 1)).sum < fuel →
    unrollLoop fuel gen stack = leavesObjs gen ++ stack.flatMap leavesObjs := by
  intro fuel
  induction fuel with
  | zero => intro gen stack h; omega
  | succ fuel ih =>
    intro gen stack h
    match gen, stack with
    | .leaf b :: gen, stack =>
      simp only [sizeObjs, Obj.size] at h
      rw [unrollLoop, ih gen stack (by omega)]
      simp [leavesObjs, Obj.leaves]
    | .seq os :: gen, stack =>
      simp only [sizeObjs, Obj.size] at h
      rw [unrollLoop, ih os (gen :: stack) (by simp only [List.map_cons, List.sum_cons]; omega)]
      simp [leavesObjs, Obj.leaves]
    | [], g :: stack =>
      simp only [List.map_cons, List.sum_cons, sizeObjs] at h
      rw [unrollLoop, ih g stack (by omega)]
      simp [leavesObjs]
    | [], [] => simp [unrollLoop, leavesObjs]

end Parce

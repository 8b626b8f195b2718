import Verif.Lemmas.ToString

/-! Lemmas about `to_string` of the result of `re.escape`. -/

namespace Parce.ToS

/-- `-&~#` and the blanks: `re.escape` puts a backslash before these. -/
def odd (c : Nat) : Bool := [45, 38, 126, 35, 32, 9, 10, 13, 11, 12].contains c

theorem escapedChar_iff (c : Nat) : escapedChar c = true ↔ Quotable c ∨ odd c = true := by
  simp only [escapedChar, Bool.or_eq_true, ← special_iff, odd, List.contains_cons,
    List.contains_nil, beq_iff_eq, Bool.or_false]
  cases special c
  · simp only [Bool.false_eq_true, false_or]; omega
  · simp

theorem common_escape (lookup : List Nat → Option (List Nat)) : ∀ (w : List Nat),
    (∀ c ∈ w, odd c = false) → Common lookup (reEscape w) w
  | [], _ => .nil
  | c :: w, h => by
    have ih := common_escape lookup w (fun d hd => h d (by simp [hd]))
    have hc := h c (by simp)
    unfold reEscape
    split
    · rename_i he
      have hq : Quotable c := by
        rcases (escapedChar_iff c).1 he with h | h
        · exact h
        · rw [hc] at h; cases h
      exact .escape (w := [c]) (.char (quotable_not_alnum hq)) (by rintro p hp -; cases hp; exact hq) ih
    · rename_i he
      exact .plain (fun hq => he ((escapedChar_iff c).2 (.inl hq))) ih

theorem strip_reEscape : ∀ (w : List Nat), (strip .plain (reEscape w)).any special = false
  | [] => rfl
  | c :: w => by
    have ih := strip_reEscape w
    unfold reEscape
    split
    · rename_i he
      by_cases h10 : c = 10
      · subst h10
        have : escaped (10 :: reEscape w) = none := rfl
        simp only [strip, if_true, this, show ¬ (10 : Nat) = 92 by decide, if_false]
        simpa [special] using ih
      · rw [strip_one _ _ h10 (by rintro rfl; revert he; decide)]
        exact ih
    · rename_i he
      have h92 : c ≠ 92 := by rintro rfl; revert he; decide
      rw [strip_plain _ _ h92, List.any_cons, ih, Bool.or_false]
      cases h : special c with
      | false => rfl
      | true => exact absurd ((escapedChar_iff c).2 (.inl ((special_iff c).1 (.inl h)))) he

theorem esc_odd (lookup : List Nat → Option (List Nat)) (c : Nat) (r : List Nat)
    (h : odd c = true) : esc lookup (c :: r) = .fail := by
  have hna : ¬ Alnum c := by
    simp only [odd, List.contains_cons, List.contains_nil, Bool.or_eq_true, beq_iff_eq,
      Bool.or_false] at h
    simp only [Alnum]; omega
  have hs : ¬ (special c = true ∨ c = 92) := by
    rw [special_iff]
    simp only [odd, List.contains_cons, List.contains_nil, Bool.or_eq_true, beq_iff_eq,
      Bool.or_false] at h
    simp only [Quotable, Meta]; omega
  have h1 := control_head hna
  simp only [Alnum] at hna
  simp only [esc, h1,
    octal_head (r := r) (show ¬ (48 ≤ c ∧ c ≤ 55) by omega),
    backref_head (r := r) (show ¬ (49 ≤ c ∧ c ≤ 57) by omega),
    show ¬ c = 120 by omega, show ¬ c = 117 by omega, show ¬ c = 85 by omega, if_false,
    lastEsc, hs, show ¬ c = 78 by omega]

theorem replaceEsc_odd (lookup : List Nat → Option (List Nat)) : ∀ (w : List Nat),
    (∃ c ∈ w, odd c = true) → replaceEsc lookup 0 (reEscape w) = .none
  | [], h => by obtain ⟨c, hc, -⟩ := h; cases hc
  | c :: w, h => by
    unfold reEscape
    by_cases hc : odd c = true
    · rw [if_pos ((escapedChar_iff c).2 (.inr hc))]
      simp only [replaceEsc, if_true, esc_odd lookup c _ hc]
    · have ih := replaceEsc_odd lookup w (by
        obtain ⟨d, hd, ho⟩ := h
        rcases List.mem_cons.1 hd with rfl | hd
        · exact absurd ho hc
        · exact ⟨d, hd, ho⟩)
      split
      · rename_i he
        have hq := ((escapedChar_iff c).1 he).resolve_right hc
        have := esc_complete lookup (r := reEscape w) (.char (quotable_not_alnum hq))
          (by rintro p hp -; cases hp; exact hq)
        simp only [List.cons_append, List.nil_append] at this
        simp only [replaceEsc, if_true, this, List.length_cons, List.length_nil, Nat.zero_add]
        rw [ih]; rfl
      · rename_i he
        have h92 : c ≠ 92 := by rintro rfl; revert he; decide
        simp only [replaceEsc, h92, if_false, ih]; rfl

end Parce.ToS

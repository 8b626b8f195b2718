import Verif.Model.Quote
import Verif.Spec.Quote

/-! Lemmas about quoting for CSS. -/

namespace Parce.Quo

theorem digit_hexChar {n : Nat} (h : n < 16) : digit? (hexChar n) = some n := by
  unfold hexChar
  split
  · unfold digit?; rw [if_pos (by omega)]; congr 1; omega
  · unfold digit?; rw [if_neg (by omega), if_neg (by omega), if_pos (by omega)]; congr 1; omega

/-- The number of digits. -/
theorem toHex_length : ∀ (k n : Nat), n < 16 ^ (k + 1) → (toHex n).length ≤ k + 1
  | 0, n, h => by rw [toHex, if_pos (by simpa using h)]; simp
  | k + 1, n, h => by
    rw [toHex]
    split
    · simp
    · have := toHex_length k (n / 16) (by
        rw [Nat.div_lt_iff_lt_mul (by decide)]; rw [Nat.pow_succ] at h; exact h)
      simp; omega

/-- Reading all digits after the backslash. -/
theorem read_first (n : Nat) : ∀ (r : List Nat), (toHex n).length ≤ 6 →
    readString .backslash (toHex n ++ r) = readString (.number n (toHex n).length) r := by
  fun_induction toHex n with
  | case1 n h =>
    intro r _
    simp only [List.cons_append, List.nil_append, readString, digit_hexChar h, List.length_singleton]
  | case2 n h ih =>
    intro r hl
    simp only [List.length_append, List.length_singleton] at hl ⊢
    rw [List.append_assoc, ih _ (by omega)]
    have h6 : (toHex (n / 16)).length < 6 := by omega
    have hm : n % 16 < 16 := Nat.mod_lt _ (by decide)
    simp only [List.cons_append, List.nil_append, readString, h6, if_true, digit_hexChar hm]
    congr 2
    have := Nat.div_add_mod n 16
    omega

theorem toHex_ne_nil (n : Nat) : toHex n ≠ [] := by
  rw [toHex]; split <;> simp

/-- Reading an escape gives the character. -/
theorem read_escape1 (c : Nat) (r : List Nat) (h0 : 0 < c) (h1 : ¬ (55296 ≤ c ∧ c ≤ 57343))
    (h2 : c ≤ 1114111) : readString .text (escape1 c ++ r) = add c (readString .text r) := by
  have hl := toHex_length 5 c (by omega)
  have he : escaped c = c := by unfold escaped; rw [if_neg (by omega)]
  have hd : digit? 32 = none := by decide
  simp only [escape1, List.cons_append, readString, List.append_assoc, List.nil_append,
    show ¬ (92 : Nat) = 34 by decide, if_false, if_true]
  rw [read_first c _ hl]
  simp only [readString, hd, ite_self, true_or, if_true, he]

/-- Reading the quoted text. -/
theorem read_sub : ∀ (s : List Nat), (∀ c ∈ s, ¬ Newline c) → ∀ r : List Nat,
    readString .text (subQuotes s ++ 34 :: r) = some (s, r)
  | [], _, r => by simp [subQuotes, readString]
  | c :: s, h, r => by
    have ih := read_sub s (fun d hd => h d (by simp [hd])) r
    have hs : subQuotes (c :: s) =
        (if c = 92 ∨ c = 34 then escape [c] else [c]) ++ subQuotes s := by simp [subQuotes]
    rw [hs, List.append_assoc]
    split
    · rename_i hc
      have : escape [c] = escape1 c := by simp [escape]
      rw [this, read_escape1 c _ (by omega) (by omega) (by omega), ih]; rfl
    · rename_i hc
      have hc1 : ¬ c = 34 := fun h => hc (.inr h)
      have hc2 : ¬ c = 92 := fun h => hc (.inl h)
      have hc3 := h c (by simp)
      simp only [List.cons_append, List.nil_append, readString, hc1, hc2, hc3, if_false, ih]; rfl

theorem read_break : ∀ (s : List Nat), (∃ c ∈ s, Newline c) → ∀ r : List Nat,
    readString .text (subQuotes s ++ r) = none
  | [], h, _ => by obtain ⟨c, h, _⟩ := h; cases h
  | c :: s, h, r => by
    have hs : subQuotes (c :: s) =
        (if c = 92 ∨ c = 34 then escape [c] else [c]) ++ subQuotes s := by simp [subQuotes]
    rw [hs, List.append_assoc]
    by_cases hn : Newline c
    · have h1 : ¬ c = 34 := by unfold Newline at hn; omega
      have h2 : ¬ c = 92 := by unfold Newline at hn; omega
      simp only [h1, h2, or_self, if_false, List.cons_append, List.nil_append, readString, hn, if_true]
    · have ih := read_break s (by
        obtain ⟨d, hd, hx⟩ := h
        rcases List.mem_cons.1 hd with rfl | hd
        · exact absurd hx hn
        · exact ⟨d, hd, hx⟩) r
      split
      · rename_i hc
        have : escape [c] = escape1 c := by simp [escape]
        rw [this, read_escape1 c _ (by omega) (by omega) (by omega), ih]; rfl
      · rename_i hc
        have hc1 : ¬ c = 34 := fun h => hc (.inr h)
        have hc2 : ¬ c = 92 := fun h => hc (.inl h)
        simp only [List.cons_append, List.nil_append, readString, hc1, hc2, hn, if_false, ih]; rfl

end Parce.Quo

import Verif.Lemmas.Quote

/-!
C101: a string that is quoted for CSS is read by CSS as that string.
-/

namespace Parce.Quo

/-- What `\w` matches in ASCII, for the examples. -/
def asciiWord (c : Nat) : Bool := (48 ≤ c && c ≤ 57) || (65 ≤ c && c ≤ 90) || (97 ≤ c && c ≤ 122) || c == 95

/-- C101. Escaped characters are read by CSS as these characters, whatever comes after them; for
the characters that CSS can have in a string. -/
theorem C101_escape (s r : List Nat)
    (h : ∀ c ∈ s, 0 < c ∧ ¬ (55296 ≤ c ∧ c ≤ 57343) ∧ c ≤ 1114111) :
    readString .text (escape s ++ 34 :: r) = some (s, r) := by
  induction s with
  | nil => simp [escape, readString]
  | cons c s ih =>
    have hc := h c (by simp)
    have : escape (c :: s) = escape1 c ++ escape s := by simp [escape]
    rw [this, List.append_assoc, read_escape1 c _ hc.1 hc.2.1 hc.2.2,
      ih (fun d hd => h d (by simp [hd]))]
    rfl

example : escape [34, 128512] = [92, 50, 50, 32, 92, 49, 102, 54, 48, 48, 32] := by
  simp [escape, escape1, toHex, hexChar]

/-- C101 (partial: without newlines, see `C101_violated`). A string that gets quotes is read by CSS
as the same string, whatever comes after it. -/
theorem C101_quoted_partial (word : Nat → Bool) (s r : List Nat)
    (h : quoteIfNeeded word s ≠ s) (hn : ∀ c ∈ s, ¬ Newline c) :
    ∃ t, quoteIfNeeded word s = 34 :: t ∧ readString .text (t ++ r) = some (s, r) := by
  unfold quoteIfNeeded at h ⊢
  split at h
  · exact absurd rfl h
  · rename_i hp
    rw [if_neg hp]
    refine ⟨_, rfl, ?_⟩
    rw [List.append_assoc]
    exact read_sub s hn r

example : quoteIfNeeded asciiWord [97, 32, 34] ≠ [97, 32, 34] := by
  simp [quoteIfNeeded, plain, asciiWord]

/-- C101 (partial: the string must begin like a name, see `C101_violated`). A string that gets no
quotes is a name of CSS.  `word` is what `\w` matches: in ASCII the letters, digits and `_`. -/
theorem C101_plain_partial (word : Nat → Bool) (s : List Nat)
    (hw : ∀ c, word c = true → c < 128 →
      (48 ≤ c ∧ c ≤ 57) ∨ (65 ≤ c ∧ c ≤ 90) ∨ (97 ≤ c ∧ c ≤ 122) ∨ c = 95)
    (h : quoteIfNeeded word s = s)
    (hs : ∃ c r, (s = c :: r ∧ NameStart c) ∨ (s = 45 :: c :: r ∧ (NameStart c ∨ c = 45))) :
    Ident s := by
  have hp : plain word s = true := by
    unfold quoteIfNeeded at h
    split at h
    · assumption
    · obtain ⟨c, r, ⟨rfl, hc⟩ | ⟨rfl, hc⟩⟩ := hs
      · injection h with h1 _
        subst h1
        unfold NameStart at hc; omega
      · injection h with h1 _
        cases h1
  have hall : ∀ c ∈ s, NameChar c := by
    intro c hc
    simp only [plain, Bool.and_eq_true, List.all_eq_true, Bool.or_eq_true, beq_iff_eq] at hp
    rcases hp.2 c hc with h | h
    · by_cases h128 : c < 128
      · have := hw c h h128
        unfold NameChar NameStart; omega
      · unfold NameChar NameStart; omega
    · exact .inr (.inr h)
  obtain ⟨c, r, ⟨rfl, hc⟩ | ⟨rfl, hc⟩⟩ := hs
  · exact .start hc (fun d hd => hall d (by simp [hd]))
  · exact .hyphen hc (fun d hd => hall d (by simp [hd]))

example : quoteIfNeeded asciiWord [97, 45, 49] = [97, 45, 49] := by decide

/-- C101 is violated: `12` gets no quotes, although it is not a name; the same for `-` (both need
them to be a string).  A newline is not escaped, and a string with a newline can not be read. -/
theorem C101_violated :
    (quoteIfNeeded asciiWord [49, 50] = [49, 50] ∧ ¬ Ident [49, 50]) ∧
    (quoteIfNeeded asciiWord [45] = [45] ∧ ¬ Ident [45]) ∧
    (quoteIfNeeded asciiWord [97, 10, 98] = [34, 97, 10, 98, 34] ∧
      readString .text [97, 10, 98, 34] = none) := by
  refine ⟨⟨by decide, ?_⟩, ⟨by decide, ?_⟩, ⟨by decide, by decide⟩⟩
  · intro h
    cases h with
    | start h _ => simp [NameStart] at h
  · intro h
    cases h with
    | start h _ => simp [NameStart] at h

/-- C101. No string with a newline can be read after it is quoted. -/
theorem C101_newline_violated (word : Nat → Bool) (hw : ∀ c, Newline c → word c = false)
    (s r : List Nat) (h : ∃ c ∈ s, Newline c) :
    ∃ t, quoteIfNeeded word s = 34 :: t ∧ readString .text (t ++ r) = none := by
  have hp : plain word s = false := by
    obtain ⟨c, hc, hn⟩ := h
    have : s.all (fun c => word c || c == 45) = false := by
      rw [List.all_eq_false]
      refine ⟨c, hc, ?_⟩
      have h45 : c ≠ 45 := by unfold Newline at hn; omega
      simp [hw c hn, h45]
    simp [plain, this]
  unfold quoteIfNeeded
  rw [hp]
  refine ⟨_, rfl, ?_⟩
  rw [List.append_assoc]
  exact read_break s h _

example : ∃ c ∈ [97, 10], Newline c := ⟨10, by simp, .inl rfl⟩

end Parce.Quo

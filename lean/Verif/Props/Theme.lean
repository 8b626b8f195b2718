import Verif.Lemmas.Theme

/-
C56: adding and subtracting text formats. C64: the font size that is written.
-/

namespace Parce.Theme

variable {V : Type} [DecidableEq V]

/-- **C56.** Subtracting a format from itself leaves nothing. -/
theorem C56_self (f : Fmt V) : f.sub f = Fmt.empty ∧ ¬ (f.sub f).isSet := by
  have : f.sub f = Fmt.empty := by
    funext k
    rw [sub_eq, if_neg]
    · rfl
    · simp [differs]
  exact ⟨this, by rw [this]; rintro ⟨k, h⟩; simp [Fmt.empty] at h⟩

omit [DecidableEq V] in
/-- **C56.** Adding is associative, the empty format changes nothing, and the properties of the right
    operand win. -/
theorem C56_add (a b c : Fmt V) :
    (a.add b).add c = a.add (b.add c) ∧ a.add Fmt.empty = a ∧ Fmt.empty.add a = a ∧
    (∀ k v, b k = some v → a.add b k = some v) ∧ ∀ k, b k = none → a.add b k = a k := by
  refine ⟨?_, rfl, ?_, ?_, ?_⟩
  · funext k
    simp only [Fmt.add]
    cases c k <;> rfl
  · funext k
    simp only [Fmt.add, Fmt.empty]
    cases a k <;> rfl
  · intro k v h; simp [Fmt.add, h]
  · intro k h; simp [Fmt.add, h]

/-- **C56.** Subtracting keeps only properties of the format itself; a property that is removed has the
    same value in the other format. -/
theorem C56_sub (f o : Fmt V) :
    (∀ k, f.sub o k = f k ∨ f.sub o k = none) ∧ ∀ k, (f k).isSome → f.sub o k = none → f.get k = o.get k := by
  refine ⟨fun k => ?_, fun k hf h => ?_⟩
  · rw [sub_eq]
    split
    · exact Or.inl rfl
    · exact Or.inr rfl
  · rw [sub_eq] at h
    split at h
    · rw [h] at hf; simp at hf
    · rename_i hg
      obtain ⟨g, hg1, hg2⟩ := group_of k
      simp only [Bool.not_eq_true, List.any_eq_false, Bool.and_eq_true, decide_eq_true_eq, not_and, Bool.not_eq_true] at hg
      have := hg g hg1 hg2
      simp only [differs, Bool.and_eq_false_iff, List.any_eq_false, decide_eq_true_eq, Classical.not_not] at this
      rcases this with h1 | h1
      · exact absurd hf (h1 k hg2)
      · exact h1 k hg2

/-- **C56.** Adding the difference gives the same values as adding the format. -/
theorem C56_values (b f : Fmt V) (k : Key) : (b.add (f.sub b)).get k = (b.add f).get k := by
  simp only [Fmt.get, Fmt.add]
  rcases (C56_sub f b).1 k with h | h
  · rw [h]
  · rw [h]
    cases hf : f k with
    | none => rfl
    | some v =>
      have := (C56_sub f b).2 k (by rw [hf]; rfl) h
      simp only [Fmt.get, hf] at this
      simp only
      rw [← this]

/-- **C56** (partial). Adding the difference gives the same format as adding the format, if all
    properties that `f` sets to `None` are also set in `b` or not at all. Otherwise see
    `C56_violated`. -/
theorem C56_restore_partial (b f : Fmt V) (h : ∀ k, f k = some none → (b k).isSome) : b.add (f.sub b) = b.add f := by
  funext k
  have hv := C56_values b f k
  simp only [Fmt.get, Fmt.add] at hv ⊢
  rcases (C56_sub f b).1 k with h1 | h1
  · rw [h1]
  · rw [h1] at hv ⊢
    cases hf : f k with
    | none => rfl
    | some v =>
      rw [hf] at hv
      cases hb : b k with
      | some w => rw [hb] at hv; simpa using hv
      | none =>
        rw [hb] at hv
        simp only [Option.join_none, Option.join_some] at hv
        have := h k (by rw [hf, ← hv])
        rw [hb] at this
        cases this

/-- **C56 does not hold** when a property is set to `None`: `f` is the format of
    `font: 12; font-size: small` (12 has no unit), the base is `font-size: small`. The numbers
    1 and 2 are 12 and small. -/
theorem C56_violated :
    let f : Fmt Nat := readFontSize (readFontNums Fmt.empty [(1, none)]) [.word 2]
    let b : Fmt Nat := readFontSize Fmt.empty [.word 2]
    b.add (f.sub b) ≠ b.add f := by
  intro f b h
  have := congrFun h .fontSizeUnit
  revert this
  decide

example : ∃ b f : Fmt Nat, (∀ k, f k = some none → (b k).isSome) ∧ f.isSet ∧ b.isSet ∧ f ≠ b ∧ f.sub b ≠ f := by
  refine ⟨readFontSize Fmt.empty [.num 1 (some 3)], (readFontSize Fmt.empty [.num 1 (some 3)]).set .color (some 7), ?_, ⟨.color, rfl⟩, ⟨.fontSize, rfl⟩, ?_, ?_⟩
  · intro k h
    cases k <;> first | (revert h; decide) | decide
  · intro h; have := congrFun h .color; revert this; decide
  · intro h; have := congrFun h .fontSize; revert this; decide

/-- **C64** (partial). A format that had no size unit writes the size that it was given; a format that
    had one writes the number and unit that it was given. Missing: a size word after a size with a
    unit, see `C64_violated`. -/
theorem C64_size_partial (truthy : V → Bool) (f : Fmt V) :
    (∀ w, truthy w → f.get .fontSizeUnit = none → writeFontSize truthy (readFontSize f [.word w]) = some (w, none)) ∧
    (∀ n u, truthy n → writeFontSize truthy (readFontSize f [.num n u]) = some (n, u)) ∧
    (∀ n u, truthy n → writeFontSize truthy (readFontNums f [(n, u)]) = some (n, u)) := by
  refine ⟨fun w hw hu => ?_, fun n u hn => ?_, fun n u hn => ?_⟩
  · simp only [writeFontSize, readFontSize, Fmt.get, Fmt.set] at hu ⊢
    simp [hw, hu]
  · simp [writeFontSize, readFontSize, Fmt.get, Fmt.set, hn]
  · simp [writeFontSize, readFontNums, Fmt.get, Fmt.set, hn]

/-- **C64 does not hold**: with `font: 12pt; font-size: small`, or a base format of `font: 12pt` to
    which `font-size: small` is added, the unit of the old size is written behind the new one:
    `smallpt`. And a size of zero is not written. The numbers 1, 2 and 3 are 12, small and pt. -/
theorem C64_violated :
    writeFontSize (· ≠ 0) (readFontSize (readFontNums (Fmt.empty : Fmt Nat) [(1, some 3)]) [.word 2]) = some (2, some 3) ∧
    writeFontSize (· ≠ 0) ((readFontNums (Fmt.empty : Fmt Nat) [(1, some 3)]).add (readFontSize Fmt.empty [.word 2])) = some (2, some 3) ∧
    writeFontSize (· ≠ 0) (readFontSize (Fmt.empty : Fmt Nat) [.num 0 (some 3)]) = none := by
  decide

example : ∃ f : Fmt Nat, f.isSet ∧ f.get .fontSizeUnit = none ∧ writeFontSize (· ≠ 0) (readFontSize f [.word 2]) = some (2, none) :=
  ⟨readFontSize Fmt.empty [.num 1 none], ⟨.fontSize, rfl⟩, by decide, by decide⟩

end Parce.Theme

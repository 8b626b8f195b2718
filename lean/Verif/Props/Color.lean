import Verif.Lemmas.Color

/-
C55: colours.
-/

namespace Parce.Col

/-- **C55.** Six digits: two for each channel; written back it is the same colour. -/
theorem C55_hex6 (a b c d e f : Nat) (h : ∀ x ∈ [a, b, c, d, e, f], x < 16) :
    getHexColor [a, b, c, d, e, f] = ⟨(16 * a + b : Nat), (16 * c + d : Nat), (16 * e + f : Nat), one⟩ ∧
    color2hex (getHexColor [a, b, c, d, e, f]) = some [a, b, c, d, e, f] := by
  have h' := h
  simp only [List.mem_cons, List.not_mem_nil, or_false, forall_eq_or_imp, forall_eq] at h
  have h1 : getHexColor [a, b, c, d, e, f] = ⟨(16 * a + b : Nat), (16 * c + d : Nat), (16 * e + f : Nat), one⟩ := by
    simp only [getHexColor, List.length_cons, List.length_nil, and255, fromHex, List.foldl_cons, List.foldl_nil]
    simp only [Nat.reduceAdd, Nat.reduceEqDiff, if_false, if_true, Color.mk.injEq, and_true]
    omega
  refine ⟨h1, ?_⟩
  rw [h1, color2hex]
  simp only [one, ltOne]
  rw [if_neg (by omega), padHex_six h' _ (by simp only [fromHex, List.foldl_cons, List.foldl_nil]; omega)]
  simp

/-- **C55.** Three digits: each digit is doubled. -/
theorem C55_hex3 (a b c : Nat) (h : ∀ x ∈ [a, b, c], x < 16) :
    getHexColor [a, b, c] = ⟨(17 * a : Nat), (17 * b : Nat), (17 * c : Nat), one⟩ ∧
    color2hex (getHexColor [a, b, c]) = some [a, a, b, b, c, c] := by
  simp only [List.mem_cons, List.not_mem_nil, or_false, forall_eq_or_imp, forall_eq] at h
  have h1 : getHexColor [a, b, c] = ⟨(17 * a : Nat), (17 * b : Nat), (17 * c : Nat), one⟩ := by
    simp only [getHexColor, List.length_cons, List.length_nil, and15, fromHex, List.foldl_cons, List.foldl_nil]
    simp only [Nat.reduceAdd, if_true, Color.mk.injEq, and_true]
    omega
  refine ⟨h1, ?_⟩
  rw [h1, color2hex]
  simp only [one, ltOne]
  rw [if_neg (by omega), padHex_six (a := a) (b := a) (c := b) (d := b) (e := c) (f := c) (by simp [h]) _
    (by simp only [fromHex, List.foldl_cons, List.foldl_nil]; omega)]
  simp

/-- **C55.** Eight digits: the last two are the opacity, they are left out for an opaque colour. The
    opacity is a float; its rounding errors disappear when it is written. -/
theorem C55_hex8 (a b c d e f g i : Nat) (h : ∀ x ∈ [a, b, c, d, e, f, g, i], x < 16) :
    getHexColor [a, b, c, d, e, f, g, i] = ⟨(16 * a + b : Nat), (16 * c + d : Nat), (16 * e + f : Nat), fdiv (16 * g + i) 255⟩ ∧
    color2hex (getHexColor [a, b, c, d, e, f, g, i]) =
      some (if g = 15 ∧ i = 15 then [a, b, c, d, e, f] else [a, b, c, d, e, f, g, i]) := by
  have h' := h
  simp only [List.mem_cons, List.not_mem_nil, or_false, forall_eq_or_imp, forall_eq] at h
  have h1 : getHexColor [a, b, c, d, e, f, g, i] = ⟨(16 * a + b : Nat), (16 * c + d : Nat), (16 * e + f : Nat), fdiv (16 * g + i) 255⟩ := by
    simp only [getHexColor, List.length_cons, List.length_nil, and255, fromHex, List.foldl_cons, List.foldl_nil]
    simp only [Nat.reduceAdd, Nat.reduceEqDiff, if_false, Color.mk.injEq]
    refine ⟨by omega, by omega, by omega, ?_⟩
    congr 1
    omega
  refine ⟨h1, ?_⟩
  rw [h1, color2hex]
  simp only
  rw [if_neg (by omega), padHex_six (a := a) (b := b) (c := c) (d := d) (e := e) (f := f) (by simp [h]) _
    (by simp only [fromHex, List.foldl_cons, List.foldl_nil]; omega)]
  rw [alpha_opaque _ (by omega), alpha_exact _ (by omega)]
  by_cases hgi : g = 15 ∧ i = 15
  · rw [if_pos hgi, if_neg (by simp [hgi])]
    simp
  · rw [if_neg hgi, if_pos (by simp only [decide_eq_true_eq]; omega), padHex_two (a := g) (b := i) (by simp [h]) _ (by omega)]
    simp

/-- **C55.** Four digits: as eight with each digit doubled. -/
theorem C55_hex4 (a b c d : Nat) (h : ∀ x ∈ [a, b, c, d], x < 16) :
    getHexColor [a, b, c, d] = getHexColor [a, a, b, b, c, c, d, d] := by
  have h8 := (C55_hex8 a a b b c c d d (by simpa using h)).1
  simp only [List.mem_cons, List.not_mem_nil, or_false, forall_eq_or_imp, forall_eq] at h
  rw [h8]
  simp only [getHexColor, List.length_cons, List.length_nil, and15, fromHex, List.foldl_cons, List.foldl_nil]
  simp only [Nat.reduceAdd, Nat.reduceEqDiff, if_false, if_true, Color.mk.injEq]
  refine ⟨by omega, by omega, by omega, ?_⟩
  congr 1
  omega

example : (∀ x ∈ [1, 7, 15, 0, 10, 15], x < 16) ∧ getHexColor [1, 7, 15, 0, 10, 15] = ⟨23, 240, 175, one⟩ := by decide
example : color2hex (getHexColor [1, 7, 15, 8]) = some [1, 1, 7, 7, 15, 15, 8, 8] := by decide +kernel

/-- The numbers in the arguments. -/
def numbers (args : List Arg) : List Num := args.filterMap (fun a => match a with | .num n => some n | .other => none)

/-- **C55** (partial). The function rgb with integers from 1 to 255 gives these channels, and an opaque
    colour. With a zero it does not, see `C55_violated_zero`. -/
theorem C55_rgb_partial (args : List Arg) (r g b : Nat) (hr : 1 ≤ r ∧ r ≤ 255) (hg : 1 ≤ g ∧ g ≤ 255) (hb : 1 ≤ b ∧ b ≤ 255)
    (h : numbers args = [⟨r, 1, false⟩, ⟨g, 1, false⟩, ⟨b, 1, false⟩]) :
    getRgba args = (((r : Int), 1), ((g : Int), 1), ((b : Int), 1), (1, 1)) := by
  have hf : args.filterMap Arg.value = (numbers args).filter (fun n => n.num ≠ 0) := by
    unfold numbers
    rw [List.filter_filterMap]
    congr 1
    funext a
    cases a with
    | other => rfl
    | num n =>
      simp only [Arg.value]
      split <;> simp_all [Option.filter]
  have hn : ∀ n : Nat, 1 ≤ n → n ≤ 255 → numberValue ⟨n, 1, false⟩ 255 = ((n : Int), 1) := by
    intro n h1 h2
    simp only [numberValue, Bool.false_eq_true, if_false]
    have : ¬ (n : Int) < 0 := by omega
    simp only [this, if_false]
    rw [if_neg (by omega)]
  unfold getRgba
  rw [hf, h]
  have e : ∀ n : Nat, 1 ≤ n → decide ((n : Int) ≠ 0) = true := by intro n hn; simp; omega
  simp only [List.filter_cons, e r hr.1, e g hg.1, e b hb.1, if_true, List.filter_nil, List.drop_succ_cons, List.drop_zero, List.drop_nil, channel,
    hn r hr.1 hr.2, hn g hg.1 hg.2, hn b hb.1 hb.2]

/-- **C55.** A channel is never outside the range, and -1 when it is missing. -/
theorem C55_range (args : List Arg) :
    ∀ c ∈ [(getRgba args).1, (getRgba args).2.1, (getRgba args).2.2.1], c = (-1, 1) ∨ (0 ≤ c.1 ∧ c.1 ≤ 255 * c.2) := by
  have hn : ∀ v : Num, 0 ≤ (numberValue v 255).1 ∧ (numberValue v 255).1 ≤ 255 * (numberValue v 255).2 := by
    intro v
    unfold numberValue
    simp only
    generalize (if v.pct = true then (v.num * ((255 : Nat) : Int) / (100 * (v.den : Int)), 1) else (v.num, v.den)) = x
    obtain ⟨a, b⟩ := x
    simp only
    split
    · split
      · simp
      · simp
    · split
      · simp
      · simp only; omega
  have hc : ∀ vs : List Num, channel vs = (-1, 1) ∨ (0 ≤ (channel vs).1 ∧ (channel vs).1 ≤ 255 * (channel vs).2) := by
    intro vs
    cases vs with
    | nil => exact Or.inl rfl
    | cons v vs => exact Or.inr (hn v)
  intro c hc'
  simp only [getRgba, List.mem_cons, List.not_mem_nil, or_false] at hc'
  rcases hc' with rfl | rfl | rfl <;> exact hc _

/-- **C55 does not hold** for zeros: in `rgb(0, 128, 255)` the zero is skipped, so that the channels are 128,
    255 and -1, which can not be written as a colour. -/
theorem C55_violated_zero :
    getRgba [.num ⟨0, 1, false⟩, .other, .num ⟨128, 1, false⟩, .other, .num ⟨255, 1, false⟩] = ((128, 1), (255, 1), (-1, 1), (1, 1)) := by decide

/-- An opacity of 50 % is read as completely transparent (`n * 1.0 // 100` is a whole number). -/
theorem C55_violated_opacity :
    (getRgba [.num ⟨1, 1, false⟩, .num ⟨2, 1, false⟩, .num ⟨3, 1, false⟩, .num ⟨50, 1, true⟩]).2.2.2 = (0, 1) := by decide

example : numbers [.num ⟨1, 1, false⟩, .other, .num ⟨128, 1, false⟩, .other, .num ⟨255, 1, false⟩] =
    [⟨(1 : Nat), 1, false⟩, ⟨(128 : Nat), 1, false⟩, ⟨(255 : Nat), 1, false⟩] := rfl

end Parce.Col

import Verif.Model.Color

namespace Parce.Col

/-- The rounding errors of dividing by 255 and multiplying by 255 are not visible. -/
theorem alpha_exact : ∀ c < 256, trunc (fmul (fdiv c 255) 255) = c := by decide +kernel

theorem alpha_opaque : ∀ c < 256, ltOne (fdiv c 255) = decide (c < 255) := by decide +kernel

theorem and15 (n : Nat) : n &&& 15 = n % 16 := Nat.and_two_pow_sub_one_eq_mod n 4

theorem and255 (n : Nat) : n &&& 255 = n % 256 := Nat.and_two_pow_sub_one_eq_mod n 8

theorem fromHex_concat (ds : List Nat) (d : Nat) : fromHex (ds ++ [d]) = fromHex ds * 16 + d := by
  simp [fromHex]

theorem padHex_fromHex : (n : Nat) → (ds : List Nat) → ds.length = n + 1 → (∀ d ∈ ds, d < 16) →
    (toHex (fromHex ds)).length ≤ n + 1 ∧ padHex (n + 1) (fromHex ds) = ds
  | 0, ds, hl, hd => by
    match ds, hl with
    | [d], _ =>
      have : d < 16 := hd d (by simp)
      have h : fromHex [d] = d := by simp [fromHex]
      rw [h, padHex, toHex, if_pos this]
      simp
  | n + 1, ds, hl, hd => by
    rcases List.eq_nil_or_concat ds with rfl | ⟨ds', d, rfl⟩
    · simp at hl
    · rw [List.concat_eq_append] at *
      have hl' : ds'.length = n + 1 := by simpa using hl
      have hd' : d < 16 := hd d (by simp)
      obtain ⟨ih1, ih2⟩ := padHex_fromHex n ds' hl' (fun x hx => hd x (by simp [hx]))
      rw [fromHex_concat, padHex, toHex]
      by_cases h0 : fromHex ds' = 0
      · rw [if_pos (by omega), h0]
        rw [h0] at ih2
        have h00 : toHex 0 = [0] := by rw [toHex]; simp
        rw [padHex, h00] at ih2
        simp only [List.length_singleton, Nat.add_sub_cancel, Nat.zero_mul, Nat.zero_add] at ih2 ⊢
        refine ⟨by omega, ?_⟩
        rw [← ih2, List.replicate_succ']
      · rw [if_neg (by omega)]
        have h1 : (fromHex ds' * 16 + d) / 16 = fromHex ds' := by omega
        have h2 : (fromHex ds' * 16 + d) % 16 = d := by omega
        rw [h1, h2, List.length_append, List.length_singleton]
        refine ⟨by omega, ?_⟩
        rw [show n + 1 + 1 - ((toHex (fromHex ds')).length + 1) = n + 1 - (toHex (fromHex ds')).length from by omega,
          ← List.append_assoc]
        rw [padHex] at ih2
        rw [ih2]

theorem padHex_six {a b c d e f : Nat} (h : ∀ x ∈ [a, b, c, d, e, f], x < 16) (n : Nat)
    (hn : n = fromHex [a, b, c, d, e, f]) : padHex 6 n = [a, b, c, d, e, f] := by
  rw [hn]; exact (padHex_fromHex 5 _ rfl h).2

theorem padHex_two {a b : Nat} (h : ∀ x ∈ [a, b], x < 16) (n : Nat) (hn : n = a * 16 + b) : padHex 2 n = [a, b] := by
  have : n = fromHex [a, b] := by rw [hn]; simp [fromHex]
  rw [this]; exact (padHex_fromHex 1 _ rfl h).2

end Parce.Col

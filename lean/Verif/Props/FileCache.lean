import Verif.Spec.FileCache
/-!
# C91: the cache for files
-/
namespace Parce.FileC
variable {V : Type}

/-- What is kept was made from a version that is not older than the one with the time that is kept. -/
theorem run_cache {F : File V} {n : Nat} {c : Option (Int × V)} {l : List (Nat × Nat × Out V)} (h : Run F n c l) :
    ∀ t v, c = some (t, v) → t ≥ 0 ∧ ∃ a b, a ≤ b ∧ b ≤ n ∧ F.mtime a = some t ∧ F.result b = some v := by
  induction h with
  | start => intro t v e; cases e
  | @call n a b c l hr hna hab ih =>
    intro t v e
    have old : c = some (t, v) → t ≥ 0 ∧ ∃ a' b', a' ≤ b' ∧ b' ≤ b ∧ F.mtime a' = some t ∧ F.result b' = some v := by
      intro hc
      obtain ⟨h1, a', b', h2, h3, h4, h5⟩ := ih t v hc
      exact ⟨h1, a', b', h2, by omega, h4, h5⟩
    unfold getitem at e
    split at e
    · cases hres : F.result b with
      | none => rw [hres] at e; exact old e
      | some x =>
        rw [hres] at e
        dsimp only at e
        split at e
        · rename_i hge
          cases hm : F.mtime a with
          | none => rw [hm] at hge; simp at hge
          | some m =>
            rw [hm] at e hge
            simp at e hge
            obtain ⟨rfl, rfl⟩ := e
            exact ⟨hge, a, b, hab, Nat.le_refl b, hm, hres⟩
        · exact old e
    · cases c with
      | none => cases e
      | some p => exact old e

/-- **C91, partial.** The claim is that a call gives what the function makes of the file as it is at some moment during the call, if each version of the
    file has its own time. Missing are files with the time −1 (one second before 1970). -/
theorem C91_partial {F : File V} (hd : F.Distinct) (hm : ∀ v, F.mtime v ≠ some (-1)) {n : Nat} {c : Option (Int × V)} {l : List (Nat × Nat × Out V)}
    (h : Run F n c l) : ∀ e ∈ l, Right F e := by
  induction h with
  | start => intro e he; cases he
  | @call n a b c l hr hna hab ih =>
    intro e he
    rcases List.mem_append.1 he with he | he
    · exact ih e he
    · simp at he
      subst he
      unfold getitem
      split
      · cases hres : F.result b with
        | none => exact ⟨b, hab, Nat.le_refl b, Or.inr ⟨rfl, hres⟩⟩
        | some x => exact ⟨b, hab, Nat.le_refl b, Or.inl ⟨x, rfl, hres⟩⟩
      · rename_i hne
        cases c with
        | none =>
          cases hma : F.mtime a with
          | none => rw [hma] at hne; simp at hne
          | some m =>
            rw [hma] at hne
            simp at hne
            exact absurd (by rw [hma, ← hne]) (hm a)
        | some p =>
          obtain ⟨t, v⟩ := p
          obtain ⟨h1, a', b', h2, h3, h4, h5⟩ := run_cache hr t v rfl
          cases hma : F.mtime a with
          | none => rw [hma] at hne; simp at hne; omega
          | some m =>
            rw [hma] at hne
            simp at hne
            have : a' = a := hd a' a t h4 (by rw [hma, ← hne])
            have hb : b' = a := by omega
            subst hb
            exact ⟨b', Nat.le_refl _, hab, Or.inl ⟨v, rfl, h5⟩⟩

/-- **C91, violated.** For a file with the time −1 the call raises an UnboundLocalError, although the function would give a value. -/
theorem C91_violated : ∃ (F : File Nat) (n : Nat) (c : Option (Int × Nat)) (l : List (Nat × Nat × Out Nat)),
    F.Distinct ∧ Run F n c l ∧ (∀ v, F.result v = some 7) ∧ l = [(0, 0, .unbound)] := by
  refine ⟨⟨fun v => if v = 0 then some (-1) else none, fun _ => some 7⟩, 0, _, _, ?_, .call .start (Nat.le_refl 0) (Nat.le_refl 0), fun _ => rfl, rfl⟩
  intro v w t hv hw
  dsimp only at hv hw
  split at hv
  · split at hw
    · omega
    · cases hw
  · cases hv

/-- **C91.** If two versions have the same time, the cache can give what was made of an old version. -/
theorem C91_stale : ∃ (F : File Nat) (n : Nat) (c : Option (Int × Nat)) (l : List (Nat × Nat × Out Nat)),
    Run F n c l ∧ (∃ e ∈ l, ¬ Right F e) ∧ ∀ v, F.mtime v = some 5 := by
  refine ⟨⟨fun _ => some 5, fun v => some v⟩, 1, _, _, .call (.call .start (Nat.le_refl 0) (Nat.le_refl 0)) (Nat.zero_le 1) (Nat.le_refl 1),
    ⟨(1, 1, .value 0), by simp [getitem], ?_⟩, fun _ => rfl⟩
  rintro ⟨w, h1, h2, ⟨v, h3, h4⟩ | ⟨h3, _⟩⟩
  · cases h3
    cases h4
    exact absurd h1 (by decide)
  · cases h3

/-- The file changes while the function reads it, and is not there at the end. -/
example : ∃ (F : File Nat) (n : Nat) (c : Option (Int × Nat)) (l : List (Nat × Nat × Out Nat)), F.Distinct ∧ (∀ v, F.mtime v ≠ some (-1)) ∧ Run F n c l ∧
    l = [(0, 1, .value 1), (1, 1, .value 1), (1, 1, .value 1), (2, 2, .raised)] := by
  refine ⟨⟨fun v => if v < 2 then some v else none, fun v => if v < 2 then some v else none⟩, 2, _, _, ?_, ?_,
    .call (.call (.call (.call .start (Nat.le_refl 0) (Nat.le_succ 0)) (Nat.le_refl 1) (Nat.le_refl 1)) (Nat.le_refl 1) (Nat.le_refl 1)) (Nat.le_succ 1) (Nat.le_refl 2), rfl⟩
  · intro v w t hv hw
    dsimp only at hv hw
    split at hv
    · split at hw
      · cases hv; cases hw; omega
      · cases hw
    · cases hv
  · intro v hv
    dsimp only at hv
    split at hv
    · cases hv
    · cases hv

end Parce.FileC

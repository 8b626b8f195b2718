import Verif.Model.QueryPick

/-!
# C135: picking from the results of a query
-/

namespace Parce
namespace Qp

variable {β : Type}

/-- **C135.**  A query is true if it has a result. -/
theorem C135_bool (q : List β) : bool q = true ↔ ∃ n, n ∈ q := by
  cases q with
  | nil => simp [bool]
  | cons n q => simp only [bool, true_iff]; exact ⟨n, by simp⟩

/-- **C135.**  `count()` is the number of the results. -/
theorem C135_count (q : List β) : count q = q.length := by
  have h : ∀ (q : List β) (k : Nat), q.foldl (fun n _ => n + 1) k = k + q.length := by
    intro q
    induction q with
    | nil => simp
    | cons n q ih => intro k; simp only [List.foldl_cons, ih, List.length_cons]; omega
  simpa [count] using h q 0

/-- **C135.**  `pick()` is the first result, or the default if there is none. -/
theorem C135_pick (x : β) (q : List β) : pick x q = q.head?.getD x := by
  cases q <;> rfl

/-- **C135.**  `pick_last()` is the last result, or the default if there is none. -/
theorem C135_pick_last (x : β) (q : List β) : pickLast x q = q.getLast?.getD x := by
  unfold pickLast
  induction q generalizing x with
  | nil => rfl
  | cons n q ih =>
    rw [List.foldl_cons, ih, List.getLast?_cons]
    rfl

theorem isliceLoop_get (stop : Option Nat) (step : Nat) (hs : 1 ≤ step) (q : List β) :
    ∀ (i nexti k : Nat), i ≤ nexti →
      (isliceLoop stop step i nexti q)[k]? =
        if stop.all (fun s => decide (nexti + k * step < s)) then q[nexti - i + k * step]? else none := by
  induction q with
  | nil => intro i nexti k _; simp [isliceLoop]
  | cons n q ih =>
    intro i nexti k hi
    unfold isliceLoop
    by_cases h1 : stop.any (fun s => decide (s ≤ i)) = true
    · rw [if_pos h1]
      cases stop with
      | none => simp at h1
      | some s =>
        have h2 : s ≤ i := by simpa using h1
        have h3 : ¬ nexti + k * step < s := by omega
        simp [h3]
    · rw [if_neg h1]
      by_cases h2 : i = nexti
      · subst h2
        rw [if_pos rfl]
        cases k with
        | zero =>
          cases stop with
          | none => simp
          | some s =>
            have h3 : i < s := by simpa using h1
            simp [h3]
        | succ k =>
          rw [List.getElem?_cons_succ, ih (i + 1) (i + step) k (by omega)]
          have e1 : i + step + k * step = i + (k + 1) * step := by rw [Nat.add_mul]; omega
          have e2 : i - i + (k + 1) * step = (i + step - (i + 1) + k * step) + 1 := by
            rw [Nat.add_mul]; omega
          rw [e1, e2, List.getElem?_cons_succ]
      · rw [if_neg h2, ih (i + 1) nexti k (by omega)]
        have e : nexti - i + k * step = (nexti - (i + 1) + k * step) + 1 := by omega
        rw [e, List.getElem?_cons_succ]

/-- **C135.**  The result number `k` of `slice(start, stop, step)` is the result
number `start + k * step` of the query, as long as that is below `stop`. -/
theorem C135_slice (a b c : Nat) (hc : 1 ≤ c) (q : List β) :
    ∃ r, slice [some (a : Int), some (b : Int), some (c : Int)] q = some r ∧
      ∀ k, r[k]? = if a + k * c < b then q[a + k * c]? else none := by
  have ha : sliceArgs [some (a : Int), some (b : Int), some (c : Int)] = some (a, some b, c) := by
    have h1 : ¬ ((a : Int) < 0 ∨ (c : Int) < 1) := by omega
    have h2 : ¬ ((b : Int) < 0) := by omega
    simp [sliceArgs, sliceArgs.args, h1, h2]
  refine ⟨isliceLoop (some b) c 0 a q, by simp [slice, ha], ?_⟩
  intro k
  rw [isliceLoop_get (some b) c hc q 0 a k (by omega)]
  simp

/-- **C135.**  Without a `stop` the slice goes on to the end. -/
theorem C135_slice_end (a c : Nat) (hc : 1 ≤ c) (q : List β) :
    ∃ r, slice [some (a : Int), none, some (c : Int)] q = some r ∧ ∀ k, r[k]? = q[a + k * c]? := by
  have ha : sliceArgs [some (a : Int), none, some (c : Int)] = some (a, none, c) := by
    have h1 : ¬ ((a : Int) < 0 ∨ (c : Int) < 1) := by omega
    simp [sliceArgs, sliceArgs.args, h1]
  refine ⟨isliceLoop none c 0 a q, by simp [slice, ha], ?_⟩
  intro k
  rw [isliceLoop_get none c hc q 0 a k (by omega)]
  simp

/-- **C135.**  `slice(n)` has the first `n` results. -/
theorem C135_first (n : Nat) (q : List β) : slice [some (n : Int)] q = some (q.take n) := by
  have ha : sliceArgs [some (n : Int)] = some (0, some n, 1) := by
    have h2 : ¬ ((n : Int) < 0) := by omega
    simp [sliceArgs, sliceArgs.args, h2]
  simp only [slice, ha, Option.map_some, Option.some.injEq]
  apply List.ext_getElem?
  intro k
  rw [isliceLoop_get (some n) 1 (by omega) q 0 0 k (by omega), List.getElem?_take]
  simp

/-- **C135.**  A negative number, or a step of 0, is refused. -/
theorem C135_refused (a b c : Int) (h : a < 0 ∨ b < 0 ∨ c < 1) (q : List β) :
    slice [some a, some b, some c] q = none := by
  simp only [slice, sliceArgs, sliceArgs.args, Option.getD_some]
  by_cases h1 : a < 0 ∨ c < 1
  · simp [h1]
  · have h2 : b < 0 := by omega
    simp [h1, h2]

example : slice [some 1, some 6, some 2] [10, 11, 12, 13, 14, 15, 16] = some [11, 13, 15] := by decide
example : slice [some 2, none, some 3] [10, 11, 12, 13, 14, 15, 16] = some [12, 15] := by decide
example : slice [some (-1), some 6, some 2] [10, 11, 12] = none := by decide
example : slice [some 2] [10, 11, 12] = some [10, 11] := by decide
example : pickLast 0 [10, 11, 12] = 12 ∧ pick 0 [10, 11, 12] = 10 ∧ count [10, 11, 12] = 3 ∧
    bool [10, 11, 12] = true ∧ pickLast 7 [] = 7 := by decide

end Qp
end Parce

import Verif.Lemmas.Validate
/-!
# C61: the check of default targets
-/
namespace Parce.Val
variable {L : Type}

/-- **C61** (first part). The check always ends, for every set of lexicons, also circular ones. -/
theorem C61_terminates (dt : L → Option (List (Tgt L))) (l : L) (target : List (Tgt L)) :
    ∃ fuel o, o ≠ Outcome.timeout ∧ ∀ m, fuel ≤ m → check dt m l target = o :=
  checkLoop_ends dt _ _ (0, l) target 1 [(0, l)] [] false (inv_init l) (Nat.le_refl _) (Nat.le_refl _)

/-- A lexicon that enters itself, over and over; and two lexicons that alternate. -/
example : check (fun _ : Nat => some [.int 1]) 200 0 [.int 1] = .circularError ∧
    check (fun l : Nat => some (if l = 0 then [.lex 1] else [.int (-1)])) 300 0 [.lex 1] = .circularWarning := by
  decide +kernel

/-- **C61** (second part, partial: the check did not leave the first context). If the check gets to a lexicon without a
    default target, then following the default targets ends, whatever lexicons are below. -/
theorem C61_sound_partial (dt : L → Option (List (Tgt L))) (fuel : Nat) (l : L) (target : List (Tgt L)) (hd : dt l = some target)
    (h : check dt fuel l target = .fine) (base : List L) : Ends dt (l :: base) :=
  (checkLoop_sound dt base fuel (0, l) target 1 [(0, l)] [] false (inv_init l) hd).1 h

/-- A lexicon enters two, the second leaves and enters a third. -/
example : check (fun l : Nat => if l = 0 then some [.lex 1, .lex 2] else if l = 2 then some [.int (-1), .lex 3] else none) 5 0 [.lex 1, .lex 2] = .fine := by
  decide

/-- **C61**. The error "invalid default target" is justified: following the default targets does not end. -/
theorem C61_invalid (dt : L → Option (List (Tgt L))) (fuel : Nat) (l : L) (target : List (Tgt L)) (hd : dt l = some target)
    (h : check dt fuel l target = .invalid) (base : List L) : ¬ Ends dt (l :: base) :=
  (checkLoop_sound dt base fuel (0, l) target 1 [(0, l)] [] false (inv_init l) hd).2 h

example : check (fun l : Nat => if l = 0 then some [.lex 1] else some [.lex 2, .int (-1)]) 5 0 [.lex 1] = .invalid := by decide

/-- The statement of **C61** fails for a default target that leaves the first context: the check returns without any
    message, but if the lexicon is the root lexicon, following its default target does not end. -/
theorem C61_violated : ∃ (dt : Nat → Option (List (Tgt Nat))) (l : Nat) (target : List (Tgt Nat)), dt l = some target ∧
    (∀ m, 1 ≤ m → (check dt m l target).silent = true) ∧ ¬ Ends dt [l] := by
  refine ⟨fun _ => some [.int (-1)], 0, [.int (-1)], rfl, ?_, not_ends rfl⟩
  intro m hm
  cases m with
  | zero => omega
  | succ m => rfl

/-- And the error for a circular default target may be given for a long chain that does end. -/
theorem C61_false_alarm : ∃ (dt : Nat → Option (List (Tgt Nat))) (l : Nat) (target : List (Tgt Nat)), dt l = some target ∧
    check dt 200 l target = .circularError ∧ Ends dt [l] := by
  refine ⟨fun n => if n < 150 then some [.lex (n + 1)] else none, 0, [.lex 1], rfl, by decide +kernel, ?_⟩
  have key : ∀ k n, n + k = 150 → ∀ st : List Nat, Ends (fun n => if n < 150 then some [.lex (n + 1)] else none) (n :: st) := by
    intro k
    induction k with
    | zero => intro n hn st; exact .here (by simp [next]; omega)
    | succ k ih =>
      intro n hn st
      refine .step (st' := (n + 1) :: n :: st) ?_ (ih (n + 1) (by omega) _)
      simp only [next]
      rw [if_pos (by omega)]
      rfl
  exact key 150 0 rfl []

end Parce.Val

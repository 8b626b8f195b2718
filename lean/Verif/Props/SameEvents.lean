import Verif.Model.SameEvents

/-!
# C134: events are the same only with the very same lexicons
-/

namespace Parce
namespace Ev

variable {X : Type} [DecidableEq X]

theorem tupleEq_refl (a : List Lexicon) : tupleEq a a = true := by
  induction a with
  | nil => rfl
  | cons x xs ih => simp [tupleEq, ih]

theorem tupleEq_zip (a b : List Lexicon) (h : tupleEq a b = true)
    (hz : (a.zip b).all (fun p => decide (p.1 = p.2)) = true) : a = b := by
  induction a generalizing b with
  | nil => cases b with
    | nil => rfl
    | cons y ys => simp [tupleEq] at h
  | cons x xs ih => cases b with
    | nil => simp [tupleEq] at h
    | cons y ys =>
      simp only [tupleEq, Bool.and_eq_true] at h
      simp only [List.zip_cons_cons, List.all_cons, Bool.and_eq_true, decide_eq_true_eq] at hz
      rw [hz.1, ih ys h.2 hz.2]

theorem tupleEq_nil (b : List Lexicon) (h : tupleEq [] b = true) : b = [] := by
  cases b with
  | nil => rfl
  | cons y ys => simp [tupleEq] at h

theorem zip_self (a : List Lexicon) :
    (a.zip a).all (fun p => decide (p.1 = p.2)) = true := by
  induction a with
  | nil => rfl
  | cons x xs ih =>
    rw [List.zip_cons_cons, List.all_cons, ih]
    simp

/-- **C134.**  `same_events` is true exactly for events with the same lexemes
and the same target, where the lexicons pushed are identical, not only equal. -/
theorem C134_same (a b : Event X) : sameEvents a b = true ↔ a = b := by
  constructor
  · intro h
    obtain ⟨ta, la⟩ := a
    obtain ⟨tb, lb⟩ := b
    unfold sameEvents at h
    cases he : Event.eq ⟨ta, la⟩ ⟨tb, lb⟩ with
    | false => simp [he] at h
    | true =>
      simp only [he, Bool.not_true, Bool.false_eq_true, if_false] at h
      simp only [Event.eq, Bool.and_eq_true, decide_eq_true_eq] at he
      obtain ⟨ht, hl⟩ := he
      subst hl
      cases ta with
      | none => cases tb with
        | none => rfl
        | some t => simp at ht
      | some s => cases tb with
        | none => simp at ht
        | some t =>
          obtain ⟨sp, su⟩ := s
          obtain ⟨tp, tu⟩ := t
          simp only [Target.eq, Bool.and_eq_true, decide_eq_true_eq] at ht
          obtain ⟨hp, hu⟩ := ht
          subst hp
          cases su with
          | nil => rw [tupleEq_nil tu hu]
          | cons x xs =>
            simp only [List.isEmpty_cons, Bool.false_eq_true, if_false] at h
            rw [tupleEq_zip _ _ hu h]
  · rintro rfl
    obtain ⟨ta, la⟩ := a
    cases ta with
    | none => simp [sameEvents, Event.eq]
    | some s =>
      simp only [sameEvents, Event.eq, Target.eq, tupleEq_refl, zip_self]
      simp

/-- **C134.**  The comparison with `==` alone would not be enough: there are
events that compare equal and are not the same. -/
theorem C134_needed : ∃ a b : Event Nat, a.eq b = true ∧ sameEvents a b = false :=
  ⟨⟨some ⟨0, [⟨1, 2, some 3, 0⟩]⟩, [7]⟩, ⟨some ⟨0, [⟨1, 2, some 4, 0⟩]⟩, [7]⟩, by decide⟩

example : sameEvents (X := Nat) ⟨some ⟨-1, [⟨1, 2, none, 0⟩, ⟨1, 2, some 4, 0⟩]⟩, [7, 8]⟩
    ⟨some ⟨-1, [⟨1, 2, none, 0⟩, ⟨1, 2, some 4, 0⟩]⟩, [7, 8]⟩ = true := by decide

example : sameEvents (X := Nat) ⟨some ⟨-1, [⟨1, 2, none, 0⟩, ⟨1, 2, some 4, 0⟩]⟩, [7, 8]⟩
    ⟨some ⟨-1, [⟨1, 2, none, 0⟩, ⟨1, 2, none, 0⟩]⟩, [7, 8]⟩ = false := by decide

end Ev
end Parce

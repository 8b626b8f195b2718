import Verif.Model.Locker
import Verif.Lemmas.Process
/-!
# Lemmas about object locks
-/
namespace Parce.OL
open Parce.TB (get_set get_lt set_self set_other)

/-- The lock object of a thread that has created it. -/
def PC.own? : PC → Option Nat
  | .wait k true => some k
  | .inside k true => some k
  | .cleanup k => some k
  | _ => none

def PC.in? : PC → Option Nat
  | .inside k _ => some k
  | _ => none

structure Inv (s : State) : Prop where
  /-- the entry, if any, has exactly one owner -/
  owner : ∀ (k : Nat), s.entry = some k → ∃ (i : Nat) (p : PC), s.pcs[i]? = some p ∧ p.own? = some k
  own : ∀ (i k : Nat) (p : PC), s.pcs[i]? = some p → p.own? = some k → s.entry = some k
  uniq : ∀ (i j k : Nat) (p q : PC), s.pcs[i]? = some p → s.pcs[j]? = some q → p.own? = some k → q.own? = some k → i = j
  ins : ∀ (i k : Nat) (p : PC), s.pcs[i]? = some p → p.in? = some k → k ∈ s.held
  inuniq : ∀ (i j k : Nat) (p q : PC), s.pcs[i]? = some p → s.pcs[j]? = some q → p.in? = some k → q.in? = some k → i = j
  nodup : s.held.Nodup
  fresh : ∀ (i k : Nat) (p : PC), s.pcs[i]? = some p → p.lock? = some k ∨ p.own? = some k → k < s.next
  fine : ∀ (i : Nat), s.pcs[i]? ≠ some .failed

theorem Inv.init (n : Nat) : Inv (State.init n) := by
  have h : ∀ (i : Nat) (p : PC), (State.init n).pcs[i]? = some p → p = .idle := by
    intro i p hp
    simp only [State.init, List.getElem?_replicate] at hp
    split at hp
    · exact (Option.some.inj hp).symm
    · simp at hp
  refine ⟨by simp [State.init], ?_, ?_, ?_, ?_, by simp [State.init], ?_, ?_⟩ <;> intros <;>
    grind [PC.own?, PC.in?, PC.lock?]

theorem Inv.step {s s' : State} (hs : Inv s) (h : Step s s') : Inv s' := by
  obtain ⟨h1, h2, h3, h4, h5, h6, h7, h8⟩ := hs
  cases h with
  | found i k h he =>
    have hi := h8 i
    refine ⟨?_, ?_, ?_, ?_, ?_, h6, ?_, ?_⟩
    · intro k' hk'
      obtain ⟨j, p, hj, hp⟩ := h1 k' hk'
      exact ⟨j, p, set_other h hj (by rintro rfl; simp [PC.own?] at hp), hp⟩
    all_goals intros
    all_goals simp only [get_set, ne_eq] at *
    all_goals grind [PC.own?, PC.in?, PC.lock?]
  | create i h he =>
    refine ⟨?_, ?_, ?_, ?_, ?_, h6, ?_, ?_⟩
    · intro k' hk'
      exact ⟨i, _, set_self h, hk'⟩
    all_goals intros
    all_goals simp only [get_set, ne_eq] at *
    all_goals grind [PC.own?, PC.in?, PC.lock?]
  | acquire i k own h hk =>
    refine ⟨?_, ?_, ?_, ?_, ?_, List.nodup_cons.2 ⟨hk, h6⟩, ?_, ?_⟩
    · intro k' hk'
      obtain ⟨j, p, hj, hp⟩ := h1 k' hk'
      by_cases hij : i = j
      · subst hij
        rw [h] at hj
        cases hj
        cases own with
        | true => exact ⟨i, _, set_self h, by simpa [PC.own?] using hp⟩
        | false => simp [PC.own?] at hp
      · exact ⟨j, p, get_set.2 (Or.inr ⟨hij, hj⟩), hp⟩
    all_goals intros
    all_goals
      have f7 := h7 i k _ h (Or.inl rfl)
      have fi : (PC.inside k own).in? = some k := rfl
      have fo : (PC.wait k true).own? = some k := rfl
      have fw : (PC.wait k own).own? = (PC.inside k own).own? := by cases own <;> rfl
      simp only [get_set, ne_eq] at *
    all_goals grind [PC.own?, PC.in?, PC.lock?]
  | release i k h =>
    refine ⟨?_, ?_, ?_, ?_, ?_, h6.erase k, ?_, ?_⟩
    · intro k' hk'
      obtain ⟨j, p, hj, hp⟩ := h1 k' hk'
      exact ⟨j, p, set_other h hj (by rintro rfl; simp [PC.own?] at hp), hp⟩
    all_goals intros
    all_goals simp only [get_set, ne_eq] at *
    all_goals grind [PC.own?, PC.in?, PC.lock?]
  | releaseOwn i k h =>
    refine ⟨?_, ?_, ?_, ?_, ?_, h6.erase k, ?_, ?_⟩
    · intro k' hk'
      obtain ⟨j, p, hj, hp⟩ := h1 k' hk'
      by_cases hij : i = j
      · subst hij
        rw [h] at hj
        cases hj
        exact ⟨i, _, set_self h, by simpa [PC.own?] using hp⟩
      · exact ⟨j, p, get_set.2 (Or.inr ⟨hij, hj⟩), hp⟩
    all_goals intros
    all_goals simp only [get_set, ne_eq] at *
    all_goals grind [PC.own?, PC.in?, PC.lock?]
  | delete i k h he =>
    refine ⟨?_, ?_, ?_, ?_, ?_, h6, ?_, ?_⟩
    · intro k' hk'; simp at hk'
    all_goals intros
    all_goals simp only [get_set, ne_eq] at *
    all_goals grind [PC.own?, PC.in?, PC.lock?]
  | deleteError i k h he =>
    have := h2 i k _ h rfl
    rw [he] at this
    simp at this

theorem Reach.inv {n : Nat} {s : State} (h : Reach n s) : Inv s := by
  induction h with
  | init => exact Inv.init n
  | step _ h2 ih => exact ih.step h2

end Parce.OL

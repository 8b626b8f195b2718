import Verif.Lemmas.Locker
/-!
# Property C37: object locks
-/
namespace Parce.OL
open Parce.TB (get_set get_lt set_self set_other)

/-- **C37 is violated by the code**: two threads inside at the same time. Thread 0 creates the
    lock, thread 1 waits for it; when thread 0 leaves, thread 1 enters; then thread 0 deletes the
    lock from the dictionary, and its next call creates another lock. -/
theorem C37_violated : ∃ s : State, Reach 2 s ∧ s.pcs = [.inside 1 true, .inside 0 false] := by
  have r0 : Reach 2 (State.init 2) := .init
  have r1 : Reach 2 ⟨some 0, [], 1, [.wait 0 true, .idle]⟩ := r0.step (.create _ 0 rfl rfl)
  have r2 : Reach 2 ⟨some 0, [0], 1, [.inside 0 true, .idle]⟩ := r1.step (.acquire _ 0 0 true rfl (by simp))
  have r3 : Reach 2 ⟨some 0, [0], 1, [.inside 0 true, .wait 0 false]⟩ := r2.step (.found _ 1 0 rfl rfl)
  have r4 : Reach 2 ⟨some 0, [], 1, [.cleanup 0, .wait 0 false]⟩ := r3.step (.releaseOwn _ 0 0 rfl)
  have r5 : Reach 2 ⟨some 0, [0], 1, [.cleanup 0, .inside 0 false]⟩ := r4.step (.acquire _ 1 0 false rfl (by simp))
  have r6 : Reach 2 ⟨none, [0], 1, [.idle, .inside 0 false]⟩ := r5.step (.delete _ 0 0 rfl (by simp))
  have r7 : Reach 2 ⟨some 1, [0], 2, [.wait 1 true, .inside 0 false]⟩ := r6.step (.create _ 0 rfl rfl)
  have r8 : Reach 2 ⟨some 1, [1, 0], 2, [.inside 1 true, .inside 0 false]⟩ := r7.step (.acquire _ 0 1 true rfl (by simp))
  exact ⟨_, r8, rfl⟩

/-- **C37** (partial: threads that got the same lock object). They are not inside at the same
    time. -/
theorem C37_same_lock_partial (n : Nat) (s : State) (h : Reach n s) (i j k : Nat) (a b : Bool)
    (hi : s.pcs[i]? = some (.inside k a)) (hj : s.pcs[j]? = some (.inside k b)) : i = j :=
  h.inv.inuniq i j k _ _ hi hj rfl rfl

/-- **C37.** `del locker[obj]` never raises KeyError. -/
theorem C37_no_error (n : Nat) (s : State) (h : Reach n s) (i : Nat) : s.pcs[i]? ≠ some .failed := h.inv.fine i

/-- **C37** (partial: in executions in which the entry is never deleted while another thread still
    waits for or holds the lock object). At most one thread is inside. -/
theorem C37_exclusive_partial (n : Nat) (s : State) (h : ReachAlone n s) (i j k k' : Nat) (a b : Bool)
    (hi : s.pcs[i]? = some (.inside k a)) (hj : s.pcs[j]? = some (.inside k' b)) : i = j := by
  have key : Inv s ∧ ∀ (i k : Nat) (p : PC), s.pcs[i]? = some p → p.lock? = some k → s.entry = some k := by
    clear hi hj
    induction h with
    | init =>
      refine ⟨Inv.init n, ?_⟩
      intro i k p hp hk
      simp only [State.init, List.getElem?_replicate] at hp
      split at hp
      · cases hp; simp [PC.lock?] at hk
      · simp at hp
    | step h1 h2 h3 ih =>
      refine ⟨ih.1.step h2, ?_⟩
      obtain ⟨hinv, hlk⟩ := ih
      cases h2 with
      | delete i k h he =>
        intro j k' p hj hk
        rcases get_set.1 hj with ⟨_, _, rfl⟩ | ⟨_, hj⟩
        · simp [PC.lock?] at hk
        · have := h3 i k h (by simp only; exact set_self h) j p hj
          rw [this] at hk
          simp at hk
      | found i k h he => intro j k' p hj hk; simp only [get_set] at *; grind [PC.lock?]
      | create i h he => intro j k' p hj hk; simp only [get_set] at *; grind [PC.lock?]
      | acquire i k own h hk =>
        have f : (PC.wait k own).lock? = some k := rfl
        intro j k' p hj hk; simp only [get_set] at *; grind [PC.lock?]
      | release i k h => intro j k' p hj hk; simp only [get_set] at *; grind [PC.lock?]
      | releaseOwn i k h => intro j k' p hj hk; simp only [get_set] at *; grind [PC.lock?]
      | deleteError i k h he => intro j k' p hj hk; simp only [get_set] at *; grind [PC.lock?]
  have e1 := key.2 i k _ hi rfl
  have e2 := key.2 j k' _ hj rfl
  rw [e1] at e2
  cases e2
  exact key.1.inuniq i j k _ _ hi hj rfl rfl

/-- Thread 1 waits while thread 0 is inside. -/
example : ∃ s : State, ReachAlone 2 s ∧ s.pcs = [.inside 0 true, .wait 0 false] := by
  have ok : ∀ (p q p' q' : PC), (∀ k, p ≠ .cleanup k) → (∀ k, q ≠ .cleanup k) → ∀ (i k : Nat),
      [p, q][i]? = some (.cleanup k) → [p', q'][i]? = some .idle →
      ∀ (j : Nat) (r : PC), [p, q][j]? = some r → r.lock? = none := by
    intro p q p' q' h1 h2 i k hi
    match i with
    | 0 => simp at hi; exact absurd hi (h1 k)
    | 1 => simp at hi; exact absurd hi (h2 k)
    | i + 2 => simp at hi
  have r0 : ReachAlone 2 (State.init 2) := .init
  have r1 : ReachAlone 2 ⟨some 0, [], 1, [.wait 0 true, .idle]⟩ :=
    r0.step (.create _ 0 rfl rfl) (ok _ _ _ _ (by simp) (by simp))
  have r2 : ReachAlone 2 ⟨some 0, [0], 1, [.inside 0 true, .idle]⟩ :=
    r1.step (.acquire _ 0 0 true rfl (by simp)) (ok _ _ _ _ (by simp) (by simp))
  have r3 : ReachAlone 2 ⟨some 0, [0], 1, [.inside 0 true, .wait 0 false]⟩ :=
    r2.step (.found _ 1 0 rfl rfl) (ok _ _ _ _ (by simp) (by simp))
  exact ⟨_, r3, rfl⟩

end Parce.OL

import Verif.Lemmas.Process
import Verif.Lemmas.Worker
/-!
# Properties C34 and C35: concurrent rebuilding
-/
namespace Parce
variable {C : Type}

section TB
open TB

/-! ## C34 -/

/-- **C34.** At any moment every change added was taken (in the order in which it was added) or
    is still in the list; when something is in the list, some thread is in `rebuild()` and will
    still look. When no thread is in `rebuild()`, every change was taken. -/
theorem C34_no_lost_change (n : Nat) (s : State C) (h : Reach n s) :
    s.added = s.taken ++ s.changes ∧
    ((∀ (i : Nat) (p : PC C), s.pcs[i]? = some p → p = .idle) → s.changes = [] ∧ s.taken = s.added) := by
  have hi := h.inv
  refine ⟨hi.hist, fun hidle => ?_⟩
  have hc : s.changes = [] := by
    by_cases hc : s.changes = []
    · exact hc
    · obtain ⟨i, p, hp, hq⟩ := hi.pend hc
      rw [hidle i p hp] at hq
      simp at hq
  refine ⟨hc, ?_⟩
  rw [hi.hist, hc, List.append_nil]

/-- **C34.** No deadlock: while a thread is in `rebuild()`, some thread in `rebuild()` can go on
    (a step that is not a new call). -/
theorem C34_progress (n : Nat) (s : State C) (h : Reach n s) (i : Nat) (p : PC C) (hp : s.pcs[i]? = some p)
    (hne : p ≠ .idle) : ∃ s', Step s s' ∧ s'.weight < s.weight := by
  have hi := h.inv
  have fin : ∀ (j : Nat), s.pcs[j]? = some .final → ∃ s', Step s s' ∧ s'.weight < s.weight := by
    intro j hj
    refine ⟨_, Step.finish s j hj, ?_⟩
    have := sum_set s.pcs j .final .idle hj
    simp only [State.weight, PC.weight] at this ⊢
    omega
  cases hl : s.lock with
  | some j => exact fin j (hi.lock1 j hl)
  | none =>
    cases p with
    | idle => exact absurd rfl hne
    | adding c =>
      refine ⟨_, Step.add s i c hp hl, ?_⟩
      have := sum_set s.pcs i (.adding c) .test hp
      simp only [State.weight, PC.weight, List.length_append, List.length_singleton] at this ⊢
      omega
    | test =>
      by_cases hb : s.busy = true
      · refine ⟨_, Step.testBusy s i hp hb, ?_⟩
        have := sum_set s.pcs i .test .idle hp
        simp only [State.weight, PC.weight] at this ⊢
        omega
      · refine ⟨_, Step.testFree s i hp (by simpa using hb), ?_⟩
        have := sum_set s.pcs i .test .setBusy hp
        simp only [State.weight, PC.weight] at this ⊢
        omega
    | setBusy =>
      refine ⟨_, Step.setBusy s i hp, ?_⟩
      have := sum_set s.pcs i .setBusy .start hp
      simp only [State.weight, PC.weight] at this ⊢
      omega
    | start =>
      by_cases hc : s.changes = []
      · refine ⟨_, Step.none s i hp hl hc, ?_⟩
        have := sum_set s.pcs i .start .final hp
        simp only [State.weight, PC.weight] at this ⊢
        omega
      · refine ⟨_, Step.take s i hp hl hc, ?_⟩
        have := sum_set s.pcs i .start .building hp
        have h2 : 0 < s.changes.length := List.length_pos_iff.2 hc
        simp only [State.weight, PC.weight, List.length_nil] at this ⊢
        omega
    | building =>
      refine ⟨_, Step.built s i hp, ?_⟩
      have := sum_set s.pcs i .building .start hp
      simp only [State.weight, PC.weight] at this ⊢
      omega
    | final => exact fin i hp

/-- **C34.** Without new calls, rebuilding comes to an end: every step except a call decreases the
    weight (a natural number). With `C34_progress` and `C34_no_lost_change`: every change is
    eventually taken by a build. -/
theorem C34_terminates (s s' : State C) (h : Step s s') :
    s'.weight < s.weight ∨ ∃ i c, s.pcs[i]? = some .idle ∧ s' = { s with pcs := s.pcs.set i (.adding c) } := by
  cases h with
  | call i c h => exact Or.inr ⟨i, c, h, rfl⟩
  | add i c h hl =>
    have := sum_set s.pcs i (.adding c) .test h
    left; simp only [State.weight, PC.weight, List.length_append, List.length_singleton] at this ⊢
    omega
  | testBusy i h hb =>
    have := sum_set s.pcs i .test .idle h
    left; simp only [State.weight, PC.weight] at this ⊢; omega
  | testFree i h hb =>
    have := sum_set s.pcs i .test .setBusy h
    left; simp only [State.weight, PC.weight] at this ⊢; omega
  | setBusy i h =>
    have := sum_set s.pcs i .setBusy .start h
    left; simp only [State.weight, PC.weight] at this ⊢; omega
  | take i h hl hc =>
    have := sum_set s.pcs i .start .building h
    have h2 : 0 < s.changes.length := List.length_pos_iff.2 hc
    left; simp only [State.weight, PC.weight, List.length_nil] at this ⊢; omega
  | none i h hl hc =>
    have := sum_set s.pcs i .start .final h
    left; simp only [State.weight, PC.weight] at this ⊢; omega
  | poll i c cs h hc =>
    left; simp only [State.weight, hc, List.length_cons]; omega
  | built i h =>
    have := sum_set s.pcs i .building .start h
    left; simp only [State.weight, PC.weight] at this ⊢; omega
  | finish i h =>
    have := sum_set s.pcs i .final .idle h
    left; simp only [State.weight, PC.weight] at this ⊢; omega

/-- **C34 is violated by the code** in its second half: two threads can build at the same time,
    because testing and setting `busy` is not one step. -/
theorem C34_violated_exclusive :
    ∃ s : State Nat, Reach 3 s ∧ s.pcs = [.building, .building, .idle] := by
  have r0 : Reach 3 (State.init Nat 3) := .init
  have r1 : Reach 3 ⟨[], false, none, [.adding 7, .idle, .idle], [], []⟩ := r0.step (.call _ 0 7 rfl)
  have r2 : Reach 3 ⟨[], false, none, [.adding 7, .adding 8, .idle], [], []⟩ := r1.step (.call _ 1 8 rfl)
  have r3 : Reach 3 ⟨[7], false, none, [.test, .adding 8, .idle], [7], []⟩ := r2.step (.add _ 0 7 rfl rfl)
  have r4 : Reach 3 ⟨[7], false, none, [.setBusy, .adding 8, .idle], [7], []⟩ := r3.step (.testFree _ 0 rfl rfl)
  have r5 : Reach 3 ⟨[7, 8], false, none, [.setBusy, .test, .idle], [7, 8], []⟩ := r4.step (.add _ 1 8 rfl rfl)
  have r6 : Reach 3 ⟨[7, 8], false, none, [.setBusy, .setBusy, .idle], [7, 8], []⟩ := r5.step (.testFree _ 1 rfl rfl)
  have r7 : Reach 3 ⟨[7, 8], true, none, [.start, .setBusy, .idle], [7, 8], []⟩ := r6.step (.setBusy _ 0 rfl)
  have r8 : Reach 3 ⟨[], true, none, [.building, .setBusy, .idle], [7, 8], [7, 8]⟩ := r7.step (.take _ 0 rfl rfl (by simp))
  have r9 : Reach 3 ⟨[], true, none, [.building, .start, .idle], [7, 8], [7, 8]⟩ := r8.step (.setBusy _ 1 rfl)
  have r10 : Reach 3 ⟨[], true, none, [.building, .start, .adding 9], [7, 8], [7, 8]⟩ := r9.step (.call _ 2 9 rfl)
  have r11 : Reach 3 ⟨[9], true, none, [.building, .start, .test], [7, 8, 9], [7, 8]⟩ := r10.step (.add _ 2 9 rfl rfl)
  have r12 : Reach 3 ⟨[9], true, none, [.building, .start, .idle], [7, 8, 9], [7, 8]⟩ := r11.step (.testBusy _ 2 rfl rfl)
  have r13 : Reach 3 ⟨[], true, none, [.building, .building, .idle], [7, 8, 9], [7, 8, 9]⟩ := r12.step (.take _ 1 rfl rfl (by simp))
  exact ⟨_, r13, rfl⟩

/-- **C34** (partial: when the calls of `rebuild()` do not overlap, as the documentation requires:
    "should always be called from the main thread"). At most one thread is in `process()`. -/
theorem C34_exclusive_partial (n : Nat) (s : State C) (h : ReachOne n s) (i j : Nat) (p q : PC C)
    (hi : s.pcs[i]? = some p) (hj : s.pcs[j]? = some q) (hp : p.running = true) (hq : q.running = true) : i = j :=
  h.inv.1.one i j p q hi hj hp hq

/-- A state in which one change is being built and another one waits in the list. -/
example : ∃ s : State Nat, ReachOne 2 s ∧ s.added = [7, 8] ∧ s.taken = [7] ∧ s.changes = [8] ∧
    s.pcs = [.building, .test] := by
  have one : ∀ (p q : PC Nat) (i j : Nat) (a b : PC Nat), (p.calling = false ∨ q.calling = false) →
      [p, q][i]? = some a → [p, q][j]? = some b → a.calling = true → b.calling = true → i = j := by
    intro p q i j a b h hi hj ha hb
    match i, j with
    | 0, 0 => rfl
    | 1, 1 => rfl
    | 0, 1 => simp at hi hj; subst hi hj; simp [ha, hb] at h
    | 1, 0 => simp at hi hj; subst hi hj; simp [ha, hb] at h
    | i + 2, _ => simp at hi
    | _, j + 2 => simp at hj
  have r0 : ReachOne 2 (State.init Nat 2) := .init
  have r1 : ReachOne 2 ⟨[], false, none, [.adding 7, .idle], [], []⟩ := r0.step (.call _ 0 7 rfl) (one _ _ · · · · (.inr rfl))
  have r2 : ReachOne 2 ⟨[7], false, none, [.test, .idle], [7], []⟩ := r1.step (.add _ 0 7 rfl rfl) (one _ _ · · · · (.inr rfl))
  have r3 : ReachOne 2 ⟨[7], false, none, [.setBusy, .idle], [7], []⟩ := r2.step (.testFree _ 0 rfl rfl) (one _ _ · · · · (.inr rfl))
  have r4 : ReachOne 2 ⟨[7], true, none, [.start, .idle], [7], []⟩ := r3.step (.setBusy _ 0 rfl) (one _ _ · · · · (.inr rfl))
  have r5 : ReachOne 2 ⟨[], true, none, [.building, .idle], [7], [7]⟩ := r4.step (.take _ 0 rfl rfl (by simp)) (one _ _ · · · · (.inr rfl))
  have r6 : ReachOne 2 ⟨[], true, none, [.building, .adding 8], [7], [7]⟩ := r5.step (.call _ 1 8 rfl) (one _ _ · · · · (.inl rfl))
  have r7 : ReachOne 2 ⟨[8], true, none, [.building, .test], [7, 8], [7]⟩ := r6.step (.add _ 1 8 rfl rfl) (one _ _ · · · · (.inl rfl))
  exact ⟨_, r7, rfl, rfl, rfl, rfl⟩

end TB

section WK
open WK

/-! ## C35 -/

/-- **C35 is violated by the code.** `get_root(wait=True)` can return while a change that was
    added (its `update()` has returned) is not yet in the tree: the previous `process()` sets the
    tree state to IDLE after the next one has set it to BUILD. -/
theorem C35_violated : ∃ s : WK.State Nat, WK.Reach 2 s ∧ s.rootReady ∧
    (∀ (i : Nat) (p : WK.PC Nat), s.pcs[i]? = some p → p.calling = false) ∧ 8 ∈ s.added ∧ 8 ∉ s.built := by
  -- the next update comes (step 10) while the first thread is leaving `process()`
  have r0 : WK.Reach 2 (WK.State.init Nat 2) := .init
  have r1 : WK.Reach 2 ⟨[], false, none, false, [.adding 7, .idle], [], []⟩ := r0.step (.call _ 0 7 rfl)
  have r2 : WK.Reach 2 ⟨[7], false, none, false, [.test, .idle], [7], []⟩ := r1.step (.add _ 0 7 rfl rfl)
  have r3 : WK.Reach 2 ⟨[7], false, none, false, [.setBusy, .idle], [7], []⟩ := r2.step (.testFree _ 0 rfl rfl)
  have r4 : WK.Reach 2 ⟨[7], true, none, false, [.begin, .idle], [7], []⟩ := r3.step (.setBusy _ 0 rfl)
  have r5 : WK.Reach 2 ⟨[7], true, none, true, [.start, .idle], [7], []⟩ := r4.step (.begin _ 0 rfl)
  have r6 : WK.Reach 2 ⟨[], true, none, true, [.building [7], .idle], [7], []⟩ := r5.step (.take _ 0 rfl rfl (by simp))
  have r7 : WK.Reach 2 ⟨[], true, none, true, [.start, .idle], [7], [7]⟩ := r6.step (.built _ 0 _ rfl)
  have r8 : WK.Reach 2 ⟨[], true, some 0, true, [.final, .idle], [7], [7]⟩ := r7.step (.none _ 0 rfl rfl rfl)
  have r9 : WK.Reach 2 ⟨[], false, none, true, [.done, .idle], [7], [7]⟩ := r8.step (.finish _ 0 rfl)
  have r10 : WK.Reach 2 ⟨[], false, none, true, [.done, .adding 8], [7], [7]⟩ := r9.step (.call _ 1 8 rfl)
  have r11 : WK.Reach 2 ⟨[8], false, none, true, [.done, .test], [7, 8], [7]⟩ := r10.step (.add _ 1 8 rfl rfl)
  have r12 : WK.Reach 2 ⟨[8], false, none, true, [.done, .setBusy], [7, 8], [7]⟩ := r11.step (.testFree _ 1 rfl rfl)
  have r13 : WK.Reach 2 ⟨[8], true, none, true, [.done, .begin], [7, 8], [7]⟩ := r12.step (.setBusy _ 1 rfl)
  have r14 : WK.Reach 2 ⟨[8], true, none, true, [.done, .start], [7, 8], [7]⟩ := r13.step (.begin _ 1 rfl)
  have r15 : WK.Reach 2 ⟨[8], true, none, false, [.finished, .start], [7, 8], [7]⟩ := r14.step (.done _ 0 rfl)
  refine ⟨_, r15, rfl, ?_, by decide, by decide⟩
  intro i p hp
  match i with
  | 0 => cases hp; rfl
  | 1 => cases hp; rfl
  | i + 2 => simp [WK.State.init] at hp

/-- **C35** (partial: in executions where at most one thread is in `Worker.process()` at a time).
    When `get_root(wait=True)` returns and no `update()` is in progress, every change added is in
    the tree. -/
theorem C35_root_current_partial (n : Nat) (s : WK.State C) (h : WK.ReachOne n s) (hr : s.rootReady)
    (hc : ∀ (i : Nat) (p : WK.PC C), s.pcs[i]? = some p → p.calling = false) (c : C) (hm : c ∈ s.added) :
    c ∈ s.built := by
  have hi := h.reach.inv
  have ha := h.active.1
  have quiet : ∀ (i : Nat) (p : WK.PC C), s.pcs[i]? = some p → p.active = false := by
    intro i p hp
    cases hq : p.active with
    | false => rfl
    | true =>
      have := ha ⟨i, p, hp, hq⟩
      rw [WK.State.rootReady] at hr
      simp [hr] at this
  rcases hi.hist c hm with h' | h' | ⟨i, ds, hi', _⟩
  · exact h'
  · obtain ⟨i, p, hp, hq⟩ := hi.pend (by intro hn; rw [hn] at h'; simp at h')
    have h1 := quiet i p hp
    have h2 := hc i p hp
    cases p <;> simp [WK.PC.active, WK.PC.calling, WK.PC.willLook] at h1 h2 hq
  · have := quiet i _ hi'
    simp [WK.PC.active] at this

/-- **C35.** Whatever the interleaving: when no thread is in `update()` or `process()`, every
    change added is in the tree. -/
theorem C35_quiescent (n : Nat) (s : WK.State C) (h : WK.Reach n s)
    (hc : ∀ (i : Nat) (p : WK.PC C), s.pcs[i]? = some p → p = .idle) (c : C) (hm : c ∈ s.added) :
    c ∈ s.built := by
  have hi := h.inv
  rcases hi.hist c hm with h' | h' | ⟨i, ds, hi', _⟩
  · exact h'
  · obtain ⟨i, p, hp, hq⟩ := hi.pend (by intro hn; rw [hn] at h'; simp at h')
    rw [hc i p hp] at hq
    simp [WK.PC.willLook] at hq
  · have := hc i _ hi'
    simp at this

/-- One update, completely processed. -/
example : ∃ s : WK.State Nat, WK.ReachOne 1 s ∧ s.rootReady ∧ s.added = [7] ∧ s.pcs = [.tail] := by
  have one : ∀ (p : WK.PC Nat) (i j : Nat) (a b : WK.PC Nat),
      [p][i]? = some a → [p][j]? = some b → a.processing = true → b.processing = true → i = j := by
    intro p i j a b hi hj _ _
    match i, j with
    | 0, 0 => rfl
    | i + 1, _ => simp at hi
    | _, j + 1 => simp at hj
  have r0 : WK.ReachOne 1 (WK.State.init Nat 1) := .init
  have r1 : WK.ReachOne 1 ⟨[], false, none, false, [.adding 7], [], []⟩ := r0.step (.call _ 0 7 rfl) (one _)
  have r2 : WK.ReachOne 1 ⟨[7], false, none, false, [.test], [7], []⟩ := r1.step (.add _ 0 7 rfl rfl) (one _)
  have r3 : WK.ReachOne 1 ⟨[7], false, none, false, [.setBusy], [7], []⟩ := r2.step (.testFree _ 0 rfl rfl) (one _)
  have r4 : WK.ReachOne 1 ⟨[7], true, none, false, [.begin], [7], []⟩ := r3.step (.setBusy _ 0 rfl) (one _)
  have r5 : WK.ReachOne 1 ⟨[7], true, none, true, [.start], [7], []⟩ := r4.step (.begin _ 0 rfl) (one _)
  have r6 : WK.ReachOne 1 ⟨[], true, none, true, [.building [7]], [7], []⟩ := r5.step (.take _ 0 rfl rfl (by simp)) (one _)
  have r7 : WK.ReachOne 1 ⟨[], true, none, true, [.start], [7], [7]⟩ := r6.step (.built _ 0 _ rfl) (one _)
  have r8 : WK.ReachOne 1 ⟨[], true, some 0, true, [.final], [7], [7]⟩ := r7.step (.none _ 0 rfl rfl rfl) (one _)
  have r9 : WK.ReachOne 1 ⟨[], false, none, true, [.done], [7], [7]⟩ := r8.step (.finish _ 0 rfl) (one _)
  have r10 : WK.ReachOne 1 ⟨[], false, none, false, [.finished], [7], [7]⟩ := r9.step (.done _ 0 rfl) (one _)
  have r11 : WK.ReachOne 1 ⟨[], false, none, false, [.tail], [7], [7]⟩ := r10.step (.finished _ 0 rfl) (one _)
  exact ⟨_, r11, rfl, rfl, rfl⟩

end WK
end Parce

/-!
# Model of the rebuild protocol of `TreeBuilder` in parce/treebuilder.py

Any number of threads call `rebuild()`; each step below is one atomic action of one thread, the
threads are interleaved in any order. Building and replacing the tree itself is not modelled
here, only when it happens and which changes it takes into account. A failing build (an
exception in the lexer) is not modelled.
-/
namespace Parce.TB

/-- Where a thread is. -/
inductive PC (C : Type) where
  /-- not in `rebuild()` -/
  | idle
  /-- in `add_changes`, wants the lock (`treebuilder.py:215`) -/
  | adding (c : C)
  /-- about to evaluate `if not self.busy` (203) -/
  | test
  /-- about to execute `self.busy = True` (204) and `start_processing()` (205) -/
  | setBusy
  /-- in `process()`, about to acquire the lock (562, 575) -/
  | start
  /-- building and replacing the tree, without the lock (565-574) -/
  | building
  /-- holds the lock, found no changes, about to execute `self.busy = False` (583-584) -/
  | final
deriving DecidableEq, Repr

/-- The shared state and the threads. `added` and `taken` are histories: all changes added, and
    all changes removed from the list by `get_changes` in order to be built. -/
structure State (C : Type) where
  changes : List C
  busy : Bool
  lock : Option Nat
  pcs : List (PC C)
  added : List C
  taken : List C

/-- A `TreeBuilder` with `n` threads that do nothing yet (`treebuilder.py:161-166`). -/
def State.init (C : Type) (n : Nat) : State C := ⟨[], false, none, List.replicate n .idle, [], []⟩

inductive Step {C : Type} : State C → State C → Prop where
  /-- a thread calls `rebuild()` with a change -/
  | call (s : State C) (i : Nat) (c : C) (h : s.pcs[i]? = some .idle) :
      Step s { s with pcs := s.pcs.set i (.adding c) }
  /-- `with self._lock: self.changes.append(...)`, 215-216 -/
  | add (s : State C) (i : Nat) (c : C) (h : s.pcs[i]? = some (.adding c)) (hl : s.lock = none) :
      Step s { s with changes := s.changes ++ [c], added := s.added ++ [c], pcs := s.pcs.set i .test }
  /-- `if not self.busy` is false, 203 -/
  | testBusy (s : State C) (i : Nat) (h : s.pcs[i]? = some .test) (hb : s.busy = true) :
      Step s { s with pcs := s.pcs.set i .idle }
  /-- `if not self.busy` is true, 203 -/
  | testFree (s : State C) (i : Nat) (h : s.pcs[i]? = some .test) (hb : s.busy = false) :
      Step s { s with pcs := s.pcs.set i .setBusy }
  /-- `self.busy = True`, 204 -/
  | setBusy (s : State C) (i : Nat) (h : s.pcs[i]? = some .setBusy) :
      Step s { s with busy := true, pcs := s.pcs.set i .start }
  /-- acquire the lock, `get_changes()` returns changes, release the lock, 562-565, 575-576 -/
  | take (s : State C) (i : Nat) (h : s.pcs[i]? = some .start) (hl : s.lock = none) (hc : s.changes ≠ []) :
      Step s { s with changes := [], taken := s.taken ++ s.changes, pcs := s.pcs.set i .building }
  /-- acquire the lock, `get_changes()` returns nothing, the loop ends, 562-564, 575-576 -/
  | none (s : State C) (i : Nat) (h : s.pcs[i]? = some .start) (hl : s.lock = none) (hc : s.changes = []) :
      Step s { s with lock := some i, pcs := s.pcs.set i .final }
  /-- a build notices a change and restarts with it (`treebuilder.py:327-332`, 526-527, without
      the lock) -/
  | poll (s : State C) (i : Nat) (c : C) (cs : List C) (h : s.pcs[i]? = some .building) (hc : s.changes = c :: cs) :
      Step s { s with changes := cs, taken := s.taken ++ [c] }
  /-- the tree is built and replaced, 566-574 -/
  | built (s : State C) (i : Nat) (h : s.pcs[i]? = some .building) :
      Step s { s with pcs := s.pcs.set i .start }
  /-- `self.busy = False; self._lock.release()`, 583-584 -/
  | finish (s : State C) (i : Nat) (h : s.pcs[i]? = some .final) :
      Step s { s with busy := false, lock := .none, pcs := s.pcs.set i .idle }

/-- The states that can be reached with `n` threads. -/
inductive Reach {C : Type} (n : Nat) : State C → Prop where
  | init : Reach n (State.init C n)
  | step {s s' : State C} : Reach n s → Step s s' → Reach n s'

/-- In `process()`. -/
def PC.running {C : Type} : PC C → Bool
  | .start => true
  | .building => true
  | .final => true
  | _ => false

/-- In `rebuild()`, before `start_processing()`. -/
def PC.calling {C : Type} : PC C → Bool
  | .adding _ => true
  | .test => true
  | .setBusy => true
  | _ => false

/-- Executions in which the calls of `rebuild()` do not overlap (one thread, or one thread that
    lets another thread do the processing). -/
inductive ReachOne {C : Type} (n : Nat) : State C → Prop where
  | init : ReachOne n (State.init C n)
  | step {s s' : State C} : ReachOne n s → Step s s' →
      (∀ (i j : Nat) (p q : PC C), s'.pcs[i]? = some p → s'.pcs[j]? = some q → p.calling = true → q.calling = true → i = j) →
      ReachOne n s'

end Parce.TB

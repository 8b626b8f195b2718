/-!
# Model of the tree building protocol of `Worker` in parce/work.py

Threads call `update()`, which starts `process()`, possibly in the background
(`BackgroundWorker.run_process`, `work.py:336-346`); `get_root(wait=True)` reads the tree state.
Each step is one atomic action of one thread. The transformer is only modelled as a period of
time between the two places where the tree state is set to IDLE.
-/
namespace Parce.WK

/-- Where a thread is. After `begin` the thread stands for the one that runs `process()`. -/
inductive PC (C : Type) where
  | idle
  /-- in `update()`, wants the builder's lock (`work.py:141`) -/
  | adding (c : C)
  /-- about to evaluate `if not self._builder.busy` (142) -/
  | test
  /-- about to execute `self._builder.busy = True` (143) -/
  | setBusy
  /-- in `start()`, about to set the tree state to BUILD (154) -/
  | begin
  /-- in the builder's `process()`, about to acquire the lock (`treebuilder.py:562`, 575) -/
  | start
  /-- building and replacing the tree; the changes that the new tree takes into account -/
  | building (cs : List C)
  /-- no changes found, holds the lock, about to set `busy = False` (`treebuilder.py:583`) -/
  | final
  /-- about to set the tree state to DONE (`work.py:184`) -/
  | done
  /-- about to set the tree state to IDLE (187) -/
  | finished
  /-- running the transformer, and finally about to set the tree state to IDLE again (212) -/
  | tail
deriving DecidableEq, Repr

/-- `busyTree` is true when the tree state is BUILD or REPLACE (`state & REPLACE`,
    `work.py:223`, 257). `added` and `built` are histories: the changes added, and those taken
    into account in the current tree. -/
structure State (C : Type) where
  changes : List C
  busy : Bool
  lock : Option Nat
  busyTree : Bool
  pcs : List (PC C)
  added : List C
  built : List C

def State.init (C : Type) (n : Nat) : State C := ⟨[], false, none, false, List.replicate n .idle, [], []⟩

inductive Step {C : Type} : State C → State C → Prop where
  | call (s : State C) (i : Nat) (c : C) (h : s.pcs[i]? = some .idle) :
      Step s { s with pcs := s.pcs.set i (.adding c) }
  | add (s : State C) (i : Nat) (c : C) (h : s.pcs[i]? = some (.adding c)) (hl : s.lock = none) :
      Step s { s with changes := s.changes ++ [c], added := s.added ++ [c], pcs := s.pcs.set i .test }
  | testBusy (s : State C) (i : Nat) (h : s.pcs[i]? = some .test) (hb : s.busy = true) :
      Step s { s with pcs := s.pcs.set i .idle }
  | testFree (s : State C) (i : Nat) (h : s.pcs[i]? = some .test) (hb : s.busy = false) :
      Step s { s with pcs := s.pcs.set i .setBusy }
  | setBusy (s : State C) (i : Nat) (h : s.pcs[i]? = some .setBusy) :
      Step s { s with busy := true, pcs := s.pcs.set i .begin }
  | begin (s : State C) (i : Nat) (h : s.pcs[i]? = some .begin) :
      Step s { s with busyTree := true, pcs := s.pcs.set i .start }
  | take (s : State C) (i : Nat) (h : s.pcs[i]? = some .start) (hl : s.lock = none) (hc : s.changes ≠ []) :
      Step s { s with changes := [], busyTree := true, pcs := s.pcs.set i (.building s.changes) }
  | none (s : State C) (i : Nat) (h : s.pcs[i]? = some .start) (hl : s.lock = none) (hc : s.changes = []) :
      Step s { s with lock := some i, pcs := s.pcs.set i .final }
  | poll (s : State C) (i : Nat) (c : C) (cs ds : List C) (h : s.pcs[i]? = some (.building ds)) (hc : s.changes = c :: cs) :
      Step s { s with changes := cs, pcs := s.pcs.set i (.building (ds ++ [c])) }
  | built (s : State C) (i : Nat) (ds : List C) (h : s.pcs[i]? = some (.building ds)) :
      Step s { s with built := s.built ++ ds, pcs := s.pcs.set i .start }
  | finish (s : State C) (i : Nat) (h : s.pcs[i]? = some .final) :
      Step s { s with busy := false, lock := .none, pcs := s.pcs.set i .done }
  | done (s : State C) (i : Nat) (h : s.pcs[i]? = some .done) :
      Step s { s with busyTree := false, pcs := s.pcs.set i .finished }
  | finished (s : State C) (i : Nat) (h : s.pcs[i]? = some .finished) :
      Step s { s with busyTree := false, pcs := s.pcs.set i .tail }
  | tail (s : State C) (i : Nat) (h : s.pcs[i]? = some .tail) :
      Step s { s with busyTree := false, pcs := s.pcs.set i .idle }

inductive Reach {C : Type} (n : Nat) : State C → Prop where
  | init : Reach n (State.init C n)
  | step {s s' : State C} : Reach n s → Step s s' → Reach n s'

/-- In `update()`. -/
def PC.calling {C : Type} : PC C → Bool
  | .adding _ => true
  | .test => true
  | .setBusy => true
  | .begin => true
  | _ => false

/-- In `Worker.process()`. -/
def PC.processing {C : Type} : PC C → Bool
  | .idle => false
  | .adding _ => false
  | .test => false
  | .setBusy => false
  | .begin => false
  | _ => true

/-- Executions in which at most one thread is in `Worker.process()` at any time. -/
inductive ReachOne {C : Type} (n : Nat) : State C → Prop where
  | init : ReachOne n (State.init C n)
  | step {s s' : State C} : ReachOne n s → Step s s' →
      (∀ (i j : Nat) (p q : PC C), s'.pcs[i]? = some p → s'.pcs[j]? = some q →
        p.processing = true → q.processing = true → i = j) →
      ReachOne n s'

/-- `get_root(wait=True)` returns in this state (`work.py:257-263`). -/
def State.rootReady {C : Type} (s : State C) : Prop := s.busyTree = false

end Parce.WK

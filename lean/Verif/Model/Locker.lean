/-!
# Model of `object_locker` in parce/util.py, for one object

Any number of threads execute `with lock(obj): ...`, any number of times. Each step is one atomic
action of one thread. Lock objects are numbered in order of creation.
-/
namespace Parce.OL

/-- Where a thread is; `k` is the lock object it got from `lock_object`, `own` tells whether it
    got the `cleanup()` context manager (it created the lock, `util.py:501-510`) or the lock
    itself (499). -/
inductive PC where
  | idle
  /-- has got the lock object, about to acquire it (505 or the `with` statement itself) -/
  | wait (k : Nat) (own : Bool)
  /-- inside the `with` block -/
  | inside (k : Nat) (own : Bool)
  /-- released the lock it created, about to execute `del locker[obj]` (508) -/
  | cleanup (k : Nat)
  /-- an exception (KeyError in `del locker[obj]`) -/
  | failed
deriving DecidableEq, Repr

/-- `entry` is `locker.get(obj)`; `held` are the locks that are acquired; `next` the number of the
    next lock that is created. -/
structure State where
  entry : Option Nat
  held : List Nat
  next : Nat
  pcs : List PC
deriving DecidableEq, Repr

def State.init (n : Nat) : State := ⟨none, [], 0, List.replicate n .idle⟩

inductive Step : State → State → Prop where
  /-- `return locker[obj]`, `util.py:497-499`, under `locker_lock` -/
  | found (s : State) (i k : Nat) (h : s.pcs[i]? = some .idle) (he : s.entry = some k) :
      Step s { s with pcs := s.pcs.set i (.wait k false) }
  /-- a new lock is created, 501-510, under `locker_lock` -/
  | create (s : State) (i : Nat) (h : s.pcs[i]? = some .idle) (he : s.entry = none) :
      Step s { s with entry := some s.next, next := s.next + 1, pcs := s.pcs.set i (.wait s.next true) }
  /-- the lock is acquired -/
  | acquire (s : State) (i k : Nat) (own : Bool) (h : s.pcs[i]? = some (.wait k own)) (hk : k ∉ s.held) :
      Step s { s with held := k :: s.held, pcs := s.pcs.set i (.inside k own) }
  /-- the `with` block ends, the lock is released; a thread that got the lock itself is ready -/
  | release (s : State) (i k : Nat) (h : s.pcs[i]? = some (.inside k false)) :
      Step s { s with held := s.held.erase k, pcs := s.pcs.set i .idle }
  /-- the same for the thread that created the lock; it goes on with `finally`, 507 -/
  | releaseOwn (s : State) (i k : Nat) (h : s.pcs[i]? = some (.inside k true)) :
      Step s { s with held := s.held.erase k, pcs := s.pcs.set i (.cleanup k) }
  /-- `del locker[obj]`, 508 -/
  | delete (s : State) (i k : Nat) (h : s.pcs[i]? = some (.cleanup k)) (he : s.entry ≠ none) :
      Step s { s with entry := none, pcs := s.pcs.set i .idle }
  | deleteError (s : State) (i k : Nat) (h : s.pcs[i]? = some (.cleanup k)) (he : s.entry = none) :
      Step s { s with pcs := s.pcs.set i .failed }

inductive Reach (n : Nat) : State → Prop where
  | init : Reach n (State.init n)
  | step {s s' : State} : Reach n s → Step s s' → Reach n s'

/-- The lock object a thread works with. -/
def PC.lock? : PC → Option Nat
  | .wait k _ => some k
  | .inside k _ => some k
  | _ => none

/-- Executions in which the entry is never deleted while another thread still waits for or holds
    the lock object. -/
inductive ReachAlone (n : Nat) : State → Prop where
  | init : ReachAlone n (State.init n)
  | step {s s' : State} : ReachAlone n s → Step s s' →
      (∀ (i k : Nat), s.pcs[i]? = some (.cleanup k) → s'.pcs[i]? = some .idle →
        ∀ (j : Nat) (p : PC), s.pcs[j]? = some p → p.lock? = none) →
      ReachAlone n s'

end Parce.OL

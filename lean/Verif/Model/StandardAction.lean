/-
Standard actions: `parce/standardaction.py:97-146`.

The actions live in dictionaries: the one of the toplevel actions and the `__dict__` of every action.
Any number of threads create actions by calling `StandardAction(name, parent)` or by reading
an attribute of an action; each of their steps is a step of the machine below, in any order.
-/

namespace Parce.SA

/-- What a dictionary can hold: an action, the name, or the parent of a toplevel action (`None`). -/
inductive Val
  | act (i : Nat)
  | str (s : String)
  | nothing
deriving DecidableEq

/-- Where a thread is in `__new__`, `standardaction.py:106-115`. The parent is `none` for toplevel
    actions. -/
inductive PC
  | idle
  /-- before `with _lock` (line 108) -/
  | want (p : Option Nat) (n : String)
  /-- holding the lock, before `return d[name]` (line 110) -/
  | look (p : Option Nat) (n : String)
  /-- the new object is in the dictionary (line 112) -/
  | made (p : Option Nat) (n : String) (i : Nat)
  /-- its `_name` is set (line 113) -/
  | named (p : Option Nat) (n : String) (i : Nat)
  /-- about to release the lock and return -/
  | fin (p : Option Nat) (n : String) (v : Val)
deriving DecidableEq

structure St where
  /-- the number of actions that were made -/
  size : Nat
  /-- `_toplevel_actions` and the `__dict__` of the actions -/
  dict : Option Nat → String → Option Val
  lock : Option Nat
  pc : Nat → PC
  /-- everything that was returned to a caller until now: parent, name and what they got -/
  results : List (Option Nat × String × Val)

/-- At the start there are no actions. -/
def St.init : St := ⟨0, fun _ _ => none, none, fun _ => .idle, []⟩

def St.put (s : St) (p : Option Nat) (n : String) (v : Val) : St :=
  { s with dict := fun p' n' => if p' = p ∧ n' = n then some v else s.dict p' n' }

def St.goto (s : St) (t : Nat) (c : PC) : St := { s with pc := fun t' => if t' = t then c else s.pc t' }

/-- What is stored in `_parent`. -/
def parentVal : Option Nat → Val
  | none => .nothing
  | some p => .act p

/-- The parent is an action that exists. -/
def St.exists? (s : St) : Option Nat → Prop
  | none => True
  | some p => p < s.size

/-- One step of thread `t`. -/
inductive Step : St → St → Prop
  /-- calling `StandardAction(n, p)` -/
  | call {s : St} (t : Nat) (p : Option Nat) (n : String) : s.pc t = .idle → s.exists? p → Step s (s.goto t (.want p n))
  /-- reading the attribute `n` of `p` when it is in the `__dict__`: no lock involved -/
  | attr {s : St} (p : Nat) (n : String) (v : Val) : p < s.size → s.dict (some p) n = some v →
      Step s { s with results := (some p, n, v) :: s.results }
  /-- reading the attribute `n` of `p` otherwise, `__getattr__`, lines 117-120; names that start with `_`
      raise an error and change nothing -/
  | getattr {s : St} (t : Nat) (p : Nat) (n : String) : s.pc t = .idle → p < s.size → s.dict (some p) n = none →
      n.startsWith "_" = false → Step s (s.goto t (.want (some p) n))
  /-- line 108 -/
  | acquire {s : St} (t : Nat) (p : Option Nat) (n : String) : s.pc t = .want p n → s.lock = none →
      Step s { s.goto t (.look p n) with lock := some t }
  /-- line 110 -/
  | found {s : St} (t : Nat) (p : Option Nat) (n : String) (v : Val) : s.pc t = .look p n → s.dict p n = some v →
      Step s (s.goto t (.fin p n v))
  /-- line 112 -/
  | make {s : St} (t : Nat) (p : Option Nat) (n : String) : s.pc t = .look p n → s.dict p n = none →
      Step s { (s.put p n (.act s.size)).goto t (.made p n s.size) with size := s.size + 1 }
  /-- line 113 -/
  | name {s : St} (t : Nat) (p : Option Nat) (n : String) (i : Nat) : s.pc t = .made p n i →
      Step s ((s.put (some i) "_name" (.str n)).goto t (.named p n i))
  /-- line 114 -/
  | parent {s : St} (t : Nat) (p : Option Nat) (n : String) (i : Nat) : s.pc t = .named p n i →
      Step s ((s.put (some i) "_parent" (parentVal p)).goto t (.fin p n (.act i)))
  /-- line 115 -/
  | release {s : St} (t : Nat) (p : Option Nat) (n : String) (v : Val) : s.pc t = .fin p n v →
      Step s { s.goto t .idle with lock := none, results := (p, n, v) :: s.results }

/-- The states that can be reached by any execution. -/
inductive Reach : St → Prop
  | init : Reach St.init
  | step {s s' : St} : Reach s → Step s s' → Reach s'

/-- `__iter__`, lines 125-129; `none`: an attribute is missing (in the code, reading it then goes on calling
    `__repr__` until the recursion limit). -/
def chain (s : St) : Nat → Nat → Option (List Nat)
  | 0, _ => none
  | fuel + 1, i => match s.dict (some i) "_parent" with
    | some .nothing => some [i]
    | some (.act p) => (chain s fuel p).map (i :: ·)
    | _ => none

/-- Enough fuel: the chain cannot be longer than the number of actions. -/
def ancestors (s : St) (i : Nat) : Option (List Nat) := chain s s.size i

/-- The names that `__repr__` joins, lines 122-123. -/
def reprNames (s : St) (i : Nat) : Option (List Val) :=
  (ancestors s i).bind (fun l => (l.mapM (fun j => s.dict (some j) "_name")).map List.reverse)

/-- `a in b`, lines 131-134. The code stops iterating when `b` is found; here all ancestors are collected, so
    `none` also covers cases where the missing attribute would not have been read. -/
def contains (s : St) (a b : Nat) : Option Bool := (ancestors s a).map (fun l => l.any (· == b))

/-- `str in a`, lines 131-133. -/
def containsStr (s : St) (n : String) (a : Nat) : Option Bool :=
  (ancestors s a).map (fun l => l.any (fun t => s.dict (some t) "_name" == some (.str n)))

/-- `a & b`, lines 136-140. -/
def meet (s : St) (a b : Nat) : Option (Option Nat) :=
  (ancestors s b).bind (fun lb => (ancestors s a).map (fun la => la.find? (lb.contains ·)))

end Parce.SA

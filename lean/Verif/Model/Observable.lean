import Verif.Model.Tree
/-!
# Model of `Observable` in parce/util.py
-/
namespace Parce.Obs
variable {E F : Type}

/-- `_Observer`, `util.py:194-248`. Two observers are equal when their functions are (211-214);
    the order is the order of the priorities (221-229). `prepend_self` only changes the arguments
    of the call and is not modelled. -/
structure Observer (F : Type) where
  func : F
  once : Bool
  prio : Int
deriving DecidableEq, Repr

/-- The dictionary `_callbacks`, `util.py:302`. -/
abbrev Callbacks (E F : Type) := E → Option (List (Observer F))

/-- `Observable()`. -/
def Callbacks.empty : Callbacks E F := fun _ => none

def Callbacks.set [DecidableEq E] (c : Callbacks E F) (e : E) (v : Option (List (Observer F))) : Callbacks E F :=
  fun e' => if e' = e then v else c e'

/-- `bisect.insort_right(slots, observer)`, `util.py:320`: the binary search goes right unless
    `observer < slots[mid]`. -/
def insort (slots : List (Observer F)) (o : Observer F) : List (Observer F) :=
  let i := bisect (fun m => ((slots[m]?).map (fun x => decide (¬ o.prio < x.prio))).getD false)
    slots.length 0 slots.length
  slots.take i ++ o :: slots.drop i

/-- `connect`, `util.py:304-320`. -/
def connect [DecidableEq E] [DecidableEq F] (c : Callbacks E F) (e : E) (o : Observer F) : Callbacks E F :=
  let slots := (c e).getD []
  if slots.any (fun x => decide (x.func = o.func)) then c.set e (some slots)
  else c.set e (some (insort slots o))

/-- `slots.remove(observer)`: the first that is equal; `none` is ValueError. -/
def remove [DecidableEq F] (f : F) : List (Observer F) → Option (List (Observer F))
  | [] => none
  | o :: os => if o.func = f then some os else (remove f os).map (o :: ·)

/-- `disconnect`, `util.py:322-335`. -/
def disconnect [DecidableEq E] [DecidableEq F] (c : Callbacks E F) (e : E) (f : F) : Callbacks E F :=
  match c e with
  | none => c
  | some slots =>
    match remove f slots with
    | none => c
    | some [] => c.set e none
    | some s => c.set e (some s)

/-- `disconnect_all`, `util.py:337-349`. -/
def disconnectAll [DecidableEq E] (c : Callbacks E F) : Option E → Callbacks E F
  | none => Callbacks.empty
  | some e => c.set e none

/-- `has_connections`, `util.py:351-358`. -/
def hasConnections (c : Callbacks E F) (e : E) : Bool := (c e).isSome

/-- `is_connected`, `util.py:360-366`. -/
def isConnected [DecidableEq F] (c : Callbacks E F) (e : E) (f : F) : Bool :=
  match c e with
  | none => false
  | some slots => slots.any (fun x => decide (x.func = f))

/-- The loop of `emit`, `util.py:382-390`, over the live list `slots`: `react f` is what the call
    of function `f` does to that list (connecting and disconnecting for the same event). A weak
    method whose object is gone (`alive f` is false) is not called, and `once` is set (236-247).
    Returns the functions called, the list, and the indices to delete. -/
def emitLoop (alive : F → Bool) (react : F → List (Observer F) → List (Observer F)) :
    (fuel i : Nat) → (slots : List (Observer F)) → List F × List (Observer F) × List Nat
  | 0, _, slots => ([], slots, [])
  | fuel + 1, i, slots =>
    match slots[i]? with
    | none => ([], slots, [])
    | some o =>
      let slots' := if alive o.func then react o.func slots else slots
      let r := emitLoop alive react fuel (i + 1) slots'
      (if alive o.func then o.func :: r.1 else r.1, r.2.1,
        if o.once || !alive o.func then i :: r.2.2 else r.2.2)

/-- `for i in reversed(disconnect): del slots[i]`, `util.py:392-393`; `none` is IndexError. -/
def delAll : (slots : List (Observer F)) → (rev : List Nat) → Option (List (Observer F))
  | slots, [] => some slots
  | slots, i :: is => if i < slots.length then delAll (slots.eraseIdx i) is else none

/-- The part of `emit` that works on the list, `util.py:381-393`. -/
def emitSlots (alive : F → Bool) (react : F → List (Observer F) → List (Observer F)) (fuel : Nat)
    (slots : List (Observer F)) : List F × Option (List (Observer F)) :=
  let r := emitLoop alive react fuel 0 slots
  (r.1, delAll r.2.1 r.2.2.reverse)

/-- `emit`, `util.py:367-395`, with functions that do not connect or disconnect for the same
    event. The context managers that are returned are not modelled. -/
def emit [DecidableEq E] (alive : F → Bool) (c : Callbacks E F) (e : E) : List F × Option (Callbacks E F) :=
  match c e with
  | none => ([], some c)
  | some slots =>
    match emitSlots alive (fun _ s => s) slots.length slots with
    | (calls, none) => (calls, none)
    | (calls, some []) => (calls, some (c.set e none))
    | (calls, some s) => (calls, some (c.set e (some s)))

/-- What can be done with an `Observable`. -/
inductive Op (E F : Type) where
  | connect (e : E) (f : F) (once : Bool) (prio : Int)
  | disconnect (e : E) (f : F)
  | disconnectAll (e : Option E)
  /-- `gone` are the methods whose object does not exist anymore. -/
  | emit (e : E) (alive : F → Bool)

/-- Performs the operations; yields the calls of every `emit`. `none`: an exception. -/
def run [DecidableEq E] [DecidableEq F] : Callbacks E F → List (Op E F) → Option (Callbacks E F × List (E × List F))
  | c, [] => some (c, [])
  | c, .connect e f once prio :: ops => run (connect c e ⟨f, once, prio⟩) ops
  | c, .disconnect e f :: ops => run (disconnect c e f) ops
  | c, .disconnectAll e :: ops => run (disconnectAll c e) ops
  | c, .emit e alive :: ops =>
    match emit alive c e with
    | (_, none) => none
    | (calls, some c') => (run c' ops).map (fun r => (r.1, (e, calls) :: r.2))

end Parce.Obs

/-!
# Model of parce/util.py: Switch, used in a class
-/
namespace Parce.Swi

/-- A `Switch` that is an attribute of a class, `util.py:397-461`. Instances of the class are numbered, and so are the `Switch` objects
    that are made for them. A weak dictionary is the list of its entries. -/
structure St where
  /-- `_value` of the switch of the class: 0, or the weak dictionary with the instances and their switches -/
  table : Option (List (Nat × Nat)) := none
  /-- `_value` of the switches of the instances -/
  counts : Nat → Int := fun _ => 0
  next : Nat := 0
  /-- the `with` blocks that are open: the instance, and the switch on which `__exit__` will be called -/
  opened : List (Nat × Nat) := []

/-- `Switch.__get__` for an instance, `util.py:451-460`. A weak dictionary finds the entry of an instance that is equal; `eq` says
    which are. -/
def get (eq : Nat → Nat → Bool) (s : St) (i : Nat) : Nat × St :=
  let t := s.table.getD []
  match t.find? (fun e => eq i e.1) with
  | some e => (e.2, s)
  | none =>
    (s.next, { s with table := some (t ++ [(i, s.next)]), counts := fun k => if k = s.next then 0 else s.counts k, next := s.next + 1 })

/-- What can happen. -/
inductive Ev where
  /-- a block `with instance.switch:` begins, `util.py:442-443` -/
  | enter (i : Nat)
  /-- the n-th of the open blocks ends, `util.py:445-446` -/
  | exit (n : Nat)
  /-- the truth value of `instance.switch` is asked for, `util.py:448-449` -/
  | look (i : Nat)
  /-- the attribute of the class is asked for: `instance` is None, that can have no weak reference, so that a `TypeError` is handled in
      `util.py:454-456` and another one is raised in line 459 -/
  | onClass
  /-- the instance is deleted, and with it its entry in the weak dictionary -/
  | die (i : Nat)
deriving DecidableEq, Repr

def step (eq : Nat → Nat → Bool) (s : St) : Ev → St
  | .enter i =>
    let r := get eq s i
    { r.2 with counts := fun k => if k = r.1 then r.2.counts k + 1 else r.2.counts k, opened := r.2.opened ++ [(i, r.1)] }
  | .exit n =>
    match s.opened[n]? with
    | none => s
    | some b => { s with counts := fun k => if k = b.2 then s.counts k - 1 else s.counts k, opened := s.opened.eraseIdx n }
  | .look i => (get eq s i).2
  | .onClass => { s with table := some [] }
  | .die i => { s with table := s.table.map (·.filter (fun e => e.1 != i)) }

def run (eq : Nat → Nat → Bool) (evs : List Ev) : St := evs.foldl (step eq) {}

/-- `bool(instance.switch)`, `util.py:448-449`. -/
def isOn (eq : Nat → Nat → Bool) (s : St) (i : Nat) : Bool :=
  let r := get eq s i
  r.2.counts r.1 != 0

end Parce.Swi

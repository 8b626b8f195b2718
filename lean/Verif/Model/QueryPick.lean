/-!
# Picking from the results of a query

`Query.__bool__`, `count`, `pick`, `pick_last` and `slice`,
`parce/query.py:246-281` and `parce/query.py:574-589`.  A query is the list of
its results, which are of any kind.
-/

namespace Parce
namespace Qp

variable {β : Type}

/-- `Query.__bool__`, `parce/query.py:246-250`: the loop returns at the first result. -/
def bool : List β → Bool
  | [] => false
  | _ :: _ => true

/-- `Query.count`, `parce/query.py:258-260`: the sum of a 1 for each result. -/
def count (q : List β) : Nat := q.foldl (fun n _ => n + 1) 0

/-- `Query.pick`, `parce/query.py:271-275`. -/
def pick (default : β) : List β → β
  | [] => default
  | n :: _ => n

/-- `Query.pick_last`, `parce/query.py:277-281`: the loop assigns `default`. -/
def pickLast (default : β) (q : List β) : β := q.foldl (fun _ n => n) default

/-- What `itertools.islice` accepts: `start`, `stop` and `step` from one, two or
three arguments, of which each can be `None`.  `none` is an exception. -/
def sliceArgs : List (Option Int) → Option (Nat × Option Nat × Nat)
  | [stop] => args none stop none
  | [start, stop] => args start stop none
  | [start, stop, step] => args start stop step
  | _ => none
where
  /-- The values, none of them negative, and a step of at least 1. -/
  args (start stop step : Option Int) : Option (Nat × Option Nat × Nat) :=
    let a := start.getD 0
    let c := step.getD 1
    if a < 0 ∨ c < 1 then none
    else match stop with
      | none => some (a.toNat, none, c.toNat)
      | some b => if b < 0 then none else some (a.toNat, some b.toNat, c.toNat)

/-- The loop of `itertools.islice` as its documentation gives it: `i` is the
index of the next result, `nexti` that of the next one to be yielded. -/
def isliceLoop (stop : Option Nat) (step : Nat) : (i nexti : Nat) → List β → List β
  | _, _, [] => []
  | i, nexti, n :: q =>
    if stop.any (fun s => decide (s ≤ i)) then []
    else if i = nexti then n :: isliceLoop stop step (i + 1) (nexti + step) q
    else isliceLoop stop step (i + 1) nexti q

/-- `Query.slice`, `parce/query.py:574-589`; `none` is an exception. -/
def slice (args : List (Option Int)) (q : List β) : Option (List β) :=
  (sliceArgs args).map (fun a => isliceLoop a.2.1 a.2.2 0 a.1 q)

end Qp
end Parce

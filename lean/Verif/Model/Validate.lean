/-!
# Model of `check_default_target`, parce/validate.py:115-173

A `Context` object is modelled by a number that is unique, and its lexicon. The default target of a lexicon is
a parameter: the target of the first rule of the lexicon that is a default target, if there is one
(`validate.py:169-173`). The messages are left out; the outcome tells which of them is added.
-/
namespace Parce.Val

/-- An item of a target. `bad` is anything else than an integer or a lexicon. -/
inductive Tgt (L : Type) where
  | int (n : Int)
  | lex (l : L)
  | bad
deriving DecidableEq

/-- The ways in which the function ends; `timeout` is for the fuel of the model. -/
inductive Outcome where
  | timeout
  | popped
  | badItem
  | invalid
  | circularError
  | circularWarning
  | fine
deriving DecidableEq

/-- Whether an error or a warning is added. -/
def Outcome.silent : Outcome → Bool
  | .popped => true
  | .fine => true
  | _ => false

variable {L : Type}

/-- The loop over the items of the target, `validate.py:136-149`. The state has the last context in front; `next` is
    the number for the next new context. Left is the early return. -/
def applyTarget (l : L) : List (Tgt L) → Nat → List (Nat × L) → Except Outcome (Nat × List (Nat × L))
  | [], next, st => .ok (next, st)
  | .int n :: ts, next, st =>
    if n < 0 then
      if (st.length : Int) + n < 1 then .error .popped
      else applyTarget l ts next (st.drop (-n).toNat)
    else applyTarget l ts (next + n.toNat) (((List.range n.toNat).map (fun k => (next + k, l))).reverse ++ st)
  | .bad :: _, _, _ => .error .badItem
  | .lex l' :: ts, next, st => applyTarget l ts (next + 1) ((next, l') :: st)

/-- `circular.add(context)`. -/
def addTo (x : Nat) (s : List Nat) : List Nat := if x ∈ s then s else x :: s

/-- The `while True` loop, `validate.py:132-173`. The result of an empty state (`state[-1]` fails) does not occur: it
    is `timeout` here, see `C61_terminates`. -/
def checkLoop (dt : L → Option (List (Tgt L))) : Nat → (Nat × L) → List (Tgt L) → Nat → List (Nat × L) → List Nat → Bool → Outcome
  | 0, _, _, _, _, _, _ => .timeout
  | fuel + 1, ctx, target, next, st, circular, warn =>
    let circular := addTo ctx.1 circular
    match applyTarget ctx.2 target next st with
    | .error e => e
    | .ok (next, st) =>
      match st with
      | [] => .timeout
      | new :: st =>
        if new.1 = ctx.1 then .invalid
        else
          let warn := warn || decide (new.1 ∈ circular)
          if circular.length > 100 then (if warn then .circularWarning else .circularError)
          else match dt new.2 with
            | none => .fine
            | some target => checkLoop dt fuel new target next (new :: st) circular warn

/-- `check_default_target(target)` for a lexicon. -/
def check (dt : L → Option (List (Tgt L))) (fuel : Nat) (l : L) (target : List (Tgt L)) : Outcome :=
  checkLoop dt fuel (0, l) target 1 [(0, l)] [] false

end Parce.Val

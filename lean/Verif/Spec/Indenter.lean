import Verif.Model.Indenter
import Verif.Spec.Indent

/-! Levels of brackets in lines. -/

namespace Parce.Ind

variable {α : Type}

/-- The level after some brackets, `true` is an opening one; a closing bracket without opening one is
ignored. -/
def levelAfter (d : Nat) : List Bool → Nat
  | [] => d
  | true :: bs => levelAfter (d + 1) bs
  | false :: bs => levelAfter (d - 1) bs

/-- The level at the beginning of a line; `B` are the brackets of the lines. -/
def levelBefore (B : Nat → List Bool) : Nat → Nat
  | 0 => 0
  | n + 1 => levelAfter (levelBefore B n) (B n)

/-- The number of closing brackets before the first opening one. -/
def closings : List Bool → Nat
  | false :: bs => closings bs + 1
  | _ => 0

/-- The level of a line: closing brackets at its start count. -/
def lineLevel (B : Nat → List Bool) (n : Nat) : Nat := levelBefore B n - closings (B n)

/-- A string some times. -/
def times (n : Nat) (s : List α) : List α :=
  match n with
  | 0 => []
  | n + 1 => s ++ times n s

/-- The event for a bracket. -/
def bracketEvent : Bool → Ev α
  | true => .indent
  | false => .dedent

/-- A line without its indent; a line with only white space remains. -/
def body (space : α → Bool) (l : List α) : List α := if l.all space then l else l.dropWhile space

end Parce.Ind

import Verif.Model.Block
/-!
# Independent specification of lines
-/
namespace Parce
variable {α : Type} [DecidableEq α]

/-- `[pos, stop)` is a line of `t`: it is preceded by the start of the text or a separator,
    followed by the end of the text or a separator, and contains no separator. -/
structure IsLine (t : List α) (sep : α) (pos stop : Nat) : Prop where
  le : pos ≤ stop
  stop_le : stop ≤ t.length
  left : pos = 0 ∨ t[pos - 1]? = some sep
  right : stop = t.length ∨ t[stop]? = some sep
  inside : ∀ m, pos ≤ m → m < stop → t[m]? ≠ some sep

/-- The lines of a text, by structural recursion over the characters. -/
def linesOf (sep : α) : List α → List (List α)
  | [] => [[]]
  | c :: cs =>
    match linesOf sep cs with
    | [] => [[c]]
    | l :: ls => if c = sep then [] :: l :: ls else (c :: l) :: ls

/-- `sep.join(lines)`. -/
def joinLines (sep : α) : List (List α) → List α
  | [] => []
  | [l] => l
  | l :: l' :: ls => l ++ sep :: joinLines sep (l' :: ls)

end Parce

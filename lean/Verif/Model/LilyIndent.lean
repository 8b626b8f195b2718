import Verif.Model.Indenter
/-!
# Model of the indenter of LilyPond, parce/lang/lilypond.py:649-663
-/
namespace Parce.Ind
variable {α T : Type}

/-- `LilyPondIndent.events`, `lilypond.py:652-663`; `delim` is whether the action is in `Delimiter`. -/
def lilyEvents (delim : T → Bool) (text : T → List Char) : List T → List (Ev α)
  | [] => []
  | t :: ts =>
    (if delim t then
      (if text t = ['{'] ∨ text t = ['<', '<'] then .indent else if text t = ['}'] ∨ text t = ['>', '>'] then .dedent else .noDedent)
    else .noDedent) :: lilyEvents delim text ts

end Parce.Ind

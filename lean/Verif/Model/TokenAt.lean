import Verif.Model.Tree
import Verif.Model.MutableString
/-!
# Model of `WorkerDocumentMixin.token()` in parce/work.py
-/
namespace Parce
variable {α L A : Type} [DecidableEq α]

/-- The end of `token(pos)`, `work.py:485-487`: the token to the right, unless the block separator is between. The
    separator is one character. -/
def tokenRight (text : List α) (sep : α) (t : TokN α A) (pos : Nat) : Option (TokN α A) :=
  if sep ∈ slice text pos t.pos then none else some t

/-- `WorkerDocumentMixin.token(pos)`, `work.py:469-487`, when the tree `root` is up to date. A token without text is false
    (`Token.__len__`, `tree.py:445-446`). The path of the token is what the node knows by its parent; `find_token` finds the
    same token as the variant with a trail (C27). `pos` is not negative. -/
def docToken (text : List α) (sep : α) (root : Node α L A) (pos : Nat) : Option (TokN α A) :=
  match findTokenTrail root.kids pos with
  | none => none
  | some (t, trail) =>
    if t.text = [] then none
    else if t.pos ≤ pos then some t
    else
      match previousToken root trail with
      | none => tokenRight text sep t pos
      | some (_, l) => if l.text ≠ [] ∧ l.stop = pos then some l else tokenRight text sep t pos

end Parce

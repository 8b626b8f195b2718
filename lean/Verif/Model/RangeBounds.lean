import Verif.Model.Tree
/-!
# Model of the bounds of a range, parce/tree.py:963-977
-/
namespace Parce
variable {α L A : Type}

/-- `Range.pos`, `tree.py:963-969`: the `pos` of the node where the start trail leads. `none`: IndexError. -/
def Rng.pos (root : Node α L A) (r : Rng) : Option Nat := ((root.at r.ancestor).bind (fun n => n.at r.startTrail)).map Node.pos

/-- `Range.end`, `tree.py:971-977`: the `end` of the node where the end trail leads. `none`: IndexError. -/
def Rng.stop (root : Node α L A) (r : Rng) : Option Nat := ((root.at r.ancestor).bind (fun n => n.at r.endTrail)).map Node.stop

end Parce

import Verif.Spec.Query
import Verif.Model.Nodes
/-!
# Independent specifications for the methods that relate nodes
-/
namespace Parce.Nd
open Parce
variable {α L A : Type}

/-- The context at path `a` has nothing left when the node at `path` is removed together with
    the contexts in `a` that have nothing left. -/
def Emptied (root : Node α L A) (path a : List Nat) : Prop :=
  (root.at a).bind (fun n => n.prune (fun q => decide (q = path)) a) = none

/-- The children of the root, without the node at `path` and contexts that have nothing left. -/
def without (root : Node α L A) (path : List Nat) : List (Node α L A) :=
  pruneL (fun q => decide (q = path)) [] 0 root.kids

/-- `i` is one of `n / 2`, `n / 4`, `n / 8`, … -/
def Looked (n i : Nat) : Prop := ∃ k, i = n / 2 ^ (k + 1)

/-- The lexicons of the contexts a node is in, the root first. -/
def lexicons : Node α L A → List Nat → List L
  | .tok _, _ => []
  | .ctx _ _, [] => []
  | .ctx l cs, i :: p => l :: ((cs[i]?.map (fun n => lexicons n p)).getD [])
termination_by structural _ p => p

end Parce.Nd

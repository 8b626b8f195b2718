import Verif.Spec.Tree
import Verif.Model.Query
/-!
# Independent specifications for queries
-/
namespace Parce
variable {α L A : Type}

mutual
/-- The paths and the nodes of a tree in document order, a context before its children. -/
def Node.preorder (p : List Nat) : Node α L A → List (List Nat × Node α L A)
  | .tok t => [(p, .tok t)]
  | .ctx l cs => (p, .ctx l cs) :: preorderL p 0 cs
def preorderL (p : List Nat) (i : Nat) : List (Node α L A) → List (List Nat × Node α L A)
  | [] => []
  | n :: ns => n.preorder (p ++ [i]) ++ preorderL p (i + 1) ns
end

/-- The kind of nodes a selector is for. -/
def Sel.kind : Sel α L A → Node α L A → Bool
  | .len _ _, n => n.isCtx
  | .call _ _, _ => true
  | .inRange _ _, _ => true
  | _, n => !n.isCtx

/-- What a selector selects. -/
def Sel.Holds : Sel α L A → Node α L A → Prop
  | .len mn none, .ctx _ cs => cs.length = mn
  | .len mn (some mx), .ctx _ cs => mn ≤ cs.length ∧ cs.length ≤ mx
  | .inRange start ends, n => start ≤ n.pos ∧ n.stop ≤ ends
  | .call texts _, .tok t => t.text ∈ texts
  | .call _ lexs, .ctx l _ => l ∈ lexs
  | .startingwith s, .tok t => s <+: t.text
  | .endingwith s, .tok t => s <:+ t.text
  | .containing s, .tok t => s <:+: t.text
  | .matching f, .tok t => f t.text = true
  | .action as, .tok t => t.act ∈ as
  | .inAction inside as, .tok t => ∃ a ∈ as, inside t.act a = true
  | _, _ => False

mutual
/-- A node of which the selected descendants are removed, and contexts that become empty by that;
    `none` when nothing remains. -/
def Node.prune (sel : List Nat → Bool) (p : List Nat) : Node α L A → Option (Node α L A)
  | .tok t => if sel p then none else some (.tok t)
  | .ctx l cs =>
    if sel p then none
    else match pruneL sel p 0 cs with
      | [] => none
      | c :: r => some (.ctx l (c :: r))
def pruneL (sel : List Nat → Bool) (p : List Nat) (i : Nat) : List (Node α L A) → List (Node α L A)
  | [] => []
  | n :: ns => (n.prune sel (p ++ [i])).toList ++ pruneL sel p (i + 1) ns
end

mutual
/-- The number of nodes removed, not counting nodes in removed contexts. -/
def Node.removed (sel : List Nat → Bool) (p : List Nat) : Node α L A → Nat
  | .tok _ => if sel p then 1 else 0
  | .ctx l cs => if ((Node.ctx l cs).prune sel p).isNone then 1 else removedL sel p 0 cs
def removedL (sel : List Nat → Bool) (p : List Nat) (i : Nat) : List (Node α L A) → Nat
  | [] => 0
  | n :: ns => n.removed sel (p ++ [i]) + removedL sel p (i + 1) ns
end

end Parce

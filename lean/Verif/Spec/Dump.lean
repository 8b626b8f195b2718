import Verif.Model.Dump

/-!
# What the picture of a tree looks like

Said without paths, depths or parents: the picture of a node is its own text
and below it the pictures of its children.  The first line of the picture of a
child gets an arm, its other lines get a bar, or a blank if no sibling follows.
-/

namespace Parce
namespace Dump

variable {α L A : Type}

/-- The picture `ls`, with `h` before its first line and `b` before the others. -/
def hang (h b : List Char) : List (List Char) → List (List Char)
  | [] => []
  | x :: xs => (h ++ x) :: xs.map (b ++ ·)

mutual
/-- The picture of a node. -/
def draw (d : Style) (rp : Node α L A → List Char) : Node α L A → List (List Char)
  | .tok t => [rp (.tok t)]
  | .ctx l cs => rp (.ctx l cs) :: drawAll d rp cs
/-- The pictures of siblings, hung below each other. -/
def drawAll (d : Style) (rp : Node α L A → List Char) : List (Node α L A) → List (List Char)
  | [] => []
  | n :: ns =>
    (match ns with
     | [] => hang d.lastArm d.blank (draw d rp n)
     | _ :: _ => hang d.arm d.bar (draw d rp n)) ++ drawAll d rp ns
end

mutual
/-- The number of nodes of a tree, the node itself included. -/
def count : Node α L A → Nat
  | .tok _ => 1
  | .ctx _ cs => 1 + counts cs
/-- The number of nodes of some trees. -/
def counts : List (Node α L A) → Nat
  | [] => 0
  | n :: ns => count n + counts ns
end

end Dump
end Parce

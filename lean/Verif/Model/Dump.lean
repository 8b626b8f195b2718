import Verif.Model.Tree

/-!
# The printed picture of a tree

`parce/tree.py:58-67` and `parce/tree.py:96-114` (`Node.dump`).  A node is
known by its path from the root, as everywhere in the model; the text that
`repr` gives for a node is a parameter.  A line is the list of its characters
without the line end that `print` writes.
-/

namespace Parce
namespace Dump

variable {α L A : Type}

/-- One entry of `DUMP_STYLES`, `parce/tree.py:58-65`: the four texts. -/
structure Style where
  bar : List Char
  blank : List Char
  arm : List Char
  lastArm : List Char
deriving DecidableEq, Repr

/-- `parce/tree.py:59`. -/
def ascii : Style := ⟨" | ".toList, "   ".toList, " |-".toList, " `-".toList⟩

/-- `parce/tree.py:60`. -/
def round : Style := ⟨" │ ".toList, "   ".toList, " ├╴".toList, " ╰╴".toList⟩

/-- `parce/tree.py:61`. -/
def square : Style := ⟨" │ ".toList, "   ".toList, " ├╴".toList, " └╴".toList⟩

/-- `parce/tree.py:62`. -/
def double : Style := ⟨" ║ ".toList, "   ".toList, " ╠═".toList, " ╚═".toList⟩

/-- `parce/tree.py:63`. -/
def thick : Style := ⟨" ┃ ".toList, "   ".toList, " ┣╸".toList, " ┗╸".toList⟩

/-- `parce/tree.py:64`. -/
def flat : Style := ⟨"│".toList, " ".toList, "├".toList, "╰".toList⟩

/-- `d[i + int(last)]` where `i` is 2 (`first`) or 0, `parce/tree.py:108`. -/
def Style.pick (d : Style) (first last : Bool) : List Char :=
  match first, last with
  | false, false => d.bar
  | false, true => d.blank
  | true, false => d.arm
  | true, true => d.lastArm

/-- `Node.is_last`, `parce/tree.py:162-168`: whether the node at the path is
the last child of its parent.  The exception for the root is not modelled:
`dump` at depth 0 does not ask for it. -/
def isLast (root : Node α L A) (p : List Nat) : Bool :=
  match root.at p.dropLast, p.getLast? with
  | some q, some k => decide (q.kids.length = k + 1)
  | _, _ => false

/-- The loop `for _ in range(depth)`, `parce/tree.py:107-110`: the list
`prefix`, from the node upwards. -/
def parts (d : Style) (root : Node α L A) : Nat → Bool → List Nat → List (List Char)
  | 0, _, _ => []
  | k + 1, first, p => d.pick first (isLast root p) :: parts d root k false p.dropLast

/-- The text before the `repr`, `"".join(reversed(prefix))`, `parce/tree.py:111`. -/
def pre (d : Style) (root : Node α L A) (k : Nat) (first : Bool) (p : List Nat) : List Char :=
  (parts d root k first p).reverse.flatten

mutual
/-- `Node.dump`, `parce/tree.py:96-114`: the printed lines. -/
def dump (d : Style) (rp : Node α L A → List Char) (root : Node α L A)
    (p : List Nat) (k : Nat) : Node α L A → List (List Char)
  | .tok t => [pre d root k true p ++ rp (.tok t)]
  | .ctx l cs => (pre d root k true p ++ rp (.ctx l cs)) :: dumps d rp root p 0 (k + 1) cs
/-- The loop `for n in self`, `parce/tree.py:113-114`, from child `i` on. -/
def dumps (d : Style) (rp : Node α L A → List Char) (root : Node α L A)
    (p : List Nat) (i k : Nat) : List (Node α L A) → List (List Char)
  | [] => []
  | n :: ns => dump d rp root (p ++ [i]) k n ++ dumps d rp root p (i + 1) k ns
end

end Dump
end Parce

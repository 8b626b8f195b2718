import Verif.Lemmas.Dump

/-!
# C133: the printed picture shows the tree
-/

namespace Parce
namespace Dump

variable {α L A : Type}

/-- **C133.**  `dump` of any node of any tree prints the picture of the part of
the tree below the node, wherever the node is: nothing above the node and no
sibling of it has an influence. -/
theorem C133_picture (d : Style) (rp : Node α L A → List Char) (root n : Node α L A)
    (p : List Nat) (h : root.at p = some n) :
    dump d rp root p 0 n = draw d rp n := by
  rw [dump_eq d rp root p 0 n h, pre_zero, pre_zero, hang_nil]

/-- **C133.**  One line for each node. -/
theorem C133_lines (d : Style) (rp : Node α L A → List Char) (root n : Node α L A)
    (p : List Nat) (h : root.at p = some n) :
    (dump d rp root p 0 n).length = count n := by
  rw [C133_picture d rp root n p h, draw_length]

/-- A tree with a context that is not the last child, for the examples. -/
def sample : Node Char Nat Nat :=
  .ctx 0 [.ctx 1 [.ctx 2 [], .ctx 3 []], .ctx 4 [.ctx 5 []]]

/-- The number of the lexicon, as a text. -/
def sampleRepr : Node Char Nat Nat → List Char
  | .tok _ => ['t']
  | .ctx l _ => [Char.ofNat (48 + l)]

example : (sample.at [0]).isSome ∧
    dump ascii sampleRepr sample [] 0 sample =
      ["0", " |-1", " |  |-2", " |  `-3", " `-4", "    `-5"].map String.toList := by
  decide +kernel

example : dump ascii sampleRepr sample [0] 0 (.ctx 1 [.ctx 2 [], .ctx 3 []]) =
      ["1", " |-2", " `-3"].map String.toList := by
  decide +kernel

example : count sample = 6 := by decide +kernel

end Dump
end Parce

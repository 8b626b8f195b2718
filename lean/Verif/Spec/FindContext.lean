import Verif.Spec.Tree
/-!
# Which context is at a position
-/
namespace Parce
variable {α L A : Type}

/-- The node begins at the position or before it, and ends after it. -/
def Spans (n : Node α L A) (pos : Nat) : Prop :=
  ∃ a b, n.toks.head? = some a ∧ n.toks.getLast? = some b ∧ a.pos ≤ pos ∧ pos < b.stop

/-- At this path there is a context that the position is in. -/
def CtxAt (n : Node α L A) (pos : Nat) (p : List Nat) : Prop := ∃ l cs, n.at p = some (.ctx l cs) ∧ Spans (.ctx l cs) pos

end Parce

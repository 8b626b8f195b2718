import Verif.Spec.Tree
import Verif.Spec.Block
/-!
# Independent specification of the token at a position
-/
namespace Parce
variable {α A : Type} [DecidableEq α]

/-- The token is (at least with a part) in the block `[a, b)` or is or has the separator at its end. -/
def TokN.InBlock (t : TokN α A) (a b : Nat) : Prop := t.pos ≤ b ∧ a < t.stop

/-- The tokens are pieces of the text, in order, and not empty. -/
structure Tokenized (text : List α) (ts : List (TokN α A)) : Prop where
  ordered : Ordered ts
  piece : ∀ t ∈ ts, ∀ i, i < t.text.length → text[t.pos + i]? = t.text[i]?

end Parce

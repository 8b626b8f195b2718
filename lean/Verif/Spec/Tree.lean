import Verif.Model.Tree
import Verif.Spec.Lexer
/-!
# Independent specifications for trees
-/
namespace Parce
variable {α L A : Type}

mutual
/-- The tokens of a node in document order. -/
def Node.toks : Node α L A → List (TokN α A)
  | .tok t => [t]
  | .ctx _ cs => toksL cs
def toksL : List (Node α L A) → List (TokN α A)
  | [] => []
  | n :: ns => n.toks ++ toksL ns
end

mutual
/-- The tokens of a node (whose path is `p`) in document order, with their paths. -/
def Node.leavesAt (p : List Nat) : Node α L A → List (List Nat × TokN α A)
  | .tok t => [(p, t)]
  | .ctx _ cs => leavesL p 0 cs
/-- The same for a list of children of the context at path `p`, the first having index `i`. -/
def leavesL (p : List Nat) (i : Nat) : List (Node α L A) → List (List Nat × TokN α A)
  | [] => []
  | n :: ns => n.leavesAt (p ++ [i]) ++ leavesL p (i + 1) ns
end

mutual
/-- The tokens with the lexicons of their ancestors, innermost first; `up` are the ancestors
    of the node itself. -/
def Node.stacks (up : List L) : Node α L A → List (List L × TokN α A)
  | .tok t => [(up, t)]
  | .ctx l cs => stacksL (l :: up) cs
def stacksL (up : List L) : List (Node α L A) → List (List L × TokN α A)
  | [] => []
  | n :: ns => n.stacks up ++ stacksL up ns
end

/-- What a token says about the text. -/
def TokN.lexeme (t : TokN α A) : Lexeme α A := ⟨t.pos, t.text, t.act⟩

/-- The lexemes of the events with the lexicon stack at that moment. -/
def eventStacks : List L → List (Event α L A) → List (List L × Lexeme α A)
  | _, [] => []
  | stack, e :: es =>
    e.lexemes.map (fun l => (applyOpt e.target stack, l)) ++ eventStacks (applyOpt e.target stack) es

mutual
/-- No context is empty. -/
def Node.Full : Node α L A → Prop
  | .tok _ => True
  | .ctx _ cs => cs ≠ [] ∧ FullL cs
def FullL : List (Node α L A) → Prop
  | [] => True
  | n :: ns => n.Full ∧ FullL ns
end

mutual
/-- All contexts of a tree: their lexicon and children. -/
def Node.ctxs : Node α L A → List (L × List (Node α L A))
  | .tok _ => []
  | .ctx l cs => (l, cs) :: ctxsL cs
def ctxsL : List (Node α L A) → List (L × List (Node α L A))
  | [] => []
  | n :: ns => n.ctxs ++ ctxsL ns
end

/-- Tokens are not empty and follow each other without overlap. -/
def Ordered (ts : List (TokN α A)) : Prop :=
  (∀ t ∈ ts, t.text ≠ []) ∧ ts.Pairwise (fun a b => a.stop ≤ b.pos)

mutual
/-- Nesting depth: 0 for a token, one more than the deepest child for a context. -/
def Node.depth : Node α L A → Nat
  | .tok _ => 0
  | .ctx _ cs => if cs = [] then 0 else depthL cs + 1
def depthL : List (Node α L A) → Nat
  | [] => 0
  | n :: ns => max n.depth (depthL ns)
end

/-- What one event, or one context, adds to the children of a context. -/
inductive Piece (α L A : Type) where
  | lexemes (lxs : List (Lexeme α A))
  | context (lex : L) (kids : List (Node α L A))

def Piece.nodes : Piece α L A → List (Node α L A)
  | .lexemes lxs => (makeTokens lxs).map .tok
  | .context l cs => [.ctx l cs]

/-- The children are complete pieces, one after the other. -/
def InPieces (cs : List (Node α L A)) : Prop := ∃ ps : List (Piece α L A), cs = ps.flatMap Piece.nodes

end Parce

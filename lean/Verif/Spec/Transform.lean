import Verif.Model.Transform
import Verif.Spec.Tree
/-!
# Independent specifications for transforming
-/
namespace Parce
variable {α L A R G N I : Type}

/-- The method for a lexicon. -/
def TrEnv.meth (env : TrEnv α L A R G N) (l : L) : Option (Meth α L A R N) := env.find (env.language l) (env.name l)

mutual
/-- What a child of a context becomes: a token remains, a context with a method is replaced with
    an item that has the value of the method, called with the children of the context; a context
    without a method is left out, or kept as it is when the parent wants that. -/
def Node.itm (env : TrEnv α L A R G N) (addU : Bool) : Node α L A → List (TItm α L A R N)
  | .tok t => [.tok t]
  | .ctx l cs =>
    match env.meth l with
    | some m => [.item (env.name l) (m.run ⟨l, itmL env m.addU cs⟩)]
    | none => if addU then [.raw (.ctx l cs)] else []
def itmL (env : TrEnv α L A R G N) (addU : Bool) : List (Node α L A) → List (TItm α L A R N)
  | [] => []
  | n :: ns => n.itm env addU ++ itmL env addU ns
end

/-- The value of a context. -/
def TrEnv.value (env : TrEnv α L A R G N) : Node α L A → Option R
  | .tok _ => none
  | .ctx l cs => (env.meth l).map (fun m => m.run ⟨l, itmL env m.addU cs⟩)

/-- The cache entries for the contexts of a tree (not the root) are right. -/
def CacheOK (env : TrEnv α L A R G N) (ident : List Nat → I) (cache : I → Option R) (root : Node α L A) : Prop :=
  ∀ p l cs r, p ≠ [] → root.at p = some (.ctx l cs) → cache (ident p) = some r → env.value (.ctx l cs) = some r

/-- No two contexts of a tree have the same identity. -/
def Distinct (ident : List Nat → I) (root : Node α L A) : Prop :=
  ∀ p q l cs l' cs', p ≠ [] → q ≠ [] → root.at p = some (.ctx l cs) → root.at q = some (.ctx l' cs') → ident p = ident q → p = q

/-- No method wants untransformed contexts, or no method is missing. -/
def NoRaw (env : TrEnv α L A R G N) : Prop := (∀ l m, env.meth l = some m → m.addU = false) ∨ ∀ l, env.meth l ≠ none

/-! Groups of objects -/

/-- A list with the objects at their positions, and None at the others. -/
def fillGroup (n : Nat) (part : List (Nat × R)) : List (Option R) :=
  (List.range n).map (fun i => (part.find? (fun p => p.1 == i)).map (·.2))

/-- The positions go up. -/
def Ascends (part : List (Nat × R)) : Prop := part.Pairwise (fun a b => a.1 < b.1)

/-- Every next part starts at a position that is not after the last position of the part. -/
def Breaks : List (List (Nat × R)) → Prop
  | p :: q :: ps => (∃ a b, p.getLast? = some a ∧ q.head? = some b ∧ b.1 ≤ a.1) ∧ Breaks (q :: ps)
  | _ => True

end Parce

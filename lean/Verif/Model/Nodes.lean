import Verif.Model.Tree
import Verif.Model.Query
/-!
# Model of the methods of Node and Token that relate nodes of a tree, parce/tree.py

A node is a path in a tree, as in `Model/Tree.lean`; `n is m` for nodes of one tree is that the
paths are equal.
-/
namespace Parce.Nd
open Parce
variable {α L A : Type}

/-! ### delete -/

/-- `del c[i]`, where `c` is the context at a path. -/
def delChild : Node α L A → List Nat → Nat → Node α L A
  | .ctx l cs, [], i => .ctx l (cs.eraseIdx i)
  | .ctx l cs, j :: p, i => .ctx l (cs.modify j (fun n => delChild n p i))
  | .tok t, _, _ => .tok t
termination_by structural _ p => p

/-- The loop of `Node.delete`, `tree.py:315-318`, for the node whose path, reversed, is given.
    `ancestors_with_index` is a generator: the `parent_index()` of an ancestor is computed after
    its child was deleted. The result is the tree and the path of the returned context. -/
def deleteLoop (root : Node α L A) : List Nat → Node α L A × Option (List Nat)
  | [] => (root, none)
  | i :: up =>
    let root' := delChild root up.reverse (parentIndex (root.kidsAt up.reverse) i)
    if root'.kidsAt up.reverse ≠ [] then (root', some up.reverse) else deleteLoop root' up

/-- `Node.delete`, `tree.py:308-318`. -/
def delete (root : Node α L A) (path : List Nat) : Node α L A × Option (List Nat) := deleteLoop root path.reverse

/-! ### Ancestors -/

/-- `while node is not None and node is not p`, `tree.py:195-197`: the paths of the nodes from
    `node` on (reversed; `none` is the parent of the root). -/
def climb (p : List Nat) : (rev : List Nat) → List (List Nat)
  | [] => if [] = p then [] else [[]]
  | i :: rev => if (i :: rev).reverse = p then [] else (i :: rev).reverse :: climb p rev

/-- `Node.ancestors(upto)`, `tree.py:185-201`; `upto` is a context: whether it is empty and its
    path. -/
def ancestors (path : List Nat) (upto : Option (Bool × List Nat)) : List (List Nat) :=
  match path.reverse with
  | [] => []
  | _ :: rev =>
    match upto with
    | some (false, u) => if u ≠ [] then climb u.dropLast rev else ancestorsOf path
    | _ => ancestorsOf path

/-- `Node.root`, `tree.py:155-160`. -/
def rootOf (path : List Nat) : List Nat := ((ancestors path none).getLast?).getD path

/-- `Node.is_ancestor_of`, `tree.py:178-183`. -/
def isAncestorOf (self node : List Nat) : Bool := (ancestors node none).any (fun n => decide (n = self))

/-- `Node.depth`, `tree.py:222-224`. -/
def depth (path : List Nat) : Nat := ((ancestors path none).map (fun _ => 1)).sum

/-- `Node.common_ancestor`, `tree.py:210-220`. (Contexts are compared by identity,
    `tree.py:628-632`.) -/
def commonAncestor (root : Node α L A) (self other : List Nat) : Option (List Nat) :=
  let anc := (if isCtxAt root self then [self] else []) ++ ancestors self none
  if isCtxAt root other = true ∧ other ∈ anc then some other
  else (ancestors other none).find? (fun n => decide (n ∈ anc))

/-! ### Siblings -/

/-- `Node.is_first` and `Node.is_last`, `tree.py:162-176`, of the child with index `i`. -/
def isFirst (i : Nat) : Bool := decide (0 = i)
def isLast (cs : List (Node α L A)) (i : Nat) : Bool := decide (cs.length = i + 1)

/-- `Node.left_sibling`, `tree.py:226-235`: the index of the sibling. Index -1 is the last. -/
def leftSibling (cs : List (Node α L A)) (i : Nat) : Option Nat :=
  if isFirst i then none
  else
    let k := parentIndex cs i
    (pyIdx cs (if k = 0 then none else some (k - 1))).map (·.1)

/-- `Node.right_sibling`, `tree.py:237-246`. (An index after the last would be an IndexError.) -/
def rightSibling (cs : List (Node α L A)) (i : Nat) : Option Nat :=
  if isLast cs i then none
  else
    let k := parentIndex cs i
    (pyIdx cs (some (k + 1))).map (·.1)

/-- `Node.left_siblings`, `tree.py:248-257`: `parent[i-1::-1]`. -/
def leftSiblings (cs : List (Node α L A)) (i : Nat) : List Nat :=
  if isFirst i then []
  else
    let k := parentIndex cs i
    ((List.range cs.length).take (if k = 0 then cs.length else k)).reverse

/-- `Node.right_siblings`, `tree.py:259-268`: `parent[i+1:]`. -/
def rightSiblings (cs : List (Node α L A)) (i : Nat) : List Nat :=
  if isLast cs i then []
  else (List.range cs.length).drop (parentIndex cs i + 1)

/-! ### From one token to the other -/

/-- The loop over the ancestors of the other token, `tree.py:480-488`; `s` has the ancestors of
    self with the indices. -/
def trailLoop (s : List (List Nat × Nat)) : (o : List (List Nat × Nat)) → (oIdx : List Nat) →
    Option (List Nat × List Nat × List Nat)
  | [], _ => none
  | (n, i) :: o, oIdx =>
    match (s.map (·.1)).idxOf? n with
    | none => trailLoop s o (oIdx ++ [i])
    | some k => some (n, ((s.map (·.2)).take (k + 1)).reverse, (oIdx ++ [i]).reverse)

/-- The position of the node at a path. -/
def posAt (root : Node α L A) (p : List Nat) : Nat := ((root.at p).map Node.pos).getD 0

/-- `Token.common_ancestor_with_trail`, `tree.py:464-490`, for two tokens of one tree. -/
def commonTrail (root : Node α L A) (self other : List Nat) : Option (List Nat × List Nat × List Nat) :=
  if other = self then
    let i := parentIndex (root.kidsAt self.dropLast) (self.getLast?.getD 0)
    some (self.dropLast, [i], [i])
  else if posAt root other > posAt root self then
    trailLoop (ancestorsWithIndex root [] self) (ancestorsWithIndex root [] other) []
  else none

/-- `Token.range`, `tree.py:492-502`. A context is false when it has no children. -/
def range (root : Node α L A) (self other : List Nat) : Option Rng :=
  match commonTrail root self other with
  | none => none
  | some (c, st, et) => if root.kidsAt c ≠ [] then some ⟨c, st, et⟩ else none

/-- `Token.forward_until_including`, `tree.py:458-462`. (A Range is always true.) -/
def forwardUntilIncluding (root : Node α L A) (self other : List Nat) : List (List Nat × TokN α A) :=
  match range root self other with
  | none => []
  | some r => r.tokens root

/-- `Token.forward_including` and `backward_including`, `tree.py:448-456`; `upto` is at `base`. -/
def forwardIncluding (root : Node α L A) (base path : List Nat) (t : TokN α A) : List (List Nat × TokN α A) :=
  (base ++ path, t) :: forward root base path
def backwardIncluding (root : Node α L A) (base path : List Nat) (t : TokN α A) : List (List Nat × TokN α A) :=
  (base ++ path, t) :: backward root base path

/-! ### Comparing tokens -/

/-- The lexicon of the context at a path. -/
def lexAt (root : Node α L A) (p : List Nat) : Option L :=
  match root.at p with
  | some (.ctx l _) => some l
  | _ => none

/-- A token: the number of its tree and the path. -/
structure Ref where
  tree : Nat
  path : List Nat
deriving DecidableEq, Repr

/-- The loop of `Token.state_matches`, `tree.py:416-420`, with what is returned after it: the
    last pair of contexts is kept. (Both lists have an element when the tokens have parents;
    otherwise Python would fail.) -/
def stateLoop [DecidableEq L] (trees : Nat → Node α L A) : Ref → Ref → List Ref → List Ref → Bool
  | _, _, c1 :: r1, c2 :: r2 =>
    if c1 = c2 then true
    else if lexAt (trees c1.tree) c1.path ≠ lexAt (trees c2.tree) c2.path then false
    else stateLoop trees c1 c2 r1 r2
  | l1, l2, _, _ => decide (l1.path = []) && decide (l2.path = [])

/-- `Token.state_matches`, `tree.py:412-421`. -/
def stateMatches [DecidableEq L] (trees : Nat → Node α L A) (self other : Ref) : Bool :=
  if other = self then true
  else stateLoop trees self other ((ancestors self.path none).map (⟨self.tree, ·⟩))
    ((ancestors other.path none).map (⟨other.tree, ·⟩))

/-- `Token.equals`, `tree.py:398-408`. -/
def equals [DecidableEq α] [DecidableEq L] [DecidableEq A] (trees : Nat → Node α L A) (self other : Ref) : Bool :=
  match (trees self.tree).at self.path, (trees other.tree).at other.path with
  | some (.tok t), some (.tok u) => decide (t.text = u.text) && decide (t.act = u.act) && stateMatches trees self other
  | _, _ => false

/-! ### The same in queries -/

/-- The paths of the siblings of the node at a path; the root has no parent and Python fails. -/
def sibs (f : List (Node α L A) → Nat → List Nat) (root : Node α L A) (p : List Nat) : List (List Nat) :=
  (f (root.kidsAt p.dropLast) (p.getLast?.getD 0)).map (fun j => p.dropLast ++ [j])

/-- `Query.parent`, `query.py:444-453`: `if n.parent` is false for None (and for an empty list,
    but a parent has a child). -/
def qParent (root : Node α L A) (q : List (List Nat)) : List (List Nat) :=
  q.flatMap (fun p => if p ≠ [] ∧ root.kidsAt p.dropLast ≠ [] then [p.dropLast] else [])

/-- Whether a node is true: a context that has children, a token that has text. -/
def truth (root : Node α L A) (p : List Nat) : Bool :=
  match root.at p with
  | some (.ctx _ cs) => !cs.isEmpty
  | some (.tok t) => !t.text.isEmpty
  | none => false

/-- `Query.first` and `Query.last`, `query.py:461-473`. -/
def qFirst (root : Node α L A) (q : List (List Nat)) : List (List Nat) :=
  q.flatMap (fun p => if truth root p && isCtxAt root p then [p ++ [0]] else [])
def qLast (root : Node α L A) (q : List (List Nat)) : List (List Nat) :=
  q.flatMap (fun p => if truth root p && isCtxAt root p then [p ++ [(root.kidsAt p).length - 1]] else [])

/-- `Query.next`, `previous`, `forward` and `backward`, `query.py:475-501`. -/
def qNext (root : Node α L A) (q : List (List Nat)) : List (List Nat) :=
  q.flatMap (fun p => ((nextToken root p).toList.map (·.1)).filter (truth root))
def qPrevious (root : Node α L A) (q : List (List Nat)) : List (List Nat) :=
  q.flatMap (fun p => ((previousToken root p).toList.map (·.1)).filter (truth root))
def qForward (root : Node α L A) (q : List (List Nat)) : List (List Nat) :=
  q.flatMap (fun p => (forward root [] p).map (·.1))
def qBackward (root : Node α L A) (q : List (List Nat)) : List (List Nat) :=
  q.flatMap (fun p => (backward root [] p).map (·.1))

/-- `Query.right` and `left`, `query.py:503-517`, for nodes that are not the root. -/
def qRight (root : Node α L A) (q : List (List Nat)) : List (List Nat) :=
  q.flatMap (fun p => (sibs (fun cs i => (rightSibling cs i).toList) root p).filter (truth root))
def qLeft (root : Node α L A) (q : List (List Nat)) : List (List Nat) :=
  q.flatMap (fun p => (sibs (fun cs i => (leftSibling cs i).toList) root p).filter (truth root))

/-- `Query.right_siblings` and `left_siblings`, `query.py:519-529`. -/
def qRightSiblings (root : Node α L A) (q : List (List Nat)) : List (List Nat) := q.flatMap (sibs rightSiblings root)
def qLeftSiblings (root : Node α L A) (q : List (List Nat)) : List (List Nat) := q.flatMap (sibs leftSiblings root)

/-- `Query.map`, `filter`, `tokens` and `contexts`, `query.py:531-558`. -/
def qMap (f : List Nat → List (List Nat)) (q : List (List Nat)) : List (List Nat) := q.flatMap f
def qFilter (f : List Nat → Bool) (q : List (List Nat)) : List (List Nat) := q.flatMap (fun p => if f p then [p] else [])
def qTokens (root : Node α L A) (q : List (List Nat)) : List (List Nat) :=
  q.flatMap (fun p => if !isCtxAt root p then [p] else [])
def qContexts (root : Node α L A) (q : List (List Nat)) : List (List Nat) :=
  q.flatMap (fun p => if isCtxAt root p then [p] else [])

end Parce.Nd

import Verif.Model.Tree
/-!
# Model of parce/query.py

A node is a path in one tree. A query is a list of nodes (the generators are consumed
completely), and for the selectors whether it is inverted.
-/
namespace Parce
variable {α L A : Type}

/-! ### Navigators -/

/-- `innergen` of `all`, `query.py:386-404`, and of `allcontexts` (`onlyCtx`), `query.py:421-438`:
    the path of `n`, the stack and `j`. -/
def allLoop (onlyCtx : Bool) (root : Node α L A) : (fuel : Nat) → (path stack : List Nat) → (j : Nat) → List (List Nat)
  | 0, _, _, _ => []
  | fuel + 1, path, stack, j =>
    match (root.kidsAt path)[j]? with
    | some (.ctx _ _) => (path ++ [j]) :: allLoop onlyCtx root fuel (path ++ [j]) (j :: stack) 0
    | some (.tok _) =>
      if onlyCtx then allLoop onlyCtx root fuel path stack (j + 1)
      else (path ++ [j]) :: allLoop onlyCtx root fuel path stack (j + 1)
    | none =>
      match stack with
      | [] => []
      | i :: st => allLoop onlyCtx root fuel path.dropLast st (i + 1)

/-- Whether the node is a context. -/
def isCtxAt (root : Node α L A) (p : List Nat) : Bool := ((root.at p).map Node.isCtx).getD false

/-- `Query.all`, `query.py:383-407`. Every node below is visited once and every context left once. -/
def qAll (root : Node α L A) (q : List (List Nat)) : List (List Nat) :=
  q.flatMap (fun p => p :: (if isCtxAt root p then allLoop false root (2 * sizeL (root.kidsAt p) + 1) p [] 0 else []))

/-- `Query.allcontexts`, `query.py:418-442`. -/
def qAllContexts (root : Node α L A) (q : List (List Nat)) : List (List Nat) :=
  q.flatMap (fun p => if isCtxAt root p then p :: allLoop true root (2 * sizeL (root.kidsAt p) + 1) p [] 0 else [])

/-- `Query.alltokens`, `query.py:409-416`. -/
def qAllTokens (root : Node α L A) (q : List (List Nat)) : List (List Nat) :=
  q.flatMap (fun p => if isCtxAt root p then (Node.tokens false p (root.kidsAt p)).map (·.1) else [p])

/-- `Query.children`, `query.py:376-381`. -/
def qChildren (root : Node α L A) (q : List (List Nat)) : List (List Nat) :=
  q.flatMap (fun p => (List.range (root.kidsAt p).length).map (fun i => p ++ [i]))

/-- `Query.__getitem__` with an integer, `query.py:368-374`. -/
def qItem (root : Node α L A) (key : Int) (q : List (List Nat)) : List (List Nat) :=
  q.flatMap (fun p =>
    let n := (root.kidsAt p).length
    let k := if key < 0 then key + n else key
    if 0 ≤ k ∧ k < n then [p ++ [k.toNat]] else [])

/-- `Node.ancestors`, `tree.py:185-201`. -/
def ancestorsOf (p : List Nat) : List (List Nat) := (List.range p.length).reverse.map (fun k => p.take k)

/-- `Query.ancestors`, `query.py:455-459`. -/
def qAncestors (q : List (List Nat)) : List (List Nat) := q.flatMap ancestorsOf

/-- `Query.uniq`, `query.py:560-572`. -/
def uniqLoop : (seen : List (List Nat)) → List (List Nat) → List (List Nat)
  | _, [] => []
  | seen, p :: q => if p ∈ seen then uniqLoop seen q else p :: uniqLoop (p :: seen) q

def qUniq (q : List (List Nat)) : List (List Nat) := uniqLoop [] q

/-- `Query.remove_descendants`, `query.py:591-597`. -/
def qRemoveDescendants (q : List (List Nat)) : List (List Nat) :=
  q.filter (fun p => !(ancestorsOf p).any (fun a => decide (a ∈ q)))

/-- `Query.remove_ancestors`, `query.py:599-605`. -/
def qRemoveAncestors (q : List (List Nat)) : List (List Nat) :=
  let ids := q.filter (fun p => decide (p ∈ qAncestors q))
  q.filter (fun p => !decide (p ∈ ids))

/-- `Query.range`, `query.py:283-299`; `none` is (-1, -1). -/
def qRange (nodes : List (Node α L A)) : Option (Nat × Nat) :=
  match nodes with
  | [] => none
  | n :: ns => some (ns.foldl (fun r m => (min r.1 m.pos, max r.2 m.stop)) (n.pos, n.stop))

/-! ### Selectors -/

/-- The invertible selectors, `query.py:612-703`. Searching with a regular expression and the
    membership of standard actions are functions. `ends` is given as a number (in Python it is
    `sys.maxsize` when left out). -/
inductive Sel (α L A : Type) where
  | len (min : Nat) (max : Option Nat)
  | inRange (start ends : Nat)
  | call (texts : List (List α)) (lexicons : List L)
  | startingwith (text : List α)
  | endingwith (text : List α)
  | containing (text : List α)
  | matching (search : List α → Bool)
  | action (actions : List A)
  | inAction (inside : A → A → Bool) (actions : List A)

/-- A query with `_inv`, `query.py:219-224`. -/
structure Qry (α L A : Type) where
  nodes : List (Node α L A)
  inv : Bool

/-- `is_not`, `query.py:607-610`. -/
def Qry.isNot (q : Qry α L A) : Qry α L A := ⟨q.nodes, !q.inv⟩

/-- `text in t.text`. -/
def hasSub [DecidableEq α] (sub : List α) : List α → Bool
  | [] => sub.isPrefixOf []
  | a :: t => sub.isPrefixOf (a :: t) || hasSub sub t

/-- Whether a node is yielded. -/
def Sel.yields [DecidableEq α] [DecidableEq L] [DecidableEq A] (inv : Bool) : Sel α L A → Node α L A → Bool
  | .len mn mx, .ctx _ cs =>
    inv ^^ (match mx with | none => decide (cs.length = mn) | some mx => decide (mn ≤ cs.length ∧ cs.length ≤ mx))
  | .len _ _, .tok _ => false
  | .inRange start ends, n =>
    if inv then decide (n.stop ≤ start ∨ n.pos ≥ ends) else decide (n.pos ≥ start ∧ n.stop ≤ ends)
  | .call texts _, .tok t => inv ^^ decide (t.text ∈ texts)
  | .call _ lexs, .ctx l _ => inv ^^ decide (l ∈ lexs)
  | .startingwith s, .tok t => inv ^^ (t.text.take s.length == s)
  | .endingwith s, .tok t => inv ^^ (decide (s.length ≤ t.text.length) && t.text.drop (t.text.length - s.length) == s)
  | .containing s, .tok t => inv ^^ hasSub s t.text
  | .matching f, .tok t => inv ^^ f t.text
  | .action as, .tok t => inv ^^ decide (t.act ∈ as)
  | .inAction inside as, .tok t => inv ^^ as.any (fun a => inside t.act a)
  | _, .ctx _ _ => false

/-- The new query of a selector; it is not inverted, `query.py:203-208`. -/
def Qry.sel [DecidableEq α] [DecidableEq L] [DecidableEq A] (s : Sel α L A) (q : Qry α L A) : Qry α L A :=
  ⟨q.nodes.filter (s.yields q.inv), false⟩

/-! ### delete -/

/-- The dictionary `d`: the parents with the indices of the children to delete, in the order in
    which they were added. -/
abbrev DelMap := List (List Nat × List Nat)

/-- `d[key].append(i)` on a defaultdict. -/
def dAppend : DelMap → List Nat → Nat → DelMap
  | [], key, i => [(key, [i])]
  | e :: d, key, i => if e.1 = key then (e.1, e.2 ++ [i]) :: d else e :: dAppend d key i

/-- `d[n.parent].append(n)`. -/
def dAdd (d : DelMap) (n : List Nat) : DelMap := dAppend d n.dropLast (n.getLast?.getD 0)

/-- `remove`, `query.py:325-327`. -/
def dFull (root : Node α L A) (d : DelMap) : List (List Nat) :=
  (d.filter (fun e => decide (e.2.length = (root.kidsAt e.1).length) && !e.1.isEmpty)).map (·.1)

/-- `del d[n]; d[n.parent].append(n)`, `query.py:331-332`. -/
def dUp (d : DelMap) (n : List Nat) : DelMap := dAdd (d.filter (fun e => !decide (e.1 = n))) n

/-- `while True:`, `query.py:324-332`. -/
def collapse (root : Node α L A) : (fuel : Nat) → DelMap → DelMap
  | 0, d => d
  | fuel + 1, d => if dFull root d = [] then d else collapse root fuel ((dFull root d).foldl dUp d)

/-- A bound for the number of rounds. -/
def dWork (d : DelMap) : Nat := (d.map (fun e => e.1.length + 1)).sum

/-- Stable insertion for `l.sort(key=…)`. -/
def insertBy (key : Nat → Nat) (x : Nat) : List Nat → List Nat
  | [] => [x]
  | y :: ys => if key x < key y then x :: y :: ys else y :: insertBy key x ys

/-- `l.sort(key=lambda n: n.pos)`, `query.py:335`, for children of the same parent. -/
def sortPos (cs : List (Node α L A)) (l : List Nat) : List Nat :=
  l.foldl (fun acc x => insertBy (fun i => (cs[i]?.map Node.pos).getD 0) x acc) []

/-- The loop that makes the slices, `query.py:341-347`, over the current children of a parent; the
    slices are in reverse order here. `none`: IndexError from `parent[i+1]`. -/
def slicesLoop (cs : List (Node α L A)) : (i : Nat) → (slices : List (Nat × Nat)) → List Nat → Option (List (Nat × Nat))
  | _, slices, [] => some slices
  | i, slices, n :: ns =>
    if cs.length ≤ i + 1 then none
    else if n = i + 1 then
      slicesLoop cs (i + 1) (match slices with | (a, b) :: r => (a, b + 1) :: r | [] => []) ns
    else slicesLoop cs (parentIndex cs n) ((parentIndex cs n, parentIndex cs n + 1) :: slices) ns

/-- `query.py:338-347`. -/
def slicesOf (cs : List (Node α L A)) : List Nat → Option (List (Nat × Nat))
  | [] => none
  | n :: ns =>
    let i := if n = 0 then 0 else parentIndex cs n
    slicesLoop cs i [(i, i + 1)] ns

/-- `del parent[i:j]` for the slices, `query.py:348-349`. -/
def cutAll {β : Type} (slices : List (Nat × Nat)) (xs : List β) : List β :=
  slices.foldl (fun xs s => xs.take s.1 ++ xs.drop s.2) xs

/-- The slices deleted from the children of the parent at a path. -/
def cutsAt (dels : List (List Nat × List (Nat × Nat))) (p : List Nat) : List (Nat × Nat) :=
  ((dels.find? (fun e => decide (e.1 = p))).map (·.2)).getD []

mutual
/-- The tree after the deletions in some parents; these are named by their paths in the tree before
    any deletion (in Python: by identity). -/
def Node.delAt (dels : List (List Nat × List (Nat × Nat))) (p : List Nat) : Node α L A → Node α L A
  | .tok t => .tok t
  | .ctx l cs => .ctx l (cutAll (cutsAt dels p) (delL dels p 0 cs))
def delL (dels : List (List Nat × List (Nat × Nat))) (p : List Nat) (i : Nat) : List (Node α L A) → List (Node α L A)
  | [] => []
  | n :: ns => n.delAt dels (p ++ [i]) :: delL dels p (i + 1) ns
end

/-- `for parent, nodes in d.items()`, `query.py:337-349`. -/
def delLoop (root : Node α L A) : DelMap → List (List Nat × List (Nat × Nat)) → Option (List (List Nat × List (Nat × Nat)))
  | [], dels => some dels
  | (p, nodes) :: d, dels =>
    match slicesOf (delL dels p 0 (root.kidsAt p)) nodes with
    | none => none
    | some s => delLoop root d ((p, s) :: dels)

/-- `Query.delete`, `query.py:301-350`, of nodes of one tree; `none`: IndexError. (When the root is
    selected, the other nodes are its descendants and have been left out.) -/
def qDelete (root : Node α L A) (q : List (List Nat)) : Option (Nat × Node α L A) :=
  let ns := qRemoveDescendants (qUniq q)
  if [] ∈ ns then
    some ((root.kids).length, match root with | .ctx l _ => .ctx l [] | .tok t => .tok t)
  else
    let d := ns.foldl dAdd []
    let d := collapse root (dWork d + 1) d
    let d := d.map (fun e => (e.1, sortPos (root.kidsAt e.1) e.2))
    (delLoop root d []).map (fun dels => ((d.map (fun e => e.2.length)).sum, root.delAt dels []))

end Parce

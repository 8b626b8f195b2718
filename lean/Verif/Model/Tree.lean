import Verif.Model.Lexer
/-!
# Model of parce/tree.py and of build_tree in parce/treebuilder.py

A tree is a value; the identity of a node (and its parent pointer) is its path: the list of
child indices that leads to it from the root.
-/
namespace Parce

/-- A `Token` or `GroupToken`, `tree.py:380-387`, `531-556`: `group` is None for a Token. -/
structure TokN (α A : Type) where
  pos : Nat
  text : List α
  act : A
  group : Option Int
deriving DecidableEq, Repr

/-- A tree node, `tree.py:70`: a Token or a Context (`tree.py:610-618`). -/
inductive Node (α L A : Type) where
  | tok (t : TokN α A)
  | ctx (lex : L) (kids : List (Node α L A))
deriving Repr

variable {α L A ρ : Type}

mutual
def Node.decEq [DecidableEq α] [DecidableEq L] [DecidableEq A] : (a b : Node α L A) → Decidable (a = b)
  | .tok s, .tok t =>
    if h : s = t then .isTrue (h ▸ rfl) else .isFalse (fun e => h (Node.tok.inj e))
  | .ctx l cs, .ctx m ds =>
    if h : l = m then
      match Node.decEqL cs ds with
      | .isTrue h2 => .isTrue (h ▸ h2 ▸ rfl)
      | .isFalse h2 => .isFalse (fun e => h2 (Node.ctx.inj e).2)
    else .isFalse (fun e => h (Node.ctx.inj e).1)
  | .tok _, .ctx _ _ => .isFalse (fun e => by cases e)
  | .ctx _ _, .tok _ => .isFalse (fun e => by cases e)
def Node.decEqL [DecidableEq α] [DecidableEq L] [DecidableEq A] :
    (a b : List (Node α L A)) → Decidable (a = b)
  | [], [] => .isTrue rfl
  | [], _ :: _ => .isFalse (fun e => by cases e)
  | _ :: _, [] => .isFalse (fun e => by cases e)
  | n :: ns, m :: ms =>
    match Node.decEq n m with
    | .isTrue h =>
      match Node.decEqL ns ms with
      | .isTrue h2 => .isTrue (h ▸ h2 ▸ rfl)
      | .isFalse h2 => .isFalse (fun e => h2 (List.cons.inj e).2)
    | .isFalse h => .isFalse (fun e => h (List.cons.inj e).1)
end

instance [DecidableEq α] [DecidableEq L] [DecidableEq A] : DecidableEq (Node α L A) := Node.decEq

/-- `Token.end`, `tree.py:389-392`. -/
def TokN.stop (t : TokN α A) : Nat := t.pos + t.text.length

def Node.isCtx : Node α L A → Bool
  | .tok _ => false
  | .ctx _ _ => true

/-- The list of children of a context. -/
def Node.kids : Node α L A → List (Node α L A)
  | .tok _ => []
  | .ctx _ cs => cs

/-! ### Building a tree from events -/

/-- `GroupToken.make_group`, `tree.py:562-567`: the last index is negated. -/
def makeGroup (lxs : List (Lexeme α A)) : List (TokN α A) :=
  lxs.mapIdx (fun n l => ⟨l.pos, l.text, l.act,
    some (if n + 1 = lxs.length then -(n : Int) else (n : Int))⟩)

/-- `make_tokens`, `tree.py:1073-1088`. (An empty tuple of lexemes would raise IndexError; the
    lexer never yields one, `C22_lexemes_ne`.) -/
def makeTokens (lxs : List (Lexeme α A)) : List (TokN α A) :=
  if lxs.length > 1 then makeGroup lxs
  else (lxs.take 1).map (fun l => ⟨l.pos, l.text, l.act, none⟩)

/-- An open context: its lexicon and the children it has so far. -/
structure Frame (α L A : Type) where
  lex : L
  kids : List (Node α L A)

/-- The tree under construction: the current context and its ancestors, innermost first. In
    Python a context is appended to its parent when it is created; here when it is left. The
    last context on the way up is the root. -/
structure BState (α L A : Type) where
  cur : Frame α L A
  up : List (Frame α L A)

/-- `context = context.parent`, `treebuilder.py:66`. In the root, Python would go to None (and
    fail on the next use); `C18` shows this is never done, here it does nothing. -/
def BState.leave (b : BState α L A) : BState α L A :=
  match b.up with
  | [] => b
  | f :: fs => ⟨⟨f.lex, f.kids ++ [.ctx b.cur.lex b.cur.kids]⟩, fs⟩

/-- `Context(lexicon, context)`, `treebuilder.py:68-69`. -/
def BState.enter (b : BState α L A) (l : L) : BState α L A := ⟨⟨l, []⟩, b.cur :: b.up⟩

/-- Repeat `leave`. -/
def BState.leaves : Nat → BState α L A → BState α L A
  | 0, b => b
  | n + 1, b => BState.leaves n b.leave

/-- The target part of the loop body, `treebuilder.py:64-69`. -/
def BState.target (b : BState α L A) : Option (Target L) → BState α L A
  | none => b
  | some t => t.push.foldl BState.enter (b.leaves t.pop)

/-- The loop body of `build_tree`, `treebuilder.py:64-70`. -/
def BState.event (b : BState α L A) (e : Event α L A) : BState α L A :=
  let b' := b.target e.target
  { b' with cur := { b'.cur with kids := b'.cur.kids ++ (makeTokens e.lexemes).map .tok } }

/-- The root context. -/
def BState.close (b : BState α L A) : Node α L A :=
  b.up.foldl (fun n f => .ctx f.lex (f.kids ++ [n])) (.ctx b.cur.lex b.cur.kids)

/-- `build_tree` for a given stream of events. -/
def buildEvents (root : L) (evs : List (Event α L A)) : Node α L A :=
  (evs.foldl BState.event ⟨⟨root, []⟩, []⟩).close

/-- `build_tree`, `treebuilder.py:56-71`, with at most `n` steps of the lexer. -/
def buildTree [DecidableEq α] (lang : Lang α L A ρ) (root : L) (t : List α) (pos n : Nat) : Node α L A :=
  buildEvents root (lexRun lang t n (LState.start [root] pos)).1

/-! ### Measures -/

mutual
/-- `Context.first_token`, `tree.py:750-758` (a token is its own first token). -/
def Node.firstTok : Node α L A → Option (TokN α A)
  | .tok t => some t
  | .ctx _ cs => firstTokL cs
def firstTokL : List (Node α L A) → Option (TokN α A)
  | [] => none
  | n :: _ => n.firstTok
end

mutual
/-- `Context.last_token`, `tree.py:760-768`. -/
def Node.lastTok : Node α L A → Option (TokN α A)
  | .tok t => some t
  | .ctx _ cs => lastTokL cs
def lastTokL : List (Node α L A) → Option (TokN α A)
  | [] => none
  | n :: ns => if ns = [] then n.lastTok else lastTokL ns
termination_by structural x => x
end

/-- `pos` of a node, `tree.py:677-686`. -/
def Node.pos (n : Node α L A) : Nat := (n.firstTok.map (·.pos)).getD 0

/-- `end` of a node, `tree.py:688-697`. -/
def Node.stop (n : Node α L A) : Nat := (n.lastTok.map (·.stop)).getD 0

mutual
/-- The number of nodes, an upper bound for the number of steps of the loops below. -/
def Node.size : Node α L A → Nat
  | .tok _ => 1
  | .ctx _ cs => sizeL cs + 1
def sizeL : List (Node α L A) → Nat
  | [] => 0
  | n :: ns => n.size + sizeL ns
end

/-! ### Finding tokens

The loops `while lo < hi` halve the interval; `fuel` bounds the number of rounds and is given
as the length of the interval, which is enough. -/

/-- The bisection used everywhere in `tree.py`: `right m` tells whether to continue right of
    the node at index `m`. -/
def bisect (right : Nat → Bool) : (fuel lo hi : Nat) → Nat
  | 0, lo, _ => lo
  | fuel + 1, lo, hi =>
    if lo < hi then
      if right ((lo + hi) / 2) then bisect right fuel ((lo + hi) / 2 + 1) hi
      else bisect right fuel lo ((lo + hi) / 2)
    else lo

/-- Whether the node at index `m` satisfies `p`. -/
def nodeIs (cs : List (Node α L A)) (p : Node α L A → Bool) (m : Nat) : Bool :=
  (cs[m]?.map p).getD false

/-- `Context.find`, `tree.py:770-785`; `none` is -1. -/
def ctxFind (cs : List (Node α L A)) (pos : Nat) : Option Nat :=
  let i := bisect (nodeIs cs (fun n => decide (n.stop ≤ pos))) cs.length 0 cs.length
  if i = cs.length then none else some i

/-- `Context.find_left`, `tree.py:836-851`; `none` is -1. -/
def findLeft (cs : List (Node α L A)) (pos : Nat) : Option Nat :=
  let i := bisect (nodeIs cs (fun n => decide (n.pos < pos))) cs.length 0 cs.length
  if i = 0 then none else some (i - 1)

/-- `n[i]` where `none` stands for -1, the last child. -/
def pyIdx (cs : List (Node α L A)) : Option Nat → Option (Nat × Node α L A)
  | some i => cs[i]?.map (fun n => (i, n))
  | none => cs.getLast?.map (fun n => (cs.length - 1, n))

/-- The loop `while n.is_context: n = n[n.find(pos)]` of `find_token` (798-809) and
    `find_token_left` (853-864). `none`: IndexError in an empty context. -/
def descend (fnd : List (Node α L A) → Option Nat) : (fuel : Nat) → Node α L A → Option (TokN α A)
  | _, .tok t => some t
  | 0, .ctx _ _ => none
  | fuel + 1, .ctx _ cs =>
    match pyIdx cs (fnd cs) with
    | none => none
    | some (_, n) => descend fnd fuel n

/-- `Context.find_token`, `tree.py:798-809`. -/
def findToken (cs : List (Node α L A)) (pos : Nat) : Option (TokN α A) :=
  match ctxFind cs pos with
  | none => none
  | some i => cs[i]?.bind (descend (fun c => ctxFind c pos) (sizeL cs))

/-- `Context.find_token_left`, `tree.py:853-864`. -/
def findTokenLeft (cs : List (Node α L A)) (pos : Nat) : Option (TokN α A) :=
  match findLeft cs pos with
  | none => none
  | some i => cs[i]?.bind (descend (fun c => findLeft c pos) (sizeL cs))

/-- The loop of the variants with a trail, `tree.py:828-833`, `876-880`. The index in the trail
    is the one found (-1 is kept as the index of the last child; it does not occur in trees
    without empty contexts). -/
def descendTrail (fnd : List (Node α L A) → Option Nat) :
    (fuel : Nat) → Node α L A → List Nat → Option (TokN α A × List Nat)
  | _, .tok t, trail => some (t, trail)
  | 0, .ctx _ _, _ => none
  | fuel + 1, .ctx _ cs, trail =>
    match pyIdx cs (fnd cs) with
    | none => none
    | some (i, n) => descendTrail fnd fuel n (trail ++ [i])

/-- `Context.find_token_with_trail`, `tree.py:811-834`. -/
def findTokenTrail (cs : List (Node α L A)) (pos : Nat) : Option (TokN α A × List Nat) :=
  match ctxFind cs pos with
  | none => none
  | some i => cs[i]?.bind (fun n => descendTrail (fun c => ctxFind c pos) (sizeL cs) n [i])

/-- `Context.find_token_left_with_trail`, `tree.py:866-881`. -/
def findTokenLeftTrail (cs : List (Node α L A)) (pos : Nat) : Option (TokN α A × List Nat) :=
  match findLeft cs pos with
  | none => none
  | some i => cs[i]?.bind (fun n => descendTrail (fun c => findLeft c pos) (sizeL cs) n [i])

/-- `Context.find_token_after`, `tree.py:883-906`. (For a token `last_token` is the token; an
    empty context would fail, here it counts as not right from `pos`.) -/
def findTokenAfter (pos : Nat) : (fuel : Nat) → List (Node α L A) → Option (TokN α A)
  | 0, _ => none
  | fuel + 1, cs =>
    let i := bisect (nodeIs cs (fun n => ((n.lastTok.map (fun t => decide (t.pos < pos))).getD true)))
      cs.length 0 cs.length
    match cs[i]? with
    | none => none
    | some (.tok t) => some t
    | some (.ctx _ ds) => findTokenAfter pos fuel ds

/-- `Context.find_token_before`, `tree.py:908-931`. -/
def findTokenBefore (pos : Nat) : (fuel : Nat) → List (Node α L A) → Option (TokN α A)
  | 0, _ => none
  | fuel + 1, cs =>
    let i := bisect (nodeIs cs (fun n => !((n.firstTok.map (fun t => decide (pos < t.stop))).getD true)))
      cs.length 0 cs.length
    if i = 0 then none
    else
      match cs[i - 1]? with
      | none => none
      | some (.tok t) => some t
      | some (.ctx _ ds) => findTokenBefore pos fuel ds

/-- `Context.find_context`, `tree.py:787-796`: the path of the context found. -/
def findContextLoop (pos : Nat) : (fuel : Nat) → (n : Node α L A) → (self path : List Nat) → List Nat
  | 0, _, self, _ => self
  | _, .tok _, self, _ => self
  | fuel + 1, .ctx l cs, self, path =>
    if (Node.ctx l cs).pos ≤ pos then
      match pyIdx cs (ctxFind cs pos) with
      | none => path
      | some (i, n) => findContextLoop pos fuel n path (path ++ [i])
    else self

def findContext (cs : List (Node α L A)) (pos : Nat) : List Nat :=
  match ctxFind cs pos with
  | none => []
  | some i =>
    match cs[i]? with
    | none => []
    | some n => findContextLoop pos (sizeL cs + 1) n [] [i]

/-! ### Walking through the tree -/

/-- The node at the end of a path. -/
def Node.at : Node α L A → List Nat → Option (Node α L A)
  | n, [] => some n
  | n, i :: p => n.kids[i]?.bind (fun m => m.at p)
termination_by structural _ p => p

/-- The children with their paths, in one or the other order. -/
def children (rev : Bool) (path : List Nat) (cs : List (Node α L A)) : List (List Nat × Node α L A) :=
  let l := cs.mapIdx (fun i n => (path ++ [i], n))
  if rev then l.reverse else l

/-- The loop of `Context.tokens`, `tree.py:727-748`: the current generator and the stack of
    suspended ones. Yields tokens with their paths. -/
def tokensLoop (rev : Bool) : (fuel : Nat) → List (List Nat × Node α L A) →
    List (List (List Nat × Node α L A)) → List (List Nat × TokN α A)
  | 0, _, _ => []
  | fuel + 1, [], gen :: stack => tokensLoop rev fuel gen stack
  | _ + 1, [], [] => []
  | fuel + 1, (p, .tok t) :: gen, stack => (p, t) :: tokensLoop rev fuel gen stack
  | fuel + 1, (p, .ctx _ cs) :: gen, stack => tokensLoop rev fuel (children rev p cs) (gen :: stack)

/-- `Context.tokens(reverse)`. Every node is visited once and every context is left once. -/
def Node.tokens (rev : Bool) (path : List Nat) (cs : List (Node α L A)) : List (List Nat × TokN α A) :=
  tokensLoop rev (2 * sizeL cs + 1) (children rev path cs) []

/-- `util.tokens(nodes, reverse)`, `util.py:780-793`, for nodes with their paths. -/
def utilTokens (rev : Bool) (nodes : List (List Nat × Node α L A)) : List (List Nat × TokN α A) :=
  (if rev then nodes.reverse else nodes).flatMap (fun q =>
    match q.2 with
    | .tok t => [(q.1, t)]
    | .ctx _ cs => Node.tokens rev q.1 cs)

/-- The loop of `Node.parent_index`, `tree.py:131-153`; `n is self` is `mid = self`. -/
def parentIndexLoop (cs : List (Node α L A)) (pos self : Nat) : (fuel lo hi : Nat) → Nat
  | 0, lo, _ => lo
  | fuel + 1, lo, hi =>
    if lo < hi then
      if nodeIs cs (fun n => decide (n.pos < pos)) ((lo + hi) / 2) then
        parentIndexLoop cs pos self fuel ((lo + hi) / 2 + 1) hi
      else if (lo + hi) / 2 = self then (lo + hi) / 2
      else parentIndexLoop cs pos self fuel lo ((lo + hi) / 2)
    else lo

/-- `parent_index()` of the child with index `i`. -/
def parentIndex (cs : List (Node α L A)) (i : Nat) : Nat :=
  parentIndexLoop cs ((cs[i]?.map Node.pos).getD 0) i cs.length 0 cs.length

/-- The children of the context at a path. -/
def Node.kidsAt (root : Node α L A) (p : List Nat) : List (Node α L A) := ((root.at p).map Node.kids).getD []

/-- `ancestors_with_index(upto)`, `tree.py:185-208`, of the node at `base ++ path`, where `base`
    is the path of `upto` (`[]` for None or the root): the paths of the ancestors, innermost
    first, with the `parent_index()`. -/
def ancestorsWithIndex (root : Node α L A) (base path : List Nat) : List (List Nat × Nat) :=
  ((List.range path.length).reverse).map (fun k =>
    (base ++ path.take k, parentIndex (root.kidsAt (base ++ path.take k)) (path[k]?.getD 0)))

/-- `Node.forward(upto)`, `tree.py:280-288`. -/
def forward (root : Node α L A) (base path : List Nat) : List (List Nat × TokN α A) :=
  (ancestorsWithIndex root base path).flatMap (fun q =>
    utilTokens false ((children false q.1 (root.kidsAt q.1)).drop (q.2 + 1)))

/-- `Node.backward(upto)`, `tree.py:290-299`. -/
def backward (root : Node α L A) (base path : List Nat) : List (List Nat × TokN α A) :=
  (ancestorsWithIndex root base path).flatMap (fun q =>
    if q.2 ≠ 0 then utilTokens true ((children false q.1 (root.kidsAt q.1)).take q.2) else [])

/-- `next_token()` and `previous_token()`, `tree.py:270-278`. -/
def nextToken (root : Node α L A) (path : List Nat) : Option (List Nat × TokN α A) :=
  (forward root [] path).head?
def previousToken (root : Node α L A) (path : List Nat) : Option (List Nat × TokN α A) :=
  (backward root [] path).head?

/-! ### Height and copy, written as loops -/

/-- The loop of `Context.height`, `tree.py:703-725`. The stack has, for every enclosing
    context, its children (`n.parent`) and the index. -/
def heightLoop : (fuel : Nat) → (cs : List (Node α L A)) → (i : Nat) →
    (stack : List (List (Node α L A) × Nat)) → (height : Nat) → Nat
  | 0, _, _, _, height => height + 1
  | fuel + 1, cs, i, stack, height =>
    match cs[i]? with
    | some (.tok _) => heightLoop fuel cs (i + 1) stack height
    | some (.ctx _ ds) => heightLoop fuel ds 0 ((cs, i) :: stack) (max height (stack.length + 1))
    | none =>
      match stack with
      | [] => height + 1
      | (cs', i') :: st => heightLoop fuel cs' (i' + 1) st height

/-- `Context.height`. -/
def height (cs : List (Node α L A)) : Nat :=
  if cs = [] then 0 else heightLoop (2 * sizeL cs + 1) cs 0 [] 0

/-- `Token.copy` (394-396) and `GroupToken.copy` (558-560). -/
def TokN.copy (t : TokN α A) : TokN α A := ⟨t.pos, t.text, t.act, t.group⟩

/-- The loop of `Context.copy`, `tree.py:650-675`. The stack has the children of the enclosing
    original contexts (`n.parent`) and the copies under construction (`copy.parent`). -/
def copyLoop : (fuel : Nat) → (cs : List (Node α L A)) → (i : Nat) → (copy : Frame α L A) →
    (stack : List (List (Node α L A) × Frame α L A)) → Option (Node α L A)
  | 0, _, _, _, _ => none
  | fuel + 1, cs, i, copy, stack =>
    match cs[i]? with
    | some (.tok t) => copyLoop fuel cs (i + 1) ⟨copy.lex, copy.kids ++ [.tok t.copy]⟩ stack
    | some (.ctx l ds) => copyLoop fuel ds 0 ⟨l, []⟩ ((cs, copy) :: stack)
    | none =>
      match stack with
      | [] => some (.ctx copy.lex copy.kids)
      | (cs', f) :: st =>
        let kids := f.kids ++ [.ctx copy.lex copy.kids]
        copyLoop fuel cs' kids.length ⟨f.lex, kids⟩ st

/-- `Context.copy`. -/
def copyCtx (l : L) (cs : List (Node α L A)) : Option (Node α L A) :=
  copyLoop (2 * sizeL cs + 1) cs 0 ⟨l, []⟩ []

/-! ### Groups -/

/-- `p[j].group > 0` for a child of the parent. -/
def groupPos (cs : List (Node α L A)) (j : Nat) : Bool :=
  match cs[j]? with
  | some (.tok t) => (t.group.map (fun g => decide (0 < g))).getD false
  | _ => false

/-- The loop `while j < z and p[j].group > 0: j += 1`. -/
def groupLoop (cs : List (Node α L A)) (z : Nat) : (fuel j : Nat) → Nat
  | 0, j => j
  | fuel + 1, j => if j < z ∧ groupPos cs j = true then groupLoop cs z fuel (j + 1) else j

/-- The `group` of the token at index `i`. -/
def groupAt (cs : List (Node α L A)) (i : Nat) : Option Int :=
  match cs[i]? with
  | some (.tok t) => t.group
  | _ => none

/-- `GroupToken.get_group`, `tree.py:569-582`, of the token at index `i` of `cs`. -/
def getGroup (cs : List (Node α L A)) (i : Nat) : List (Node α L A) :=
  let k := parentIndex cs i
  match groupAt cs i with
  | none => []
  | some g =>
    if g < 0 then slice cs ((k : Int) + g).toNat (k + 1)
    else slice cs ((k : Int) - g).toNat (groupLoop cs (cs.length - 1) cs.length (k + 1) + 1)

/-- `GroupToken.get_group_start`, `tree.py:584-591`. -/
def getGroupStart (cs : List (Node α L A)) (i : Nat) : Option (Node α L A) :=
  let k := parentIndex cs i
  match groupAt cs i with
  | none => none
  | some g => cs[(if g < 0 then (k : Int) + g else (k : Int) - g).toNat]?

/-- `GroupToken.get_group_end`, `tree.py:593-602`. -/
def getGroupEnd (cs : List (Node α L A)) (i : Nat) : Option (Node α L A) :=
  let k := parentIndex cs i
  match groupAt cs i with
  | none => none
  | some g => cs[if g ≥ 0 then groupLoop cs (cs.length - 1) cs.length (k + 1) else k]?

/-! ### Ranges -/

/-- A `Range`, `tree.py:947-958`: the path of the ancestor and the trails. -/
structure Rng where
  ancestor : List Nat
  startTrail : List Nat
  endTrail : List Nat
deriving DecidableEq, Repr

/-- The loop that finds the youngest common ancestor, `tree.py:1007-1011`: the number `n` of
    indices to remove from both trails. (`n` is the index of the pair where the loop breaks;
    when the shorter trail is exhausted it is the index of the last pair, but then the last
    context entered is a child of it; this does not occur when both trails lead to tokens.) -/
def commonLoop : (n : Nat) → (ctx : Node α L A) → List Nat → List Nat → Nat
  | n, ctx, i :: is, j :: js =>
    if i ≠ j then n
    else
      match ctx.kids[i]? with
      | some (.ctx l ds) => if is = [] ∨ js = [] then n else commonLoop (n + 1) (.ctx l ds) is js
      | _ => n
  | n, _, _, _ => n

/-- The end trail computed by `Range.from_tree`, `tree.py:994-1001`. `none`: it returns. -/
def endTrailOf (l : L) (cs : List (Node α L A)) (start : Nat) : Option Nat → Option (List Nat)
  | none => some []
  | some e =>
    if e < (Node.ctx l cs).stop then
      if e ≤ start then none
      else (findTokenLeftTrail cs e).map (·.2)
    else some []

/-- `Range.from_tree`, `tree.py:978-1017`. `none`: no range. -/
def Rng.fromTree (l : L) (cs : List (Node α L A)) (start : Nat) (stop : Option Nat) : Option Rng :=
  if cs = [] then none
  else
    match endTrailOf l cs start stop with
    | none => none
    | some et =>
      if start > 0 then
        match (findTokenTrail cs start).map (·.2) with
        | none => none
        | some st =>
          if et ≠ [] then
            let n := commonLoop 0 (Node.ctx l cs) st et
            some ⟨st.take n, st.drop n, et.drop n⟩
          else some ⟨[], st, et⟩
      else some ⟨[], [], et⟩

/-- The slices on the way up from the start token, `tree.py:1030-1041`: for the trail after its
    first index, innermost first; the start token is included. `p` is the path of the context. -/
def startSlices (p : List Nat) : List Nat → List (List Nat × Nat × Option Nat)
  | [] => []
  | [i] => [(p, i, none)]
  | i :: is => startSlices (p ++ [i]) is ++ [(p, i + 1, none)]

/-- The slices on the way down to the end token, `tree.py:1052-1058`. -/
def endSlices (p : List Nat) : List Nat → List (List Nat × Nat × Option Nat)
  | [] => []
  | [i] => [(p, 0, some (i + 1))]
  | i :: is => (p, 0, some i) :: endSlices (p ++ [i]) is

/-- The slices before those of the ancestor, `tree.py:1032-1041`. -/
def upSlices (a : List Nat) : List Nat → List (List Nat × Nat × Option Nat)
  | i :: j :: js => startSlices (a ++ [i]) (j :: js)
  | _ => []

/-- The start of the slice of the ancestor, `tree.py:1031`, `1042-1044`. -/
def startIdx : List Nat → Nat
  | [] => 0
  | [i] => i
  | i :: _ :: _ => i + 1

/-- The slice of the ancestor and those after it, `tree.py:1045-1060`. -/
def downSlices (a : List Nat) (start : Nat) : List Nat → List (List Nat × Nat × Option Nat)
  | [] => [(a, start, none)]
  | [e] => [(a, start, some (e + 1))]
  | e :: f :: es => (a, start, some e) :: endSlices (a ++ [e]) (f :: es)

/-- `Range.slices`, `tree.py:1019-1060`, without target factory: the path of the context and
    the bounds of the slice. -/
def Rng.slices (r : Rng) : List (List Nat × Nat × Option Nat) :=
  upSlices r.ancestor r.startTrail ++ downSlices r.ancestor (startIdx r.startTrail) r.endTrail

/-- The nodes of a slice with their paths. -/
def sliceNodes (root : Node α L A) (s : List Nat × Nat × Option Nat) : List (List Nat × Node α L A) :=
  let ch := children false s.1 (root.kidsAt s.1)
  match s.2.2 with
  | none => ch.drop s.2.1
  | some e => slice ch s.2.1 e

/-- `Range.tokens`, `tree.py:1062-1069`. -/
def Rng.tokens (root : Node α L A) (r : Rng) : List (List Nat × TokN α A) :=
  r.slices.flatMap (fun s => utilTokens false (sliceNodes root s))

end Parce

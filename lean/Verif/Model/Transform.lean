import Verif.Model.Tree
/-!
# Model of parce/transform.py

`R` is the type of the objects made by transform methods, `G` of languages, `N` of names, `I` of
identities of contexts. A transform method is a function of the item list (it does not raise and
has no side effects). A token in an item list has no parent here (in Python a token has a parent
when it comes from a tree, and none when it comes from `transform_text`).
-/
namespace Parce

/-- A member of an ItemList: a token, or an `Item` (`transform.py:38-53`); an untransformed context
    (name `"<untransformed>"`) apart. -/
inductive TItm (α L A R N : Type) where
  | tok (t : TokN α A)
  | item (name : N) (obj : R)
  | raw (ctx : Node α L A)
deriving DecidableEq

/-- An `ItemList`, `transform.py:56-80`; `arg` is the lexicon (in Python only its argument). -/
structure ItemList (α L A R N : Type) where
  arg : L
  elems : List (TItm α L A R N)
deriving DecidableEq

variable {α L A R G N I ρ : Type}

/-- A method of a Transform; `addU` is the flag set by `@add_untransformed`,
    `transform.py:509-535`. -/
structure Meth (α L A R N : Type) where
  run : ItemList α L A R N → R
  addU : Bool

/-- The lexicons and the transforms: `find` is `getattr(self.get_transform(language), name, None)`. -/
structure TrEnv (α L A R G N : Type) where
  language : L → G
  name : L → N
  find : G → N → Option (Meth α L A R N)

/-- The method for a lexicon, looked up with the current language in a variable,
    `transform.py:272-275`, `321-325`. -/
def TrEnv.look [DecidableEq G] (env : TrEnv α L A R G N) (cur : G) (l : L) : G × Option (Meth α L A R N) :=
  let cur := if env.language l ≠ cur then env.language l else cur
  (cur, env.find cur (env.name l))

def ItemList.add (il : ItemList α L A R N) (x : List (TItm α L A R N)) : ItemList α L A R N :=
  ⟨il.arg, il.elems ++ x⟩

/-! ### transform_text -/

/-- `index`: IndexError. `fuel`: the number of steps was too small (does not happen in Python). -/
inductive TxErr where
  | index
  | fuel
deriving DecidableEq, Repr

/-- An entry of the stack, `transform.py:277`: the items and the flag of the parent, and the
    method and the name for the child. -/
structure TxEntry (α L A R N : Type) where
  items : ItemList α L A R N
  meth : Meth α L A R N
  name : N
  addU : Bool

/-- The local variables of `transform_text`. -/
structure TxS (α L A R G N : Type) where
  cur : G
  items : ItemList α L A R N
  stack : List (TxEntry α L A R N)
  addU : Bool

/-- `transform.py:268-270`. -/
def TxS.pop (s : TxS α L A R G N) : Except TxErr (TxS α L A R G N) :=
  match s.stack with
  | [] => .error .index
  | e :: st => .ok ⟨s.cur, e.items.add [.item e.name (e.meth.run s.items)], st, e.addU⟩

/-- `transform.py:267-270`. -/
def TxS.pops : Nat → TxS α L A R G N → Except TxErr (TxS α L A R G N)
  | 0, s => .ok s
  | n + 1, s => s.pop.bind (TxS.pops n)

/-- The loop over the lexicons to push, `transform.py:271-280`; also gives the rest of them from
    the first one that has no method. -/
def TxS.push [DecidableEq G] (env : TrEnv α L A R G N) : TxS α L A R G N → List L → TxS α L A R G N × List L
  | s, [] => (s, [])
  | s, l :: ls =>
    let r := env.look s.cur l
    match r.2 with
    | some m => TxS.push env ⟨r.1, ⟨l, []⟩, ⟨s.items, m, env.name l, s.addU⟩ :: s.stack, m.addU⟩ ls
    | none => ({ s with cur := r.1 }, l :: ls)

/-- `make_target`, `transform.py:212-215`. -/
def mkTarget (pop : Nat) (push : List L) : Option (Target L) :=
  if pop ≠ 0 ∨ push ≠ [] then some ⟨pop, push⟩ else none

/-- `consume_events`, `transform.py:240-252`: the next event and the events after it. -/
def consume : Nat → List (Event α L A) → Option (Event α L A × List (Event α L A))
  | _, [] => none
  | pop, e :: es =>
    match e.target with
    | none => consume pop es
    | some t =>
      if pop ≤ t.pop then some (⟨mkTarget (t.pop - pop) t.push, e.lexemes⟩, es)
      else consume (pop - t.pop + t.push.length) es

/-- Leaving contexts in `build_tree`, `transform.py:230-233`; also gives the number of contexts
    that remain to be left when the root is reached. -/
def leaveTo : Nat → BState α L A → BState α L A × Nat
  | 0, b => (b, 0)
  | n + 1, b => if b.up.isEmpty then (b, n + 1) else leaveTo n b.leave

/-- `build_tree`, `transform.py:228-238`. -/
def rawEvents : BState α L A → List (Event α L A) → Node α L A × Option (Event α L A × List (Event α L A))
  | b, [] => (b.close, none)
  | b, e :: es =>
    match e.target with
    | none => rawEvents (b.event e) es
    | some t =>
      let r := leaveTo t.pop b
      if r.2 ≠ 0 then (r.1.close, some (⟨mkTarget r.2 t.push, e.lexemes⟩, es))
      else rawEvents (r.1.event ⟨some ⟨0, t.push⟩, e.lexemes⟩) es

/-- `build_tree`, `transform.py:224-238`. -/
def rawTree (lexicons : List L) (es : List (Event α L A)) :
    Option (Node α L A × Option (Event α L A × List (Event α L A))) :=
  match lexicons with
  | [] => none
  | l :: ls => some (rawEvents (ls.foldl BState.enter ⟨⟨l, []⟩, []⟩) es)

/-- `while target:`, `transform.py:266-290`: the new state, the lexemes to add, and the events
    that are left. -/
def TxS.target [DecidableEq G] (env : TrEnv α L A R G N) : (fuel : Nat) → TxS α L A R G N → Option (Target L) →
    List (Lexeme α A) → List (Event α L A) → Except TxErr (TxS α L A R G N × List (Lexeme α A) × List (Event α L A))
  | 0, _, _, _, _ => .error .fuel
  | _ + 1, s, none, lxs, es => .ok (s, lxs, es)
  | fuel + 1, s, some t, lxs, es =>
    (s.pops t.pop).bind (fun s =>
      let r := TxS.push env s t.push
      if r.2 = [] then .ok (r.1, lxs, es)
      else if r.1.addU then
        match rawTree r.2 es with
        | some (n, some (e, es')) => TxS.target env fuel { r.1 with items := r.1.items.add [.raw n] } e.target e.lexemes es'
        | some (n, none) => .ok ({ r.1 with items := r.1.items.add [.raw n] }, [], [])
        | none => .ok (r.1, [], [])
      else
        match consume r.2.length es with
        | some (e, es') => TxS.target env fuel r.1 e.target e.lexemes es'
        | none => .ok (r.1, [], []))

/-- The loop over the events, `transform.py:265-291`. `make_tokens` raises IndexError when there
    are no lexemes (`tree.py:1087`). -/
def TxS.events [DecidableEq G] (env : TrEnv α L A R G N) : (fuel : Nat) → TxS α L A R G N → List (Event α L A) →
    Except TxErr (TxS α L A R G N)
  | _, s, [] => .ok s
  | 0, _, _ :: _ => .error .fuel
  | fuel + 1, s, e :: es =>
    (TxS.target env (es.length + 2) s e.target e.lexemes es).bind (fun r =>
      if r.2.1 = [] then .error .index
      else TxS.events env fuel { r.1 with items := r.1.items.add ((makeTokens r.2.1).map .tok) } r.2.2)

/-- Unwinding, `transform.py:294-298`. -/
def txUnwind (rootMeth : Meth α L A R N) : ItemList α L A R N → List (TxEntry α L A R N) → R
  | items, [] => rootMeth.run items
  | items, e :: st => txUnwind rootMeth (e.items.add [.item e.name (e.meth.run items)]) st

/-- `transform_text`, `transform.py:198-298`, for a stream of events; the inner `none` is None. -/
def transformEvents [DecidableEq G] (env : TrEnv α L A R G N) (root : L) (es : List (Event α L A)) :
    Except TxErr (Option R) :=
  match env.find (env.language root) (env.name root) with
  | none => .ok none
  | some m =>
    (TxS.events env es.length ⟨env.language root, ⟨root, []⟩, [], m.addU⟩ es).map
      (fun s => some (txUnwind m s.items s.stack))

/-- `transform_text` with at most `n` steps of the lexer. -/
def transformText [DecidableEq α] [DecidableEq G] (env : TrEnv α L A R G N) (lang : Lang α L A ρ) (root : L)
    (t : List α) (pos n : Nat) : Except TxErr (Option R) :=
  transformEvents env root (lexRun lang t n (LState.start [root] pos)).1

/-! ### transform_tree

`ident` gives the identity of the context at a path. The cache is a function from identities. -/

/-- The for loop, `transform.py:315-336`, over the children from `i` of the context at `path`; stops
    at a context to enter, and then gives its index, lexicon and children, its method, and the
    children after it. -/
def trFor [DecidableEq G] (env : TrEnv α L A R G N) (ident : List Nat → I) (cache : I → Option R) (path : List Nat)
    (addU : Bool) : G → ItemList α L A R N → Nat → List (Node α L A) → G × ItemList α L A R N ×
      Option (Nat × L × List (Node α L A) × Meth α L A R N × List (Node α L A))
  | cur, items, _, [] => (cur, items, none)
  | cur, items, i, .tok t :: ns => trFor env ident cache path addU cur (items.add [.tok t]) (i + 1) ns
  | cur, items, i, .ctx l cs :: ns =>
    let r := env.look cur l
    match r.2 with
    | some m =>
      match cache (ident (path ++ [i])) with
      | some obj => trFor env ident cache path addU r.1 (items.add [.item (env.name l) obj]) (i + 1) ns
      | none => (r.1, items, some (i, l, cs, m, ns))
    | none =>
      trFor env ident cache path addU r.1 (if addU then items.add [.raw (.ctx l cs)] else items) (i + 1) ns

/-- An entry of the stack, `transform.py:331`: the items of the parent, the index `i + 1` and the
    children from there, and the method of the child; also the lexicon of the child and the path
    of the parent (in Python: `node.lexicon` and `node.parent`). -/
structure TrEntry (α L A R N : Type) where
  child : L
  parent : List Nat
  items : ItemList α L A R N
  next : Nat
  rest : List (Node α L A)
  meth : Meth α L A R N
  addU : Bool

/-- `self._cache[n] = obj`. -/
def setCache [DecidableEq I] (cache : I → Option R) (i : I) (r : R) : I → Option R :=
  fun j => if j = i then some r else cache j

/-- How `transform_tree` ends: with the result, interrupted, or not at all. -/
inductive TrOut (R : Type) where
  | done (r : R)
  | interrupted
  | fuel
deriving DecidableEq, Repr

/-- `while not self._interrupt[tree]`, `transform.py:314-346`; `intr k` is what is found in round
    `k` (counting down); `path` is the path of `node`. -/
def trLoop [DecidableEq G] [DecidableEq I] (env : TrEnv α L A R G N) (ident : List Nat → I) (rootMeth : Meth α L A R N)
    (intr : Nat → Bool) : (fuel : Nat) → G → (I → Option R) → List Nat → ItemList α L A R N → Bool → Nat →
    List (Node α L A) → List (TrEntry α L A R N) → TrOut R × (I → Option R)
  | 0, _, cache, _, _, _, _, _, _ => (.fuel, cache)
  | fuel + 1, cur, cache, path, items, addU, i, ns, stack =>
    if intr fuel then (.interrupted, cache)
    else
      match trFor env ident cache path addU cur items i ns with
      | (cur, items, some (k, l, cs, m, rest)) =>
        trLoop env ident rootMeth intr fuel cur cache (path ++ [k]) ⟨l, []⟩ m.addU 0 cs
          (⟨l, path, items, k + 1, rest, m, addU⟩ :: stack)
      | (cur, items, none) =>
        match stack with
        | [] => (.done (rootMeth.run items), cache)
        | e :: st =>
          let obj := e.meth.run items
          trLoop env ident rootMeth intr fuel cur (setCache cache (ident path) obj) e.parent
            (e.items.add [.item (env.name e.child) obj]) e.addU e.next e.rest st

/-- `transform_tree`, `transform.py:300-346`, of a root with lexicon `l` and children `cs`. Every
    context is entered and left at most once. The inner `none` is None. -/
def transformTree [DecidableEq G] [DecidableEq I] (env : TrEnv α L A R G N) (ident : List Nat → I) (intr : Nat → Bool)
    (cache : I → Option R) (l : L) (cs : List (Node α L A)) : TrOut (Option R) × (I → Option R) :=
  match env.find (env.language l) (env.name l) with
  | none => (.done none, cache)
  | some m =>
    match trLoop env ident m intr (2 * sizeL cs + 1) (env.language l) cache [] ⟨l, []⟩ m.addU 0 cs [] with
    | (.done r, c) => (.done (some r), c)
    | (.interrupted, c) => (.interrupted, c)
    | (.fuel, c) => (.fuel, c)

/-- `process`, `transform.py:359-376`: the result published with the "updated" event, if any.
    `late`: an interruption after the last test in `transform_tree`. (The result of the root, which
    is also stored in the cache, is kept apart.) -/
def trProcess [DecidableEq G] [DecidableEq I] (env : TrEnv α L A R G N) (ident : List Nat → I) (intr : Nat → Bool)
    (late : Bool) (cache : I → Option R) (l : L) (cs : List (Node α L A)) : Option (Option R) × (I → Option R) :=
  match transformTree env ident intr cache l cs with
  | (.done r, c) => (if late then none else some r, c)
  | (_, c) => (none, c)

/-- `invalidate_node`, `transform.py:392-401`, for a node with these identities on the way from the
    node up to the child of the root; `false`: KeyError. -/
def invalidate [DecidableEq I] : List I → (I → Option R) → Bool × (I → Option R)
  | [], cache => (true, cache)
  | i :: is, cache =>
    match cache i with
    | none => (false, cache)
    | some _ => invalidate is (fun j => if j = i then none else cache j)

/-! ### ItemList helpers -/

/-- `result[k] = obj`. -/
def setGroup (result : List (Option R)) (k : Nat) (obj : R) : List (Option R) := result.set k (some obj)

/-- `index[name]`, `transform.py:116`: with equal names, the last position. -/
def nameIndex [DecidableEq N] (names : List N) (name : N) : Option Nat :=
  (names.zipIdx.foldl (fun r p => if p.1 = name then some p.2 else r) none)

/-- The loop of `grouped_objects`, `transform.py:118-128`; `last = none` is -1. -/
def groupLoopI [DecidableEq N] (names : List N) : List (Option R) → Option Nat → List (N × R) → List (List (Option R))
  | result, last, [] => if last.isSome then [result] else []
  | result, last, (name, obj) :: items =>
    match nameIndex names name with
    | none => groupLoopI names result last items
    | some k =>
      if (match last with | some j => decide (k ≤ j) | none => false) then
        result :: groupLoopI names (setGroup (List.replicate names.length none) k obj) (some k) items
      else groupLoopI names (setGroup result k obj) (some k) items

/-- `items()`, `transform.py:91-103`: the names and objects; an untransformed context has a name
    of its own, `rawName`, and is an object too. -/
def itemsOfList (rawName : N) (rawObj : Node α L A → R) : List (TItm α L A R N) → List (N × R)
  | [] => []
  | .tok _ :: xs => itemsOfList rawName rawObj xs
  | .item n r :: xs => (n, r) :: itemsOfList rawName rawObj xs
  | .raw c :: xs => (rawName, rawObj c) :: itemsOfList rawName rawObj xs

/-- `grouped_objects`, `transform.py:105-128`. -/
def groupedObjects [DecidableEq N] (names : List N) (items : List (N × R)) : List (List (Option R)) :=
  groupLoopI names (List.replicate names.length none) none items

/-- What `peek` compares: the action of a token or the name of an item. -/
def TItm.peekV {V : Type} (actV : A → V) (nameV : N → V) (rawName : N) : TItm α L A R N → V
  | .tok t => actV t.act
  | .item n _ => nameV n
  | .raw _ => nameV rawName

/-- `peek`, `transform.py:130-148`. -/
def peek {V : Type} [DecidableEq V] (actV : A → V) (nameV : N → V) (rawName : N) (xs : List (TItm α L A R N))
    (index : Int) (values : List V) : Bool :=
  let i := if index < 0 then index + xs.length else index
  if i < 0 then false
  else if i.toNat + values.length > xs.length then false
  else (slice xs i.toNat (i.toNat + values.length)).map (TItm.peekV actV nameV rawName) == values

end Parce

/-!
# Model of parce/ruleitem.py

Rule items are trees. What is not an item, list or tuple is a plain value of type `V`; calling a
predicate or lexicon is an arbitrary partial function.
-/
namespace Parce.RI

/-- The variables `TEXT`, `MATCH` and `ARG`. -/
inductive Name where
  | text | matchObj | arg
deriving DecidableEq, Repr

/-- An object in a rule. `tup` is a list or a tuple (evaluating makes tuples of both). The other
    subclasses of `Item` in `rule.py` are functions returning these. -/
inductive Itm (V : Type) where
  | val (v : V)
  | tup (os : List (Itm V))
  | var (n : Name)
  | call (p : Itm V) (args : List (Itm V))
  | select (i : Itm V) (items : List (Itm V))
  | target (v : Itm V) (lexs : List (Itm V))
  | pattern (v : Itm V)
  | subgroup (as : List (Itm V))
  | delegate (l : Itm V)
  | skip

/-- What Python does with values: `isinstance(v, int)`, `v is None`, `f(*args)` (`none`: an
    exception). `zero` is the number 0. -/
structure Py (V : Type) where
  asInt : V → Option Int
  isNone : V → Bool
  app : Itm V → List (Itm V) → Option (Itm V)
  zero : V

/-- A namespace. -/
abbrev NS (V : Type) := Name → Option (Itm V)

variable {V : Type}

/-- `isinstance(obj, int)`. -/
def Itm.int? (py : Py V) : Itm V → Option Int
  | .val v => py.asInt v
  | _ => none

/-- `obj is None`. -/
def Itm.none? (py : Py V) : Itm V → Bool
  | .val v => py.isNone v
  | _ => false

/-- The index for a sequence of `n` items; `none` is IndexError or TypeError. -/
def pyIndex (py : Py V) (n : Nat) (i : Itm V) : Option Nat :=
  match i.int? py with
  | some i => if 0 ≤ i then (if i.toNat < n then some i.toNat else none)
      else if 0 ≤ n + i then some (n + i).toNat else none
  | none => none

/-- `lexicon if arg is None else lexicon(arg)`, `ruleitem.py:237` and `249`. -/
def derive (py : Py V) (lexicon arg : Itm V) : Option (Itm V) :=
  if arg.none? py then some lexicon else py.app lexicon [arg]

mutual
/-- `pre_evaluate`, `ruleitem.py:484-509` and the methods of the classes: `VariableItem` 70-91,
    `call` 151-160, `select` 191-201, `target` 239-256, `PostponedItem` 302-310,
    `SubgroupAction` 392-395. Returns the object, and whether it is complete (bit 0) and
    unchanged (bit 1); `none` is an exception. -/
def pre (py : Py V) (ns : NS V) : Itm V → Option (Itm V × Bool × Bool)
  | .val v => some (.val v, true, true)
  | .tup os =>
    match preL py ns os with
    | some (os', c, u) => some (.tup os', c, u)
    | none => none
  | .var n =>
    match ns n with
    | some v => some (v, true, false)
    | none => some (.var n, false, true)
  | .call p args =>
    match pre py ns p, preL py ns args with
    | some (p', c1, u1), some (args', c2, u2) =>
      if c1 && c2 then
        match py.app p' args' with
        | some r => some (r, true, false)
        | none => none
      else if u1 && u2 then some (.call p args, false, true)
      else some (.call p' args', false, false)
    | _, _ => none
  | .select i items =>
    match pre py ns i with
    | none => none
    | some (i', c, u) =>
      if c then
        match pyIndex py items.length i' with
        | none => none
        | some k =>
          match preAt py ns items k with
          | some (r, c2, _) => some (r, c2, false)
          | none => none
      else
        match preL py ns items with
        | none => none
        | some (items', _, u2) =>
          if u && u2 then some (.select i items, false, true) else some (.select i' items', false, false)
  | .target v lexs =>
    match pre py ns v with
    | none => none
    | some (v', c, u) =>
      if c then
        match v'.int? py, v' with
        | some _, _ => some (v', true, false)
        | none, .tup [index, arg] =>
          match pyIndex py lexs.length index with
          | none => none
          | some k =>
            match preAt py ns lexs k with
            | none => none
            | some (l, c2, _) =>
              if c2 then
                match derive py l arg with
                | some r => some (r, true, false)
                | none => none
              else some (.target (.tup [.val py.zero, arg]) [l], false, false)
        | none, _ => none
      else
        match preL py ns lexs with
        | none => none
        | some (lexs', _, u2) =>
          if u && u2 then some (.target v lexs, false, true) else some (.target v' lexs', false, false)
  | .pattern v =>
    match pre py ns v with
    | some (v', c, u) => some (if u then .pattern v else .pattern v', c, u)
    | none => none
  | .subgroup as =>
    match preL py ns as with
    | some (as', c, u) => some (if u then .subgroup as else .subgroup as', c, u)
    | none => none
  | .delegate l =>
    match pre py ns l with
    | some (l', c, u) => some (if u then .delegate l else .delegate l', c, u)
    | none => none
  | .skip => some (.skip, true, true)
/-- The members of a list or tuple, `ruleitem.py:501-507`. -/
def preL (py : Py V) (ns : NS V) : List (Itm V) → Option (List (Itm V) × Bool × Bool)
  | [] => some ([], true, true)
  | o :: os =>
    match pre py ns o, preL py ns os with
    | some (o', c1, u1), some (os', c2, u2) => some (o' :: os', c1 && c2, u1 && u2)
    | _, _ => none
/-- One of the members. -/
def preAt (py : Py V) (ns : NS V) : List (Itm V) → Nat → Option (Itm V × Bool × Bool)
  | [], _ => none
  | o :: _, 0 => pre py ns o
  | _ :: os, k + 1 => preAt py ns os k
end

/-- `_EvaluationError`, or any other exception. -/
inductive Err where
  | missing | error
deriving DecidableEq, Repr

/-- The result of a computation that may raise. -/
inductive Res (β : Type) where
  | ok (b : β)
  | err (e : Err)
deriving DecidableEq, Repr

def Res.bind {β γ : Type} : Res β → (β → Res γ) → Res γ
  | .ok b, f => f b
  | .err e, _ => .err e

def Res.ofOption {β : Type} : Option β → Res β
  | some b => .ok b
  | none => .err .error

/-- `target.evaluate` after the value is known, `ruleitem.py:231-237`, where `lex k` evaluates
    lexicon `k`. -/
def targetRes (py : Py V) (n : Nat) (lex : Nat → Res (Itm V)) (v : Itm V) : Res (Itm V) :=
  match v.int? py, v with
  | some _, _ => .ok v
  | none, .tup [index, arg] =>
    match pyIndex py n index with
    | none => .err .error
    | some k => (lex k).bind (fun l => .ofOption (derive py l arg))
  | none, _ => .err .error

mutual
/-- `evaluate`, `ruleitem.py:450-462` and the methods of the classes: `VariableItem` 123-128,
    `call` 145-149, `select` 185-189, `target` 229-237, `PostponedItem` 291-300. -/
def evaluate (py : Py V) (ns : NS V) : Itm V → Res (Itm V)
  | .val v => .ok (.val v)
  | .tup os => (evaluateL py ns os).bind (fun r => .ok (.tup r))
  | .var n =>
    match ns n with
    | some v => .ok v
    | none => .err .missing
  | .call p args =>
    (evaluate py ns p).bind (fun p' => (evaluateL py ns args).bind (fun a => .ofOption (py.app p' a)))
  | .select i items =>
    (evaluate py ns i).bind (fun i' =>
      match pyIndex py items.length i' with
      | none => .err .error
      | some k => evaluateAt py ns items k)
  | .target v lexs =>
    (evaluate py ns v).bind (fun v' => targetRes py lexs.length (evaluateAt py ns lexs) v')
  | .pattern v =>
    match pre py ns v with
    | some (v', _, u) => .ok (if u then .pattern v else .pattern v')
    | none => .err .error
  | .subgroup as => .ok (.subgroup as)
  | .delegate l =>
    match pre py ns l with
    | some (l', _, u) => .ok (if u then .delegate l else .delegate l')
    | none => .err .error
  | .skip => .ok .skip
def evaluateL (py : Py V) (ns : NS V) : List (Itm V) → Res (List (Itm V))
  | [] => .ok []
  | o :: os => (evaluate py ns o).bind (fun r => (evaluateL py ns os).bind (fun rs => .ok (r :: rs)))
def evaluateAt (py : Py V) (ns : NS V) : List (Itm V) → Nat → Res (Itm V)
  | [], _ => .err .error
  | o :: _, 0 => evaluate py ns o
  | _ :: os, k + 1 => evaluateAt py ns os k
end

mutual
/-- `util.unroll`, `util.py:753-777` (see `C42_unroll`). -/
def unrollI : Itm V → List (Itm V)
  | .tup os => unrollIL os
  | .val v => [.val v]
  | .var n => [.var n]
  | .call p a => [.call p a]
  | .select i a => [.select i a]
  | .target i a => [.target i a]
  | .pattern v => [.pattern v]
  | .subgroup a => [.subgroup a]
  | .delegate l => [.delegate l]
  | .skip => [.skip]
def unrollIL : List (Itm V) → List (Itm V)
  | [] => []
  | o :: os => unrollI o ++ unrollIL os
end

mutual
/-- One object of `evaluate_rule`, `ruleitem.py:473-480`: only `RuleItem`s are evaluated, lists
    and tuples are entered. -/
def evalRuleItem (py : Py V) (ns : NS V) : Itm V → Res (List (Itm V))
  | .val v => .ok [.val v]
  | .var n => .ok [.var n]
  | .call p a => .ok [.call p a]
  | .tup os => evalRule py ns os
  | .select i a => (evaluate py ns (.select i a)).bind (fun r => .ok (unrollI r))
  | .target i a => (evaluate py ns (.target i a)).bind (fun r => .ok (unrollI r))
  | .pattern v => (evaluate py ns (.pattern v)).bind (fun r => .ok (unrollI r))
  | .subgroup a => (evaluate py ns (.subgroup a)).bind (fun r => .ok (unrollI r))
  | .delegate l => (evaluate py ns (.delegate l)).bind (fun r => .ok (unrollI r))
  | .skip => (evaluate py ns .skip).bind (fun r => .ok (unrollI r))
/-- `evaluate_rule`, `ruleitem.py:464-481`. -/
def evalRule (py : Py V) (ns : NS V) : List (Itm V) → Res (List (Itm V))
  | [] => .ok []
  | o :: os => (evalRuleItem py ns o).bind (fun r => (evalRule py ns os).bind (fun rs => .ok (r ++ rs)))
end

/-- The result of pre-evaluating an item, unrolled. -/
def preUnroll (py : Py V) (ns : NS V) (o : Itm V) : Option (List (Itm V)) :=
  (pre py ns o).map (fun r => unrollI r.1)

mutual
/-- One object of `pre_evaluate_rule`, `ruleitem.py:520-527`. -/
def preRuleItem (py : Py V) (ns : NS V) : Itm V → Option (List (Itm V))
  | .val v => some [.val v]
  | .var n => some [.var n]
  | .call p a => some [.call p a]
  | .tup os => preItems py ns os
  | .select i a => preUnroll py ns (.select i a)
  | .target i a => preUnroll py ns (.target i a)
  | .pattern v => preUnroll py ns (.pattern v)
  | .subgroup a => preUnroll py ns (.subgroup a)
  | .delegate l => preUnroll py ns (.delegate l)
  | .skip => preUnroll py ns .skip
def preItems (py : Py V) (ns : NS V) : List (Itm V) → Option (List (Itm V))
  | [] => some []
  | o :: os =>
    match preRuleItem py ns o, preItems py ns os with
    | some r, some rs => some (r ++ rs)
    | _, _ => none
end

/-- The namespace with only the argument, `ruleitem.py:519`. -/
def argNS (arg : Itm V) : NS V
  | .arg => some arg
  | _ => none

/-- The namespace with text and match, `ruleitem.py:472`. -/
def matchNS (text m : Itm V) : NS V
  | .text => some text
  | .matchObj => some m
  | .arg => none

/-- `pre_evaluate_rule`, `ruleitem.py:512-535`: the value of a pattern in the first place is
    used. -/
def preRule (py : Py V) (arg : Itm V) (rule : List (Itm V)) : Option (List (Itm V)) :=
  match preItems py (argNS arg) rule with
  | none => none
  | some (.pattern v :: os) => some (v :: os)
  | some os => some os

mutual
/-- One item of `needs_evaluation`, `ruleitem.py:540-547`. -/
def needsItem : Itm V → Bool
  | .val _ => false
  | .var _ => false
  | .call _ _ => false
  | .tup os => needs os
  | .select _ _ => true
  | .target _ _ => true
  | .pattern v => needsItem v
  | .subgroup _ => false
  | .delegate l => needsItem l
  | .skip => false
/-- `needs_evaluation`, `ruleitem.py:538-547`. -/
def needs : List (Itm V) → Bool
  | [] => false
  | o :: os => needsItem o || needs os
end

/-- The markers `a_number` and `a_string`, `ruleitem.py:584-587`, and `None`. -/
structure Marks (V : Type) where
  number : V
  string : V
  none : V

/-- `isinstance(obj, Item)`. -/
def Itm.isItem : Itm V → Bool
  | .val _ => false
  | .tup _ => false
  | _ => true

/-- The lists of the first, followed by each of the second: the loops of `variations`,
    `ruleitem.py:574-577` (the suffix is the outer loop). -/
def prod (ls rs : List (List (Itm V))) : List (List (Itm V)) :=
  rs.flatMap (fun r => ls.map (fun l => l ++ r))

def prodO : Option (List (List (Itm V))) → Option (List (List (Itm V))) → Option (List (List (Itm V)))
  | some a, some b => some (prod a b)
  | _, _ => none

mutual
/-- `variations(util.unroll(v))`, `ruleitem.py:568-580`, with the methods `variations()` of the
    classes: `select` 203-205, `target` 258-271, `pattern` 342-348, `SubgroupAction` 386-388,
    `DelegateAction` 425-427, `SkipAction` 443-446, `Item` 93-103 (raises). `none` is an
    exception; it is given even where the generator stops before it. -/
def varsI (py : Py V) (mk : Marks V) : Itm V → Option (List (List (Itm V)))
  | .val v => some [[.val v]]
  | .tup os => varsIL py mk os
  | .var _ => none
  | .call _ _ => none
  | .select _ items => varsEach py mk items
  | .target (.tup [index, _]) lexs =>
    match pyIndex py lexs.length index with
    | some k => varsAt py mk lexs k
    | none => none
  | .target (.tup _) _ => none
  | .target (.val v) _ => if (py.asInt v).isSome then some [[.val v]] else none
  | .target _ lexs => (varsEach py mk lexs).map ([.val mk.number] :: ·)
  | .pattern v => if v.isItem then some [[.val mk.none], [.val mk.string]] else varsI py mk v
  | .subgroup as => varsEach py mk as
  | .delegate l => varsI py mk l
  | .skip => some []
def varsIL (py : Py V) (mk : Marks V) : List (Itm V) → Option (List (List (Itm V)))
  | [] => some [[]]
  | o :: os => prodO (varsI py mk o) (varsIL py mk os)
/-- `for v in items: yield from variations(unroll(v))`. -/
def varsEach (py : Py V) (mk : Marks V) : List (Itm V) → Option (List (List (Itm V)))
  | [] => some []
  | o :: os =>
    match varsI py mk o, varsEach py mk os with
    | some a, some b => some (a ++ b)
    | _, _ => none
def varsAt (py : Py V) (mk : Marks V) : List (Itm V) → Nat → Option (List (List (Itm V)))
  | [], _ => none
  | o :: _, 0 => varsI py mk o
  | _ :: os, k + 1 => varsAt py mk os k
end

/-- `variations`, `ruleitem.py:568-580`: the rule itself is not unrolled. -/
def variations (py : Py V) (mk : Marks V) : List (Itm V) → Option (List (List (Itm V)))
  | [] => some [[]]
  | o :: os => prodO (if o.isItem then varsI py mk o else some [[o]]) (variations py mk os)

/-- The result of `variations_tree`: a nested tuple (`seq`) with choices (`frozenset`; here a
    list). -/
inductive VT (V : Type) where
  | leaf (o : Itm V)
  | seq (ts : List (VT V))
  | choice (ts : List (VT V))

/-- `ruleitem.py:561-563`. -/
def branch (o : Itm V) : List (VT V) → VT V
  | [] => .leaf o
  | [b] => b
  | bs => .choice bs

mutual
/-- `variations_tree(util.unroll(v))`, `ruleitem.py:550-565`. -/
def treeI (py : Py V) (mk : Marks V) : Itm V → Option (List (VT V))
  | .val v => some [.leaf (.val v)]
  | .tup os => treeIL py mk os
  | .var _ => none
  | .call _ _ => none
  | .select i items => (treeEach py mk items).map (fun b => [branch (.select i items) b])
  | .target (.tup [index, arg]) lexs =>
    match pyIndex py lexs.length index with
    | some k => (treeAt py mk lexs k).map (fun b => [.seq b])
    | none => none
  | .target (.tup _) _ => none
  | .target (.val v) _ => if (py.asInt v).isSome then some [.seq [.leaf (.val v)]] else none
  | .target v lexs => (treeEach py mk lexs).map (fun b => [branch (.target v lexs) (.seq [.leaf (.val mk.number)] :: b)])
  | .pattern v => if v.isItem then some [.choice [.seq [.leaf (.val mk.none)], .seq [.leaf (.val mk.string)]]]
      else (treeI py mk v).map (fun b => [.seq b])
  | .subgroup as => (treeEach py mk as).map (fun b => [branch (.subgroup as) b])
  | .delegate l => (treeI py mk l).map (fun b => [.seq b])
  | .skip => some [branch .skip []]
def treeIL (py : Py V) (mk : Marks V) : List (Itm V) → Option (List (VT V))
  | [] => some []
  | o :: os =>
    match treeI py mk o, treeIL py mk os with
    | some a, some b => some (a ++ b)
    | _, _ => none
def treeEach (py : Py V) (mk : Marks V) : List (Itm V) → Option (List (VT V))
  | [] => some []
  | o :: os =>
    match treeI py mk o, treeEach py mk os with
    | some a, some b => some (.seq a :: b)
    | _, _ => none
def treeAt (py : Py V) (mk : Marks V) : List (Itm V) → Nat → Option (List (VT V))
  | [], _ => none
  | o :: _, 0 => treeI py mk o
  | _ :: os, k + 1 => treeAt py mk os k
end

/-- `variations_tree`, `ruleitem.py:550-565`: the rule itself is not unrolled. -/
def variationsTree (py : Py V) (mk : Marks V) : List (Itm V) → Option (List (VT V))
  | [] => some []
  | o :: os =>
    match (if o.isItem then treeI py mk o else some [.leaf o]), variationsTree py mk os with
    | some a, some b => some (a ++ b)
    | _, _ => none

end Parce.RI

import Verif.Model.RuleItem

/-!
# The functions of parce/rule.py that make rule items

The plain values are made concrete here: None, numbers, strings and match objects; a function is
a partial function on those.  Lexicons have a name and possibly an argument.
-/
namespace Parce.RH

open RI

/-- A match object: the groups (`none`: the group did not contribute) and `lastindex`. -/
structure MatchObj where
  groups : List (Option (List Nat))
  lastindex : Nat
deriving DecidableEq

/-- The values that functions are called with. `True` and `False` are the numbers 1 and 0. -/
inductive Basic where
  | none
  | int (n : Int)
  | str (s : List Nat)
  | mtch (m : MatchObj)
deriving DecidableEq

/-- Plain values in rules. -/
inductive Val where
  | basic (b : Basic)
  | fn (f : List Basic → Option Basic)
  | lexicon (name : Nat) (arg : Option Basic)
  | action (name : Nat)

/-- The arguments of a function. -/
def basics : List (Itm Val) → Option (List Basic)
  | [] => some []
  | .val (.basic b) :: r => (basics r).map (b :: ·)
  | _ :: _ => none

/-- Calling functions and lexicons. -/
def app : Itm Val → List (Itm Val) → Option (Itm Val)
  | .val (.fn f), args => (basics args).bind (fun bs => (f bs).map (fun b => .val (.basic b)))
  | .val (.lexicon n _), [.val (.basic b)] => some (.val (.lexicon n (some b)))
  | _, _ => none

/-- What Python does with these values. -/
def py : Py Val where
  asInt | .basic (.int n) => some n | _ => none
  isNone | .basic .none => true | _ => false
  app := app
  zero := .basic (.int 0)

/-- A number, string, None or a function as an object in a rule. -/
def num (n : Int) : Itm Val := .val (.basic (.int n))
def none' : Itm Val := .val (.basic .none)
def str (s : List Nat) : Itm Val := .val (.basic (.str s))
def fn (f : List Basic → Option Basic) : Itm Val := .val (.fn f)

/-- `True` or `False`. -/
def ofBool (b : Bool) : Basic := .int (if b then 1 else 0)

/-- The default for `else_result` and `default`: `()`. -/
def unit : Itm Val := .tup []

/-- `m.group(i)`; `none` is the IndexError for a group that does not exist. Group 0 is the
    first of the list. -/
def MatchObj.group (m : MatchObj) (i : Int) : Option (Option (List Nat)) :=
  if 0 ≤ i then m.groups[i.toNat]? else none

/-- None or a string. -/
def ofGroup : Option (List Nat) → Basic
  | some s => .str s
  | none => .none

/-- `lambda m, n: m.group(m.lastindex + n)`, `rule.py:66`. -/
def matchGroup : List Basic → Option Basic
  | [.mtch m, .int n] => (m.group (m.lastindex + n)).map ofGroup
  | _ => none

/-- `MATCH[n]`, `rule.py:66` and `ruleitem.py:62-64`. -/
def MATCH (n : Int) : Itm Val := .call (fn matchGroup) [.var .matchObj, num n]

/-- `operator.eq` and `operator.ne`. -/
def eqFn : List Basic → Option Basic
  | [a, b] => some (ofBool (a == b))
  | _ => none
def neFn : List Basic → Option Basic
  | [a, b] => some (ofBool (a != b))
  | _ => none

/-- `ifeq`, `rule.py:161-173`. -/
def ifeq (a b result else_ : Itm Val) : Itm Val := .select (.call (fn eqFn) [a, b]) [else_, result]

/-- `ifneq`, `rule.py:176-178`. -/
def ifneq (a b result else_ : Itm Val) : Itm Val := .select (.call (fn neFn) [a, b]) [else_, result]

/-- `operator.contains(frozenset(sequence), item)`. -/
def containsFn (sequence : List Basic) : List Basic → Option Basic
  | [a] => some (ofBool (sequence.contains a))
  | _ => none

/-- `ifmember`, `rule.py:181-198`. Simplification: the set is part of the function. -/
def ifmember (item : Itm Val) (sequence : List Basic) (result else_ : Itm Val) : Itm Val :=
  .select (.call (fn (containsFn sequence)) [item]) [else_, result]

/-- `ifgroup`, `rule.py:201-216`. -/
def ifgroup (n : Int) (result else_ : Itm Val) : Itm Val :=
  .select (.call (fn neFn) [MATCH n, none']) [else_, result]

/-- `(i, r) for i, r in enumerate(results, 1) if r is not None`, `rule.py:244`; the second
    argument is the number of the first. -/
def numbered : List (Option (Itm Val)) → Int → List (Int × Itm Val)
  | [], _ => []
  | none :: rs, i => numbered rs (i + 1)
  | some r :: rs, i => (i, r) :: numbered rs (i + 1)

/-- The loop of `predicate`, `rule.py:248-251`: `i` is the number of the index. -/
def gpred (m : MatchObj) : List Int → Nat → Option Nat
  | [], i => some i
  | n :: ns, i =>
    match m.group (m.lastindex + n) with
    | none => none
    | some (some _) => some i
    | some none => gpred m ns (i + 1)

/-- `predicate`, `rule.py:247-251`. -/
def predicate (indices : List Int) : List Basic → Option Basic
  | [.mtch m] => (gpred m indices 0).map (fun i => .int i)
  | _ => none

/-- `gselect`, `rule.py:219-252`; `none` is the ValueError from unpacking the empty `zip`. -/
def gselect (results : List (Option (Itm Val))) (default : Itm Val) : Option (Itm Val) :=
  match numbered results 1 with
  | [] => none
  | ns => some (.select (.call (fn (predicate (ns.map (·.1)))) [.var .matchObj])
      (ns.map (·.2) ++ [default]))

/-- `d.get(text, 0)`: the number of the key. -/
def getIndex (d : List (Basic × Nat)) : List Basic → Option Basic
  | [a] => some (.int ((d.lookup a).getD 0 : Nat))
  | _ => none

/-- The keys with their numbers, `rule.py:273-277`. -/
def enumKeys : List (Basic × Itm Val) → Nat → List (Basic × Nat)
  | [], _ => []
  | (k, _) :: m, i => (k, i) :: enumKeys m (i + 1)

/-- `dselect`, `rule.py:255-280`. The mapping has each key once (it is a dictionary). -/
def dselect (item : Itm Val) (mapping : List (Basic × Itm Val)) (default : Itm Val) : Itm Val :=
  .select (.call (fn (getIndex (enumKeys mapping 1))) [item]) (default :: mapping.map (·.2))

/-- `derive`, `rule.py:283-297`. -/
def derive (lexicon argument : Itm Val) : Itm Val := .target (.tup [num 0, argument]) [lexicon]

/-- One turn of the loop of `findmember`, `rule.py:316-320`. -/
def findStep (st : List (Basic × Nat) × List (Itm Val)) (p : List Basic × Itm Val) :
    List (Basic × Nat) × List (Itm Val) :=
  let s := p.1.filter (fun a => !(st.1.map (·.1)).contains a)
  if s = [] then st else (st.1 ++ s.map (fun a => (a, st.2.length)), st.2 ++ [p.2])

/-- `findmember`, `rule.py:300-323`. -/
def findmember (item : Itm Val) (pairs : List (List Basic × Itm Val)) (default : Itm Val) :
    Itm Val :=
  let r := pairs.foldl findStep ([], [default])
  .select (.call (fn (getIndex r.1)) [item]) r.2

/-- `build`, `rule.py:399-405`; `escape` is `re.escape` or nothing. -/
def build (escape : List Nat → List Nat) (pre suf : List Nat) (default : Basic) :
    List Basic → Option Basic
  | [.str s] => some (.str (pre ++ escape s ++ suf))
  | [_] => some default
  | _ => none

/-- `arg`, `rule.py:385-406`. -/
def arg (escape : List Nat → List Nat) (pre suf : List Nat) (default : Basic) : Itm Val :=
  .pattern (.call (fn (build escape pre suf default)) [.var .arg])

/-- `bool(x)`. -/
def boolFn : List Basic → Option Basic
  | [.none] => some (ofBool false)
  | [.int n] => some (ofBool (n != 0))
  | [.str s] => some (ofBool (!s.isEmpty))
  | [.mtch _] => some (ofBool true)
  | _ => none

/-- `ifarg`, `rule.py:409-417`. -/
def ifarg (pat else_ : Itm Val) : Itm Val :=
  .pattern (.select (.call (fn boolFn) [.var .arg]) [else_, pat])

end Parce.RH

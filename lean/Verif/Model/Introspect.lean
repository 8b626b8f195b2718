import Verif.Model.RuleItem
/-!
# Introspection of languages, `introspect.py`
-/
namespace Parce.Isp
open Parce.RI
variable {V D A : Type}

mutual
/-- `flatten`, `introspect.py:62-69`: the items of a list or tuple, and the variations of a rule
    item (the methods `variations()` of `ruleitem.py`: `select` 205-207, `target` 256-271,
    `pattern` 342-348, `SubgroupAction` 385-387, `DelegateAction` 426-428, `SkipAction` 444-447,
    `Item` 93-103 raises) are flattened in turn. `none` is an exception; it is given even for who
    stops asking before it. -/
def flattenI (py : Py V) (mk : Marks V) : Itm V → Option (List (Itm V))
  | .val v => some [.val v]
  | .tup os => flattenL py mk os
  | .var _ => none
  | .call _ _ => none
  | .select _ items => flattenL py mk items
  | .target (.tup [index, _]) lexs =>
    match pyIndex py lexs.length index with
    | some k => flattenNth py mk lexs k
    | none => none
  | .target (.tup _) _ => none
  | .target (.val v) _ => if (py.asInt v).isSome then some [.val v] else none
  | .target _ lexs => (flattenL py mk lexs).map (.val mk.number :: ·)
  | .pattern v => if v.isItem then some [.val mk.none, .val mk.string] else flattenI py mk v
  | .subgroup as => flattenL py mk as
  | .delegate l => flattenI py mk l
  | .skip => some []
/-- `flatten(items)`. -/
def flattenL (py : Py V) (mk : Marks V) : List (Itm V) → Option (List (Itm V))
  | [] => some []
  | o :: os =>
    match flattenI py mk o, flattenL py mk os with
    | some a, some b => some (a ++ b)
    | _, _ => none
/-- `flatten([lexicons[k]])`. -/
def flattenNth (py : Py V) (mk : Marks V) : List (Itm V) → Nat → Option (List (Itm V))
  | [], _ => none
  | o :: _, 0 => flattenI py mk o
  | _ :: os, k + 1 => flattenNth py mk os k
end

/-- A class attribute: a `LexiconDescriptor` or something else. -/
inductive Attr (D A : Type) where
  | lexicon (d : D)
  | other (a : A)
deriving DecidableEq, Repr

/-- A class in the `mro()`: whether it is `Language`, and its `__dict__`. Names are numbered in the
    order Python sorts them. -/
structure Cls (D A : Type) where
  isLanguage : Bool
  dict : List (Nat × Attr D A)

/-- Attribute access on a class: the first class in the `mro()` with that name. (Attributes of the
    metaclass are left out; a descriptor stands for the lexicon it creates for the language.) -/
def getattr (mro : List (Cls D A)) (k : Nat) : Option (Attr D A) := mro.findSome? (fun c => c.dict.lookup k)

/-- The names in `__dict__` with a `LexiconDescriptor`, `introspect.py:53-55`. (A dict has every name once.) -/
def lexNames (c : Cls D A) : List Nat :=
  c.dict.filterMap (fun e => match e.2 with | .lexicon _ => some e.1 | .other _ => none)

/-- Adding to a sorted set. -/
def insertName (x : Nat) : List Nat → List Nat
  | [] => [x]
  | y :: ys => if x < y then x :: y :: ys else if x = y then y :: ys else y :: insertName x ys

/-- `sorted(set(names))`. -/
def sortedSet (l : List Nat) : List Nat := l.foldr insertName []

/-- The names in `lexicons`, `introspect.py:49-57`. -/
def names (mro : List (Cls D A)) : List Nat :=
  sortedSet ((mro.takeWhile (fun c => !c.isLanguage)).flatMap lexNames)

/-- `lexicons`, `introspect.py:47-57`, with the names. `none` would be an AttributeError. -/
def lexicons (mro : List (Cls D A)) : List (Nat × Option (Attr D A)) :=
  (names mro).map (fun k => (k, getattr mro k))

/-- The items of one object in the list of lexicons, `introspect.py:71-72`. `rules` gives the rules
    of a lexicon (for this language). Iterating over something that is no lexicon raises
    (TypeError). -/
def lexItems (py : Py V) (mk : Marks V) (rules : D → List (List (Itm V))) : Option (Attr D A) → Option (List (Itm V))
  | some (.lexicon d) => flattenL py mk ((rules d).map .tup)
  | _ => none

def itemsOf (py : Py V) (mk : Marks V) (rules : D → List (List (Itm V))) : List (Nat × Option (Attr D A)) → Option (List (Itm V))
  | [] => some []
  | e :: es =>
    match lexItems py mk rules e.2, itemsOf py mk rules es with
    | some a, some b => some (a ++ b)
    | _, _ => none

/-- `rule_items`, `introspect.py:60-72`. -/
def ruleItems (py : Py V) (mk : Marks V) (rules : D → List (List (Itm V))) (mro : List (Cls D A)) : Option (List (Itm V)) :=
  itemsOf py mk rules (lexicons mro)

/-- The plain values in a list of items. -/
def vals (l : List (Itm V)) : List V := l.filterMap (fun o => match o with | .val v => some v | _ => none)

/-- `standardactions`, `introspect.py:75-81` (a list for the set). -/
def standardactions (py : Py V) (mk : Marks V) (isStd : V → Bool) (rules : D → List (List (Itm V))) (mro : List (Cls D A)) : Option (List V) :=
  (ruleItems py mk rules mro).map (fun l => (vals l).filter isStd)

/-- `languages`, `introspect.py:84-92` (a list for the set). `langOf` gives the language of a
    lexicon, `none` for what is no lexicon; `self` is the language itself. -/
def languages (py : Py V) (mk : Marks V) (langOf : V → Option Nat) (self : Nat) (rules : D → List (List (Itm V)))
    (mro : List (Cls D A)) : Option (List Nat) :=
  (ruleItems py mk rules mro).map (fun l => ((vals l).filterMap langOf).filter (· ≠ self))

end Parce.Isp

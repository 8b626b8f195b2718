import Verif.Model.Css

/-
Matching rules with the elements of an `lxml` tree: `LxmlElement` and `Style.select_lxml_element` of
`parce/css.py`.

An element of the tree is given by its path from the root element. What `lxml` itself does is taken from its
documentation: `getparent()` of the root element is `None`, `itersiblings` gives the siblings in either
direction, and `None` has none of these attributes. Comments and processing instructions in the tree are not
modelled.
-/

namespace Parce.Lx

open Parce.Css

variable {α : Type}

/-- The exceptions: `AttributeError` for an attribute of `None`, `TypeError` for a `list()` of an object that can not
    be iterated. `fuel` is not an exception of the code, see `lxAnc`. -/
inductive LxErr | ofNone | notIterable | fuel
deriving DecidableEq

/-- An element of `lxml`: the tag, the attributes and the child elements. -/
inductive XEl (α : Type)
  | mk (tag : List α) (attrib : List (List α × List α)) (kids : List (XEl α))

mutual
/-- The element as a tree of `Element` objects. There are no pseudo classes and pseudo elements,
    `css.py:755-761`; the name, the attributes and the children are those of the element, `css.py:743-745`,
    `751-753`, `763-770`. -/
def XEl.el : XEl α → El α
  | .mk t a ks => .mk t a [] [] (XEl.els ks)
def XEl.els : List (XEl α) → List (El α)
  | [] => []
  | k :: ks => k.el :: XEl.els ks
end

/-- What a wrapper has as its `e`, `css.py:740-741`: an element of the tree, or `None`. -/
abbrev W := Option (List Nat)

/-- `LxmlElement.get_parent`, `css.py:747-749`. The result is always a wrapper, and never `None`: for the root
    element it is a wrapper of `None`. -/
def lxParent : W → Except LxErr W
  | none => .error .ofNone
  | some p => .ok (getParent p)

/-- `LxmlElement.previous_siblings`, `css.py:772-775`. -/
def lxPrev : W → Except LxErr (List W)
  | none => .error .ofNone
  | some p => .ok ((prevSiblings p).map some)

variable [DecidableEq α]

/-- `match_selector`, `css.py:606-667`. The first thing that is done is looking at `self.e.attrib`. -/
def lxMatchSelector (env : Env α) (root : XEl α) (c : Compound α) : W → Except LxErr Bool
  | none => .error .ofNone
  | some p => .ok (matchSelector env root.el p c)

/-- The inner loop for the descendant operator, `css.py:580-587`, when `get_parent` does never return `None`. The fuel
    is more than the number of ancestors. -/
def lxAnc (test : W → Except LxErr Bool) : Nat → W → Except LxErr W
  | 0, _ => .error .fuel
  | fuel + 1, w =>
    match lxParent w with
    | .error e => .error e
    | .ok q => match test q with
      | .error e => .error e
      | .ok true => .ok q
      | .ok false => lxAnc test fuel q

/-- The loop over the siblings for `~`, `css.py:596-602`; `none` is leaving the loop without a match. -/
def lxFind (test : W → Except LxErr Bool) : List W → Except LxErr (Option W)
  | [] => .ok none
  | q :: qs => match test q with
    | .error e => .error e
    | .ok true => .ok (some q)
    | .ok false => lxFind test qs

/-- One operator, `css.py:574-602`: the element to continue with, or `none` when `False` is returned. -/
def lxStep (test : W → Except LxErr Bool) (depth : Nat) (w : W) : Comb → Except LxErr (Option W)
  | .child => match lxParent w with
    | .error e => .error e
    | .ok q => match test q with
      | .error e => .error e
      | .ok true => .ok (some q)
      | .ok false => .ok none
  | .desc => match lxAnc test (depth + 2) w with
    | .error e => .error e
    | .ok q => .ok (some q)
  | .adj => match lxPrev w with
    | .error e => .error e
    | .ok [] => .ok none
    | .ok (q :: _) => match test q with
      | .error e => .error e
      | .ok true => .ok (some q)
      | .ok false => .ok none
  | _ => match lxPrev w with
    | .error e => .error e
    | .ok qs => lxFind test qs

/-- The outer loop, `css.py:573-604`. -/
def lxLoop (env : Env α) (root : XEl α) (depth : Nat) (w : W) : List (Comb × Compound α) → Except LxErr Bool
  | [] => .ok true
  | (o, c) :: rest =>
    if c.isEmpty then .ok true
    else match lxStep (lxMatchSelector env root c) depth w o with
      | .error e => .error e
      | .ok none => .ok false
      | .ok (some q) => lxLoop env root depth q rest

/-- `match_selectors`, `css.py:563-604`, of the wrapper of the element at `p`. -/
def lxMatchSelectors (env : Env α) (root : XEl α) (p : List Nat) (s : Complex α) : Except LxErr Bool :=
  if s.last.isEmpty then .ok false
  else match lxMatchSelector env root s.last (some p) with
    | .error e => .error e
    | .ok false => .ok false
    | .ok true => lxLoop env root p.length (some p) s.rest

/-- `match`, `css.py:559-561`: `any` stops at the first list that matches. -/
def lxMatch (env : Env α) (root : XEl α) (p : List Nat) : List (Complex α) → Except LxErr Bool
  | [] => .ok false
  | s :: ss => match lxMatchSelectors env root p s with
    | .error e => .error e
    | .ok true => .ok true
    | .ok false => lxMatch env root p ss

/-- The rules that `select_element` yields, `css.py:380-384`, for a wrapper. -/
def lxSelect {V : Type} (env : Env α) (root : XEl α) (p : List Nat) : List (Rule α V) → Except LxErr (List (Rule α V))
  | [] => .ok []
  | r :: rs => match lxMatch env root p r.prelude with
    | .error e => .error e
    | .ok b => match lxSelect env root p rs with
      | .error e => .error e
      | .ok l => .ok (if b then r :: l else l)

/-- What a method of `Style` that has the decorator `style_query` returns: something that `list()` accepts, or a
    `Style`, which has no `__iter__` and no `__getitem__`, `css.py:363-411`. -/
inductive Ret (β : Type)
  | rules (l : List β)
  | style (l : List β)

/-- `style_query`, `css.py:109-114`: `type(self)(list(func(self, ...)))`. -/
def styleQuery {β : Type} : Except LxErr (Ret β) → Except LxErr (List β)
  | .error e => .error e
  | .ok (.rules l) => .ok l
  | .ok (.style _) => .error .notIterable

/-- `Style.select_element`, `css.py:379-384`, with a wrapper. -/
def selectElementLx {V : Type} (env : Env α) (root : XEl α) (p : List Nat) (rules : List (Rule α V)) :
    Except LxErr (List (Rule α V)) :=
  styleQuery ((lxSelect env root p rules).map .rules)

/-- `Style.select_lxml_element`, `css.py:386-389`: the decorated function returns the `Style` that
    `select_element` has returned. -/
def selectLxmlElement {V : Type} (env : Env α) (root : XEl α) (p : List Nat) (rules : List (Rule α V)) :
    Except LxErr (List (Rule α V)) :=
  styleQuery ((selectElementLx env root p rules).map .style)

end Parce.Lx

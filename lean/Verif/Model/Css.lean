/-
Elements, selectors and the cascade: `parce/css.py`.

Texts (names, classes, attribute values) are lists of characters of any type. What is used of
Python's strings is a parameter (`Env`).
-/

namespace Parce.Css

/-- The pseudo classes for which there is a method, `css.py:527-557`. -/
inductive Pseudo | firstChild | lastChild | onlyChild | firstOfType | lastOfType | empty
deriving DecidableEq

/-- What is used of Python's strings: the white space for `str.split()`, `str.lower()`, the names of
    the attributes `class` and `id`, the dash, and which names are those of a pseudo class. -/
structure Env (α : Type) where
  space : α → Bool
  lower : List α → List α
  classAttr : List α
  idAttr : List α
  dash : α
  dispatch : List α → Option Pseudo

/-- An element with its children, `css.py:670-722`. (An element occurs once in its parent, as the
    constructor ensures.) -/
inductive El (α : Type)
  | mk (name : List α) (attrs : List (List α × List α)) (pclasses pelems : List (List α)) (kids : List (El α))

variable {α : Type}

def El.name : El α → List α | .mk n _ _ _ _ => n
def El.attrs : El α → List (List α × List α) | .mk _ a _ _ _ => a
def El.pclasses : El α → List (List α) | .mk _ _ c _ _ => c
def El.pelems : El α → List (List α) | .mk _ _ _ e _ => e
def El.kids : El α → List (El α) | .mk _ _ _ _ k => k

/-- The element at a path from the root element; an element is identified by its path. -/
def El.at (e : El α) : List Nat → Option (El α)
  | [] => some e
  | i :: p => match e.kids[i]? with
    | some k => k.at p
    | none => none

/-- `get_parent`, `css.py:700-702`. -/
def getParent (p : List Nat) : Option (List Nat) := if p = [] then none else some p.dropLast

/-- `previous_siblings`, `css.py:724-729`: backward. -/
def prevSiblings (p : List Nat) : List (List Nat) :=
  match p.getLast? with
  | none => []
  | some i => (List.range i).reverse.map (fun j => p.dropLast ++ [j])

/-- `next_siblings`, `css.py:731-735`. -/
def nextSiblings (root : El α) (p : List Nat) : List (List Nat) :=
  match p.getLast?, root.at p.dropLast with
  | some i, some e => ((List.range e.kids.length).drop (i + 1)).map (fun j => p.dropLast ++ [j])
  | _, _ => []

/-- `str.split()`; `cur` is the current word, reversed. -/
def splitGo (space : α → Bool) (cur : List α) : List α → List (List α)
  | [] => if cur.isEmpty then [] else [cur.reverse]
  | c :: t =>
    if space c then (if cur.isEmpty then splitGo space [] t else cur.reverse :: splitGo space [] t)
    else splitGo space (c :: cur) t

def split (space : α → Bool) (s : List α) : List (List α) := splitGo space [] s

variable [DecidableEq α]

/-- `dict.get` -/
def assoc (k : List α) : List (List α × List α) → Option (List α)
  | [] => none
  | (k', v) :: d => if k' = k then some v else assoc k d

/-- `get_classes`, `css.py:500-509`. -/
def getClasses (env : Env α) (e : El α) : List (List α) := split env.space ((assoc env.classAttr e.attrs).getD [])

/-- `get_id`, `css.py:511-515`. -/
def getId (env : Env α) (e : El α) : Option (List α) := assoc env.idAttr e.attrs

/-- `is_first_child` … `is_empty`, `css.py:527-557`. -/
def isPseudo (root : El α) (p : List Nat) (e : El α) : Pseudo → Bool
  | .firstChild => (prevSiblings p).head?.isNone
  | .lastChild => (nextSiblings root p).head?.isNone
  | .onlyChild => (nextSiblings root p).head?.isNone && (prevSiblings p).head?.isNone
  | .firstOfType => !(prevSiblings p).any (fun q => (root.at q).any (fun f => f.name = e.name))
  | .lastOfType => !(nextSiblings root p).any (fun q => (root.at q).any (fun f => f.name = e.name))
  | .empty => e.kids.length == 0

/-- The operators in an attribute selector. -/
inductive AOp | eq | incl | dash | pre | suf | sub
deriving DecidableEq

/-- The contents of `[...]`, `css.py:980-1000`; `ci` is whether the flag is `i` or `I`. -/
structure AttrSel (α : Type) where
  attr : List α
  op : Option AOp
  text : Option (List α)
  ci : Bool

/-- A selector dictionary, `css.py:900-918`; the names that are not there have an empty list. The selector
    list of a pseudo class is not used when matching. -/
structure Compound (α : Type) where
  classes : List (List α) := []
  names : List (List α) := []
  ids : List (List α) := []
  attrs : List (AttrSel α) := []
  pclasses : List (List α) := []
  pelems : List (List α) := []

/-- The dictionary has no keys (it is false in Python then), this is the case for `*`. -/
def Compound.isEmpty (c : Compound α) : Bool :=
  c.classes.isEmpty && c.names.isEmpty && c.ids.isEmpty && c.attrs.isEmpty && c.pclasses.isEmpty && c.pelems.isEmpty

/-- The test of one operator, `css.py:634-650`. `text in value` for strings. -/
def hasSub (s : List α) : List α → Bool
  | [] => s.isEmpty
  | c :: t => s.isPrefixOf (c :: t) || hasSub s t

def AOp.test (env : Env α) (text value : List α) : AOp → Bool
  | .eq => text = value
  | .incl => text ∈ split env.space value
  | .dash => text = value || (text ++ [env.dash]).isPrefixOf value
  | .pre => text.isPrefixOf value
  | .suf => text.isSuffixOf value
  | .sub => hasSub text value

/-- One attribute selector, `css.py:624-650`. -/
def matchAttr (env : Env α) (e : El α) (s : AttrSel α) : Bool :=
  match assoc s.attr e.attrs with
  | none => false
  | some value =>
    match s.op, s.text with
    | some op, some text =>
      if text.isEmpty then true
      else if s.ci then op.test env (env.lower text) (env.lower value) else op.test env text value
    | _, _ => true

/-- `match_selector`, `css.py:606-667`. -/
def matchSelector (env : Env α) (root : El α) (p : List Nat) (c : Compound α) : Bool :=
  match root.at p with
  | none => false
  | some e =>
    c.classes.all (fun x => x ∈ getClasses env e) && c.names.all (fun n => n = e.name) &&
    c.ids.all (fun i => some i = getId env e) && c.attrs.all (matchAttr env e) &&
    c.pclasses.all (fun x => match env.dispatch x with
      | none => x ∈ e.pclasses
      | some k => isPseudo root p e k) &&
    c.pelems.all (fun x => x ∈ e.pelems)

/-- The combinators; `col` is `||`. -/
inductive Comb | child | desc | adj | sib | col
deriving DecidableEq

/-- A list of selectors with operators in between, from right to left: the last selector, and the
    operators with the selector that is to the left of it. -/
structure Complex (α : Type) where
  last : Compound α
  rest : List (Comb × Compound α)

/-- The inner `while` loop for the descendant operator, `css.py:580-587`. -/
def ancLoop (test : List Nat → Bool) : Nat → List Nat → Option (List Nat)
  | 0, _ => none
  | fuel + 1, p => match getParent p with
    | none => none
    | some q => if test q then some q else ancLoop test fuel q

/-- One operator, `css.py:574-602`: the element to continue with, or `none` when `False` is returned. -/
def stepComb (test : List Nat → Bool) (p : List Nat) : Comb → Option (List Nat)
  | .child => match getParent p with
    | none => none
    | some q => if test q then some q else none
  | .desc => ancLoop test (p.length + 1) p
  | .adj => match prevSiblings p with
    | [] => none
    | q :: _ => if test q then some q else none
  | _ => (prevSiblings p).find? test

/-- The outer loop, `css.py:573-604`. It stops at an empty dictionary. -/
def combLoop (env : Env α) (root : El α) (p : List Nat) : List (Comb × Compound α) → Bool
  | [] => true
  | (o, c) :: rest =>
    if c.isEmpty then true
    else match stepComb (fun q => matchSelector env root q c) p o with
      | none => false
      | some q => combLoop env root q rest

/-- `match_selectors`, `css.py:563-604`. -/
def matchSelectors (env : Env α) (root : El α) (p : List Nat) (s : Complex α) : Bool :=
  if s.last.isEmpty || !matchSelector env root p s.last then false else combLoop env root p s.rest

/-- `match`, `css.py:559-561`. -/
def matchPrelude (env : Env α) (root : El α) (p : List Nat) (prelude : List (Complex α)) : Bool :=
  prelude.any (matchSelectors env root p)

/-! ## The prelude of a rule -/

/-- An item of a prelude: a comma, another operator token, a selector, or anything else. -/
inductive PItem (α : Type)
  | comma
  | op (o : Comb)
  | sel (c : Compound α)
  | other

/-- An element of a selector list: a dictionary or the text of an operator. -/
inductive SItem (α : Type)
  | sel (c : Compound α)
  | op (o : Comb)

def SItem.isSel : SItem α → Bool | .sel _ => true | .op _ => false

/-- The last item is a selector: `result and isinstance(result[-1], dict)`. -/
def endsSel (r : List (SItem α)) : Bool := match r.getLast? with
  | some i => i.isSel
  | none => false

/-- The loop of `prelude`, `css.py:873-891`, with the finished lists and the current list. -/
def preludeLoop : List (PItem α) → List (List (SItem α)) → List (SItem α) → List (List (SItem α)) × List (SItem α)
  | [], pre, res => (pre, res)
  | .comma :: is, pre, res => preludeLoop is (pre ++ [res]) []
  | .op o :: is, pre, res => preludeLoop is pre (if endsSel res then res ++ [.op o] else res)
  | .sel c :: is, pre, res => preludeLoop is pre ((if endsSel res then res ++ [.op .desc] else res) ++ [.sel c])
  | .other :: is, pre, res => preludeLoop is pre res

/-- `prelude`, `css.py:857-898`. -/
def mkPrelude (items : List (PItem α)) : List (List (SItem α)) :=
  let (pre, res) := preludeLoop items [] []
  let pre := if res.isEmpty then pre else pre ++ [res]
  let pre := pre.map (fun l => if !l.isEmpty && !endsSel l then l.dropLast else l)
  pre.filter (fun l => !l.isEmpty)

/-! ## The cascade -/

/-- A rule: the prelude and the dictionary of the properties. `V` is the type of the values. -/
structure Rule (α V : Type) where
  prelude : List (Complex α)
  props : List (List α × List V)

/-- The specificity of one list of selectors, `css.py:1374-1383`. -/
def specOf (s : Complex α) : Nat × Nat × Nat :=
  let cs := s.last :: s.rest.map (·.2)
  ((cs.map (fun c => c.ids.length)).sum,
   (cs.map (fun c => c.attrs.length + c.classes.length + c.pclasses.length)).sum,
   (cs.map (fun c => c.names.length + c.pelems.length)).sum)

/-- Comparing tuples. -/
def specLe (a b : Nat × Nat × Nat) : Bool :=
  a.1 < b.1 || (a.1 == b.1 && (a.2.1 < b.2.1 || (a.2.1 == b.2.1 && a.2.2 ≤ b.2.2)))

/-- `calculate_specificity`, `css.py:1362-1384`; `none` is the ValueError of `max([])`. -/
def specificity : List (Complex α) → Option (Nat × Nat × Nat)
  | [] => none
  | s :: ss => some (ss.foldl (fun m x => if specLe (specOf x) m then m else specOf x) (specOf s))

/-- Inserting after the elements that are not greater: with `sortBy` a stable sort like Python's
    `sorted`. -/
def insertKey {β : Type} (x : (Nat × Nat × Nat) × β) : List ((Nat × Nat × Nat) × β) → List ((Nat × Nat × Nat) × β)
  | [] => [x]
  | y :: l => if specLe y.1 x.1 then y :: insertKey x l else x :: y :: l

def sortBy {β : Type} (l : List ((Nat × Nat × Nat) × β)) : List ((Nat × Nat × Nat) × β) :=
  l.foldl (fun acc x => insertKey x acc) []

/-- The rule or `none` for the exception. -/
def withKey {V : Type} (r : Rule α V) : Option ((Nat × Nat × Nat) × Rule α V) := (specificity r.prelude).map (fun k => (k, r))

/-- The sorted rules of `StyleSheet.style`, `css.py:342-345`; `none` is the ValueError. -/
def styleRules {V : Type} (rules : List (Rule α V)) : Option (List (Rule α V)) :=
  (rules.mapM withKey).map (fun l => (sortBy l).reverse.map (·.2))

/-- The dictionaries in `properties`, in any order: `get` finds the value of a key. -/
def dictGet {V : Type} (k : List α) : List (List α × V) → Option V
  | [] => none
  | (k', v) :: d => if k' = k then some v else dictGet k d

def dictSet {V : Type} (k : List α) (v : V) : List (List α × V) → List (List α × V)
  | [] => [(k, v)]
  | (k', v') :: d => if k' = k then (k', v) :: d else (k', v') :: dictSet k v d

/-- The state of `properties`: `result` and `important_properties`. -/
abbrev PState (α V : Type) := List (List α × List V) × List (List α)

/-- One property of a rule, `css.py:402-411`; `none` is the IndexError of `value[-1]`. -/
def propStep {V : Type} (imp : V → Bool) (st : PState α V) (kv : List α × List V) : Option (PState α V) :=
  match kv.2.getLast? with
  | none => none
  | some v =>
    let value := if imp v then kv.2.dropLast else kv.2
    if (dictGet kv.1 st.1).isNone then some (dictSet kv.1 value st.1, st.2)
    else if imp v && !decide (kv.1 ∈ st.2) then some (dictSet kv.1 value st.1, kv.1 :: st.2)
    else some st

/-- `Style.properties`, `css.py:391-411`; `imp` is whether a value is the text `!important`. -/
def properties {V : Type} (imp : V → Bool) (rules : List (Rule α V)) : Option (List (List α × List V)) :=
  ((rules.flatMap (·.props)).foldlM (propStep imp) ([], [])).map (·.1)

/-- `Style.select_element`, `css.py:379-384`. -/
def selectElement {V : Type} (env : Env α) (root : El α) (p : List Nat) (rules : List (Rule α V)) : List (Rule α V) :=
  rules.filter (fun r => matchPrelude env root p r.prelude)

end Parce.Css

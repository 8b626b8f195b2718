import Verif.Model.Html
import Verif.Model.XmlEncoding
/-!
# Model of `XHtmlIO.find_encoding`, parce/lang/html.py:102-129

The query is modelled for the tree of the language `XHtml`, where the children of a string are tokens. Lower case is that of ASCII: a name is
only compared with `charset`, `http-equiv`, `content` and `content-type`, and no letter outside ASCII becomes one of their letters.
-/
namespace Parce.Html
open Parce.Json (Uni str)
open Parce.Xml (chr)

/-- The language `XHtml`, `html.py:48-82`: as `Html`, without the rules for void elements. -/
def xrules (u : Uni) (x : Ext) : HL → List HRule
  | .xml .root => (contentRules u true).drop 2
  | .xml .tag => (contentRules u false).drop 2
  | l => rules u x l

def xlang (u : Uni) (x : Ext) : Lang Nat HL HA RM := grpLang (.x .none) (· == .x .skip) groups (fun _ => false) (xrules u x) (dflt u x)

abbrev HNode := Node Nat HL HA

/-- `str.lower`. -/
def lowerText (w : List Nat) : List Nat := w.map fun c => if 65 ≤ c && c ≤ 90 then c + 32 else c

/-- `str.strip`. -/
def stripText (u : Uni) (w : List Nat) : List Nat := ((w.dropWhile u.space).reverse.dropWhile u.space).reverse

/-- `\bcharset\s*?=\s*?([\w_-]+)` with IGNORECASE, `html.py:124`. -/
def contentPat (u : Uni) : Pat Nat :=
  .cat (.bound u.word) (.cat (word true (str "charset")) (.cat (.lazy (.set u.space)) (.cat (chr "=") (.cat (.lazy (.set u.space))
    (.grp 1 (.plus (.set (fun c => u.word c || c == 95 || c == 45))))))))

/-- The search in the value of `content`, `html.py:124-126`. -/
def contentEncoding (u : Uni) (v : List Nat) : Option (List Nat) :=
  match rxSearch [contentPat u] v 0 false with
  | none => none
  | some m => match m.rest.caps.find? (fun c => c.1 == 1) with
    | some c => some (slice v (m.start + c.2.1) (m.start + c.2.2))
    | none => none

/-- `(XHtml.dqstring)[0]` and `.text`, `html.py:116-118`, `query.py:370-374`. -/
def dqFirst : HNode → Option (List Nat)
  | .ctx (.xml .dqstring) (.tok t :: _) => some t.text
  | _ => none

/-- The loop over the attributes, `html.py:111-128`; `http` is `http_equiv`. -/
def metaLoop (u : Uni) : List HNode → (http : Bool) → (enc : Option (List Nat)) → Option (List Nat)
  | [], http, enc => if http then enc else none
  | .ctx _ _ :: rest, http, enc => metaLoop u rest http enc
  | .tok t :: rest, http, enc =>
    if t.act = .x .attribute then
      let a := lowerText t.text
      let v := ((rest.filterMap dqFirst).head?).getD []
      if a = str "charset" ∧ v ≠ [] then some v
      else if a = str "http-equiv" ∧ stripText u (lowerText v) = str "content-type" then metaLoop u rest true enc
      else if a = str "content" then
        match contentEncoding u v with
        | some w => metaLoop u rest http (some w)
        | none => metaLoop u rest http enc
      else metaLoop u rest http enc
    else metaLoop u rest http enc

/-- `('meta').right(XHtml.attrs)` for a node with the action for tags and the nodes on its right, `html.py:110`, `query.py:505-510`; an empty
    context is not taken. -/
def metaHere (t : TokN Nat HA) : List HNode → List (List HNode)
  | .ctx (.attrs .none) (c :: cs) :: _ => if t.act = .x .tagName ∧ t.text = str "meta" then [c :: cs] else []
  | _ => []

mutual
/-- `query.all.action(tag_action)('meta').right(XHtml.attrs)`, `html.py:110`. -/
def metasOf : HNode → List HNode → List (List HNode)
  | .tok t, rest => metaHere t rest
  | .ctx _ cs, _ => metas cs
def metas : List HNode → List (List HNode)
  | [] => []
  | n :: rest => metasOf n rest ++ metas rest
end

/-- `XHtmlIO.find_encoding`, `html.py:104-129`, for the tree of the text; `other` is what `XmlIO.find_encoding` finds in the text. -/
def findEncoding (u : Uni) (tree : HNode) (other : Option (List Nat)) : Option (List Nat) :=
  match (metas [tree]).findSome? (fun cs => metaLoop u cs false none) with
  | some w => some w
  | none => other

end Parce.Html

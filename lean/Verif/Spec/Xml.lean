import Verif.Model.Xml
import Verif.Spec.Json
/-!
# XML texts, and the tree one expects for them

Pieces of XML documents after https://www.w3.org/TR/xml/, with their text, and the tree of contexts and tokens that has their
structure. Left out are document type declarations.
-/
namespace Parce.Xml
open Parce.Json (Uni str)

/-- White space. -/
def IsWs (c : Nat) : Prop := c = 32 ∨ c = 9 ∨ c = 10 ∨ c = 13

instance (c : Nat) : Decidable (IsWs c) := inferInstanceAs (Decidable (_ ∨ _))

def Ws (w : List Nat) : Prop := ∀ c ∈ w, IsWs c

/-- NameStartChar. -/
def IsStart (c : Nat) : Prop :=
  c = 58 ∨ c = 95 ∨ ∃ r ∈ [(65, 90), (97, 122), (0xC0, 0xD6), (0xD8, 0xF6), (0xF8, 0x2FF), (0x370, 0x37D), (0x37F, 0x1FFF), (0x200C, 0x200D),
    (0x2070, 0x218F), (0x2C00, 0x2FEF), (0x3001, 0xD7FF), (0xF900, 0xFDCF), (0xFDF0, 0xFFFD), (0x10000, 0xEFFFF)], r.1 ≤ c ∧ c ≤ r.2

/-- NameChar. -/
def IsName (c : Nat) : Prop := IsStart c ∨ c = 45 ∨ c = 46 ∨ (48 ≤ c ∧ c ≤ 57) ∨ c = 0xB7 ∨ (0x300 ≤ c ∧ c ≤ 0x36F) ∨ (0x203F ≤ c ∧ c ≤ 0x2040)

/-- A name, without a character that Python takes for white space. (There is one such character: U+1680.) -/
def Name (u : Uni) (w : List Nat) : Prop := (∃ c r, w = c :: r ∧ IsStart c ∧ ∀ x ∈ r, IsName x) ∧ ∀ c ∈ w, u.space c = false

/-- What is between `&` and `;`. (More than XML allows.) -/
def RefName (u : Uni) (w : List Nat) : Prop := ∀ c ∈ w, u.space c = false ∧ c ≠ 59

/-- A piece of the value of an attribute: characters, or a reference. -/
inductive Part where
  | chars (w : List Nat)
  | ref (w : List Nat)

def Part.text : Part → List Nat
  | .chars w => w
  | .ref w => str "&" ++ w ++ str ";"

def partsText (l : List Part) : List Nat := l.flatMap Part.text

/-- The pieces between quotes. -/
def partsOk (u : Uni) (quote : Nat) : List Part → Prop
  | [] => True
  | .chars w :: l => w ≠ [] ∧ (∀ c ∈ w, c ≠ 38 ∧ c ≠ quote) ∧ (∀ w' l', l ≠ .chars w' :: l') ∧ partsOk u quote l
  | .ref w :: l => RefName u w ∧ partsOk u quote l

/-- An attribute: white space before it, its name, white space around the `=`, whether there are double quotes, and the value. -/
structure Attr where
  before : List Nat
  name : List Nat
  left : List Nat
  right : List Nat
  double : Bool
  value : List Part

def Attr.quote (a : Attr) : Nat := if a.double then 34 else 39

def Attr.text (a : Attr) : List Nat := a.before ++ a.name ++ a.left ++ str "=" ++ a.right ++ [a.quote] ++ partsText a.value ++ [a.quote]

def attrsText (l : List Attr) : List Nat := l.flatMap Attr.text

def Attr.ok (u : Uni) (a : Attr) : Prop :=
  a.before ≠ [] ∧ Ws a.before ∧ Name u a.name ∧ Ws a.left ∧ Ws a.right ∧ partsOk u a.quote a.value

/-- A piece of a document. -/
inductive Item where
  | text (w : List Nat)
  | ref (w : List Nat)
  | comment (w : List Nat)
  | cdata (w : List Nat)
  /-- a processing instruction with pseudo-attributes, and white space at the end -/
  | pi (name : List Nat) (as : List Attr) (ws : List Nat)
  /-- an empty-element tag, with white space at its end -/
  | empty (name : List Nat) (as : List Attr) (ws : List Nat)
  /-- an element, with white space at the end of its tags -/
  | elem (name : List Nat) (as : List Attr) (ws : List Nat) (content : List Item) (ws' : List Nat)

mutual
def Item.str : Item → List Nat
  | .text w => w
  | .ref w => Json.str "&" ++ w ++ Json.str ";"
  | .comment w => Json.str "<!--" ++ w ++ Json.str "-->"
  | .cdata w => Json.str "<![CDATA[" ++ w ++ Json.str "]]>"
  | .pi n as ws => Json.str "<?" ++ n ++ attrsText as ++ ws ++ Json.str "?>"
  | .empty n as ws => Json.str "<" ++ n ++ attrsText as ++ ws ++ Json.str "/>"
  | .elem n as ws l ws' => Json.str "<" ++ n ++ attrsText as ++ ws ++ Json.str ">" ++ itemsStr l ++ Json.str "</" ++ n ++ ws' ++ Json.str ">"
def itemsStr : List Item → List Nat
  | [] => []
  | i :: l => i.str ++ itemsStr l
end

/-- The text `s` is somewhere in `w`. -/
def Within (s : String) (w : List Nat) : Prop := ∃ a b, w = a ++ str s ++ b

mutual
/-- The piece is well-formed. With `strict = false`, only those comments are allowed that have nothing that looks like a web address, and
    only those texts with white space only that is white space in XML. -/
def Item.ok (u : Uni) (strict : Bool) : Item → Prop
  | .text w => w ≠ [] ∧ (∀ c ∈ w, c ≠ 60 ∧ c ≠ 38) ∧ (strict = false → Ws w ∨ ∃ c ∈ w, u.space c = false)
  | .ref w => RefName u w
  | .comment w => ¬ Within "--" (w ++ Json.str "-") ∧ (strict = false → ¬ Within ":/" w ∧ ¬ Within "www." w)
  | .cdata w => ¬ Within "]]>" (w ++ Json.str "]]")
  | .pi n as ws => Name u n ∧ (∀ a ∈ as, a.ok u) ∧ Ws ws
  | .empty n as ws => Name u n ∧ (∀ a ∈ as, a.ok u) ∧ Ws ws
  | .elem n as ws l ws' => Name u n ∧ (∀ a ∈ as, a.ok u) ∧ Ws ws ∧ itemsOk u strict l ∧ Ws ws'
/-- All pieces are well-formed, and no text is next to a text. -/
def itemsOk (u : Uni) (strict : Bool) : List Item → Prop
  | [] => True
  | i :: l => i.ok u strict ∧ (∀ w w' l', i = .text w → l ≠ .text w' :: l') ∧ itemsOk u strict l
end

/-! ### Trees -/

/-- A tree without positions. Of the contexts of comments only the text is kept. -/
inductive V where
  | tok (w : List Nat) (a : XA)
  | ctx (l : XL) (cs : List V)
  | comment (w : List Nat)
deriving Repr

mutual
/-- The text of the tokens. -/
def nodeText : Node Nat XL XA → List Nat
  | .tok t => t.text
  | .ctx _ cs => nodesText cs
def nodesText : List (Node Nat XL XA) → List Nat
  | [] => []
  | n :: ns => nodeText n ++ nodesText ns
end

mutual
def view : Node Nat XL XA → V
  | .tok t => .tok t.text t.act
  | .ctx l cs => if l = .comment then .comment (nodesText cs) else .ctx l (views cs)
def views : List (Node Nat XL XA) → List V
  | [] => []
  | n :: ns => view n :: views ns
end

def Part.view (double : Bool) : Part → V
  | .chars w => .tok w (if double then .dq else .sq)
  | .ref w => .tok (str "&" ++ w ++ str ";") .stringEscape

/-- The value of an attribute: the first quote, and a context with the rest. -/
def Attr.valueView (a : Attr) : List V :=
  if a.double then [.tok (str "\"") .dqStart, .ctx .dqstring (a.value.map (Part.view true) ++ [.tok (str "\"") .dqEnd])]
  else [.tok (str "'") .sqStart, .ctx .sqstring (a.value.map (Part.view false) ++ [.tok (str "'") .sqEnd])]

def Attr.view (a : Attr) : List V := [.tok a.name .attribute, .tok (str "=") .operator] ++ a.valueView

/-- White space in a processing instruction is a token. -/
def spaceView (w : List Nat) : List V := if w = [] then [] else [.tok w .ppText]

/-- An attribute in a processing instruction. -/
def Attr.piView (a : Attr) : List V :=
  spaceView a.before ++ [.tok a.name .attribute, .tok (str "=") .operator] ++ spaceView a.right ++ a.valueView

/-- The rest of a tag after its name; if there are attributes, it is a context. -/
def tagEnd (as : List Attr) (e : String) : List V :=
  if as = [] then [.tok (str e) .delimiter] else [.ctx .attrs (as.flatMap Attr.view ++ [.tok (str e) .delimiter])]

mutual
/-- The tree of a piece. The content of an element is in a context, together with the end tag. -/
def Item.view : Item → List V
  | .text w => [.tok w (if ∀ c ∈ w, IsWs c then .whitespace else .text)]
  | .ref w => [.tok (Json.str "&" ++ w ++ Json.str ";") .escape]
  | .comment w => [.tok (Json.str "<!--") .commentStart, .comment (w ++ Json.str "-->")]
  | .cdata w => [.tok (Json.str "<![") .delimiter, .tok (Json.str "CDATA") .dataDef, .tok (Json.str "[") .delimiter,
      .ctx .cdata ((if w = [] then [] else [.tok w .data]) ++ [.tok (Json.str "]]>") .delimiter])]
  | .pi n as ws => [.tok (Json.str "<?") .ppStart, .tok n .ppName,
      .ctx .pi (as.flatMap Attr.piView ++ spaceView ws ++ [.tok (Json.str "?>") .ppEnd])]
  | .empty n as _ => [.tok (Json.str "<") .delimiter, .tok n .tagName] ++ tagEnd as "/>"
  | .elem n as _ l _ => [.tok (Json.str "<") .delimiter, .tok n .tagName] ++ tagEnd as ">" ++
      [.ctx .tag (itemsView l ++ [.tok (Json.str "</") .delimiter, .tok n .tagName, .tok (Json.str ">") .delimiter])]
def itemsView : List Item → List V
  | [] => []
  | i :: l => i.view ++ itemsView l
end

end Parce.Xml

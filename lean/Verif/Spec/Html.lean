import Verif.Model.Html
import Verif.Spec.Xml
/-!
# Tags of HTML texts
-/
namespace Parce.Html
open Parce.Json (Uni str)
open Parce.Xml (Name Ws)

/-- A start tag without attributes; with white space before its end. -/
def startTag (n ws : List Nat) (slash : Bool) : List Nat := str "<" ++ n ++ ws ++ (if slash then str "/>" else str ">")

/-- An end tag. -/
def endTag (n ws : List Nat) : List Nat := str "</" ++ n ++ ws ++ str ">"

/-- Lower case. -/
def lowerChar (c : Nat) : Nat := if 65 ≤ c ∧ c ≤ 90 then c + 32 else c

def lower (n : List Nat) : List Nat := n.map lowerChar

/-- The elements that have no content and no end tag (https://html.spec.whatwg.org/#void-elements, and older ones). -/
def Void (n : List Nat) : Prop :=
  lower n ∈ [str "area", str "base", str "br", str "col", str "embed", str "hr", str "img", str "input", str "link", str "meta",
   str "param", str "source", str "track", str "wbr", str "command", str "keygen", str "menuitem"]

/-- Elements with text in another language. -/
def Raw (n : List Nat) : Prop := lower n = str "style" ∨ lower n = str "script"

/-- Wherever the text `w` is, with `post` after it, the lexicon takes it whole as one match, with these tokens and this target. -/
def Takes (u : Uni) (x : Ext) (l : HL) (w post : List Nat) (toks : List (List Nat × HA)) (tg : Option (Target HL)) : Prop :=
  ∀ t p, t.drop p = w ++ post → ∃ tok, parseNext (HA.x .none) ((lang u x).ld l) t (.at p false) = some (tok, .at (p + w.length) false) ∧
    tok.pos = p ∧ tok.text = w ∧ tok.tgt = tg ∧ ((lang u x).expand tok).map (fun e => (e.text, e.act)) = toks

/-- The tokens of a tag. -/
def tagToks (ws : List (List Nat)) : List (List Nat × HA) :=
  match ws with
  | [a, n, b] => [(a, .x .delimiter), (n, .x .tagName), (b, .x .delimiter)]
  | [a, n] => [(a, .x .delimiter), (n, .x .tagName)]
  | _ => []

/-- The lexicons with content: of the document, and of an element. -/
def Content (l : HL) : Prop := l = .xml .root ∨ l = .xml .tag

/-- No name of a void element, nor `style` or `script`, is the begin of the name; and there are no letters in the name that in lower case
    are ASCII letters but are not ASCII letters themselves. -/
def Clear (n : List Nat) : Prop :=
  (∀ v ∈ [str "area", str "base", str "br", str "col", str "embed", str "hr", str "img", str "input", str "link", str "meta",
   str "param", str "source", str "track", str "wbr", str "command", str "keygen", str "menuitem", str "style", str "script"],
    ¬ v <+: lower n) ∧ ∀ c ∈ n, c ≠ 0x212A ∧ c ≠ 0x17F

end Parce.Html

import Verif.Model.FullHtml
import Verif.Spec.Formatter

/-!
How a browser reads an HTML text: tags with attributes, and text between them. Comments, scripts and
other special things do not occur.
-/
namespace Parce.FH

/-- A character of the text, or a tag (what is between `<` and `>`). -/
inductive Item where
  | char (c : Char)
  | tag (s : List Char)
deriving DecidableEq

/-- Where the reader is: in the text, in a tag (possibly just after `=`), or in the value of an
attribute in double quotes. -/
inductive St where
  | text
  | tag (eq : Bool)
  | quoted

/-- The items of a text; `cur` is what was read of the current tag. A `"` begins a value only after
`=`, and in a value `>` does not end the tag. -/
def items : St → (cur : List Char) → List Char → List Item
  | _, _, [] => []
  | .text, cur, c :: r => if c = '<' then items (.tag false) [] r else .char c :: items .text cur r
  | .tag eq, cur, c :: r =>
    if c = '>' then .tag cur :: items .text [] r
    else if c = '"' ∧ eq = true then items .quoted (cur ++ [c]) r
    else items (.tag (c = '=')) (cur ++ [c]) r
  | .quoted, cur, c :: r => if c = '"' then items (.tag false) (cur ++ [c]) r else items .quoted (cur ++ [c]) r

/-- The style of a `pre` tag, with the entities replaced. -/
def preStyle : List Char → Option (List Char)
  | 'p' :: 'r' :: 'e' :: ' ' :: 's' :: 't' :: 'y' :: 'l' :: 'e' :: '=' :: '"' :: r =>
    some (unescape (r.takeWhile (· ≠ '"')))
  | _ => none

/-- The text up to the end of the element, without the tags in it. -/
def textUpTo : List Item → List Char
  | [] => []
  | .char c :: r => c :: textUpTo r
  | .tag s :: r => if s = ['/', 'p', 'r', 'e'] then [] else textUpTo r

/-- A newline right after `<pre>` is left out (HTML, 13.1.2.5). -/
def dropNewline : List Char → List Char
  | '\n' :: r => r
  | t => t

/-- The style and the text of the first `pre` element. -/
def preElement : List Item → Option (List Char × List Char)
  | [] => none
  | .char _ :: r => preElement r
  | .tag s :: r =>
    match preStyle s with
    | some st => some (st, unescape (dropNewline (textUpTo r)))
    | none => preElement r

/-- What a browser shows: the style of the text and the text. -/
def shown (doc : List Char) : Option (List Char × List Char) := preElement (items .text [] doc)

end Parce.FH

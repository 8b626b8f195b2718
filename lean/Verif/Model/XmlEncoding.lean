import Verif.Model.Xml
import Verif.Model.Tree
/-!
# Model of `XmlIO.find_encoding`, parce/lang/xml.py:231-240

The query is modelled for the tree of the language `Xml`, where the children of a string are tokens.
-/
namespace Parce.Xml
open Parce.Json (Uni str)

abbrev XNode := Node Nat XL XA

/-- `(Xml.dqstring)[0]` and `.text`, `xml.py:239-240`, `query.py:370-374`. -/
def dqFirst : XNode → Option (List Nat)
  | .ctx .dqstring (.tok t :: _) => some t.text
  | _ => none

/-- `.action(Name.Attribute)('encoding').right_siblings(Xml.dqstring)[0]` for the children of a context, `xml.py:238-239`. -/
def encs : List XNode → List (List Nat)
  | [] => []
  | n :: rest =>
    (match n with
      | .tok t => if t.act = .attribute ∧ t.text = str "encoding" then rest.filterMap dqFirst else []
      | .ctx _ _ => []) ++ encs rest

/-- `tree.query.children(Xml.processing_instruction).children`, `xml.py:237-238`. -/
def piEncs : XNode → List (List Nat)
  | .ctx .pi cs => encs cs
  | _ => []

/-- `find_encoding`, `xml.py:233-240`, for the tree of the text. -/
def findEncoding : XNode → Option (List Nat)
  | .ctx _ cs => (cs.flatMap piEncs).head?
  | _ => none

end Parce.Xml

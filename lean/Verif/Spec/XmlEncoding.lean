import Verif.Spec.Xml
/-!
# The encoding that an XML text declares

`EncodingDecl` in https://www.w3.org/TR/xml/#NT-EncodingDecl.
-/
namespace Parce.Xml
open Parce.Json (Uni str)

/-- An XML declaration: its attributes, and white space at the end. -/
def declText (as : List Attr) (ws : List Nat) : List Nat := str "<?xml" ++ attrsText as ++ ws ++ str "?>"

/-- The declaration has the encoding `w`. -/
def Declares (as : List Attr) (w : List Nat) : Prop :=
  ∃ l1 a l2, as = l1 ++ a :: l2 ∧ a.name = str "encoding" ∧ a.value = [.chars w] ∧ ∀ b ∈ l1, b.name ≠ str "encoding"

/-- No processing instruction outside of elements has an attribute with the name `encoding`. -/
def NoEncoding (c : List Item) : Prop := ∀ n as ws, Item.pi n as ws ∈ c → ∀ a ∈ as, a.name ≠ str "encoding"

end Parce.Xml

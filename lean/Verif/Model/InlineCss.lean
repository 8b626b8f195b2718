import Verif.Model.Quote

/-!
# Inline CSS (parce/out/html.py:168-176)

Characters are code points.
-/
namespace Parce.IC

/-- Whether a string comes before another one or is the same (Python compares code points). -/
def strLe : List Nat → List Nat → Bool
  | [], _ => true
  | _ :: _, [] => false
  | a :: s, b :: t => a < b || (a == b && strLe s t)

/-- Putting a property in its place; the names are different, so the values are never compared. -/
def insertProp (p : List Nat × List Nat) : List (List Nat × List Nat) → List (List Nat × List Nat)
  | [] => [p]
  | q :: qs => if strLe p.1 q.1 then p :: q :: qs else q :: insertProp p qs

/-- `sorted(props.items())` (out/html.py:176). -/
def sortProps : List (List Nat × List Nat) → List (List Nat × List Nat)
  | [] => []
  | p :: ps => insertProp p (sortProps ps)

/-- `"{}: {};".format(prop, value)` (out/html.py:175). -/
def declText (p : List Nat × List Nat) : List Nat := p.1 ++ [58, 32] ++ p.2 ++ [59]

/-- `" ".join(...)` of texts. -/
def joinWith (sep : List Nat) : List (List Nat) → List Nat
  | [] => []
  | [t] => t
  | t :: ts => t ++ sep ++ joinWith sep ts

/-- `inline_css` (out/html.py:168-176) for the properties of a text format. -/
def inlineCss (props : List (List Nat × List Nat)) : List Nat := joinWith [32] ((sortProps props).map declText)

/-- The names of the font family (theme.py:337-338). -/
def familyText (word : Nat → Bool) (names : List (List Nat)) : List Nat :=
  joinWith [44, 32] (names.map (Quo.quoteIfNeeded word))

end Parce.IC

import Verif.Model.InlineCss

/-!
How the declarations in a `style` attribute are read: they end at a semicolon that is not in a string,
and the name ends at the first colon.
-/
namespace Parce.IC

/-- Outside strings, in a string that ends at the character `q`, or after a backslash in it. -/
inductive Sc where
  | out
  | str (q : Nat)
  | esc (q : Nat)
deriving DecidableEq

/-- What the reader is in after a character. -/
def Sc.next : Sc → Nat → Sc
  | .out, c => if c = 34 ∨ c = 39 then .str c else .out
  | .str q, c => if c = q then .out else if c = 92 then .esc q else .str q
  | .esc q, _ => .str q

/-- Whether the character is a blank. -/
def blank (c : Nat) : Bool := c == 32

/-- The text without the blanks at both ends. -/
def trim (s : List Nat) : List Nat := ((s.dropWhile blank).reverse.dropWhile blank).reverse

/-- The texts between the semicolons; what is not ended by one counts if it is not blank. -/
def splitDecls : Sc → (cur : List Nat) → List Nat → List (List Nat)
  | _, cur, [] => if cur.all blank then [] else [cur]
  | s, cur, c :: r => if s = .out ∧ c = 59 then cur :: splitDecls .out [] r else splitDecls (s.next c) (cur ++ [c]) r

/-- The name and value of a declaration. -/
def parseDecl (s : List Nat) : List Nat × List Nat :=
  (trim (s.takeWhile (· ≠ 58)), trim (s.dropWhile (· ≠ 58)).tail)

/-- The declarations of a `style` attribute. -/
def readDecls (s : List Nat) : List (List Nat × List Nat) := (splitDecls .out [] s).map parseDecl

/-- A name of a property: no characters that mean something else. -/
def NameOk (n : List Nat) : Prop := ∀ c ∈ n, c ≠ 58 ∧ c ≠ 59 ∧ c ≠ 34 ∧ c ≠ 39 ∧ c ≠ 32

/-- All strings in a value are closed, and there are no semicolons outside strings. -/
def scan : Sc → List Nat → Option Sc
  | s, [] => some s
  | s, c :: r => if s = .out ∧ c = 59 then none else scan (s.next c) r

/-- A value that can be read. -/
structure ValueOk (v : List Nat) : Prop where
  scan : scan .out v = some .out
  first : v.head?.map blank ≠ some true
  last : v.getLast?.map blank ≠ some true

end Parce.IC

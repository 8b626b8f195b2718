/-
Quoting of strings for CSS (parce/css.py:1395-1405).  Characters are code points.
-/

namespace Parce.Quo

/-- The hexadecimal digit (lower case) for a number below 16. -/
def hexChar (n : Nat) : Nat := if n < 10 then 48 + n else 87 + n

/-- `"{:x}".format(n)` (css.py:1405). -/
def toHex (n : Nat) : List Nat :=
  if n < 16 then [hexChar n] else toHex (n / 16) ++ [hexChar (n % 16)]

/-- `escape` of one character (css.py:1403-1405): a backslash, the code point and a space. -/
def escape1 (c : Nat) : List Nat := 92 :: (toHex c ++ [32])

/-- `escape` (css.py:1403-1405). -/
def escape (s : List Nat) : List Nat := s.flatMap escape1

/-- `re.sub(r'[\\"]', lambda m: escape(m.group()), s)` (css.py:1398). -/
def subQuotes (s : List Nat) : List Nat :=
  s.flatMap (fun c => if c = 92 ∨ c = 34 then escape [c] else [c])

/-- `re.fullmatch(r'[\w-]+', s)` (css.py:1397); `word` is what `\w` matches. -/
def plain (word : Nat → Bool) (s : List Nat) : Bool := !s.isEmpty && s.all (fun c => word c || c == 45)

/-- `quote_if_needed` (css.py:1395-1400). -/
def quoteIfNeeded (word : Nat → Bool) (s : List Nat) : List Nat :=
  if plain word s then s else 34 :: (subQuotes s ++ [34])

end Parce.Quo

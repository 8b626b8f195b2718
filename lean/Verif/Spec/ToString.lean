/-
What a regular expression without choices stands for, after the documentation of
Python's `re` module.  Nothing here uses the functions of the model.
-/

namespace Parce.ToS

/-- `d` is a digit with value `v` in base 16. -/
inductive Hex : Nat → Nat → Prop
  | dec (v : Nat) : v < 10 → Hex (48 + v) v
  | lower (v : Nat) : v < 6 → Hex (97 + v) (10 + v)
  | upper (v : Nat) : v < 6 → Hex (65 + v) (10 + v)

/-- The digits `ds` are the number `v` in base 16, after the number `v₀`. -/
inductive HexNum : Nat → List Nat → Nat → Prop
  | nil (v : Nat) : HexNum v [] v
  | cons {v d x ds w} : Hex d x → HexNum (16 * v + x) ds w → HexNum v (d :: ds) w

/-- The first character of `r` is not an octal digit. -/
def NoOctal (r : List Nat) : Prop := ∀ d, r.head? = some d → ¬ (48 ≤ d ∧ d ≤ 55)

/-- The characters that have a meaning in a regular expression: `\ ^ $ | . ( ) [ { + * ?`. -/
def Meta (c : Nat) : Prop :=
  c = 92 ∨ c = 94 ∨ c = 36 ∨ c = 124 ∨ c = 46 ∨ c = 40 ∨ c = 41 ∨ c = 91 ∨ c = 123 ∨ c = 43 ∨
    c = 42 ∨ c = 63

/-- Letters and digits of ASCII. -/
def Alnum (c : Nat) : Prop := (48 ≤ c ∧ c ≤ 57) ∨ (65 ≤ c ∧ c ≤ 90) ∨ (97 ≤ c ∧ c ≤ 122)

/-- The characters of the text `w` after a backslash, followed by `r`, stand for the
one character `c`. -/
inductive Escape (lookup : List Nat → Option (List Nat)) : List Nat → List Nat → Nat → Prop
  | hex2 {ds v r} : ds.length = 2 → HexNum 0 ds v → Escape lookup (120 :: ds) r v
  | hex4 {ds v r} : ds.length = 4 → HexNum 0 ds v → Escape lookup (117 :: ds) r v
  | hex8 {ds v r} : ds.length = 8 → HexNum 0 ds v → v < 1114112 → Escape lookup (85 :: ds) r v
  | bell {r} : Escape lookup [97] r 7
  | formfeed {r} : Escape lookup [102] r 12
  | newline {r} : Escape lookup [110] r 10
  | ret {r} : Escape lookup [114] r 13
  | tab {r} : Escape lookup [116] r 9
  | vtab {r} : Escape lookup [118] r 11
  | zero {r} : NoOctal r → Escape lookup [48] r 0
  | zero1 {x r} : x < 8 → NoOctal r → Escape lookup [48, 48 + x] r x
  | zero2 {x y r} : x < 8 → y < 8 → Escape lookup [48, 48 + x, 48 + y] r (8 * x + y)
  | octal {x y z r} : 0 < x → x < 4 → y < 8 → z < 8 →
      Escape lookup [48 + x, 48 + y, 48 + z] r (64 * x + 8 * y + z)
  | name {n c r} : 10 ∉ n → 125 ∉ n → lookup n = some [c] →
      Escape lookup (78 :: 123 :: n ++ [125]) r c
  | char {c r} : ¬ Alnum c → Escape lookup [c] r c

/-- White space that is ignored with the VERBOSE flag. -/
def Blank (c : Nat) : Prop := c = 32 ∨ (9 ≤ c ∧ c ≤ 13)

/-- The regular expression `e` matches the string `s` and no other string: it is a
row of characters and escapes.  With the VERBOSE flag blanks and comments do not count. -/
inductive Reads (lookup : List Nat → Option (List Nat)) (verbose : Bool) :
    List Nat → List Nat → Prop
  | nil : Reads lookup verbose [] []
  | plain {c r s} : ¬ Meta c → (verbose = true → ¬ Blank c ∧ c ≠ 35) →
      Reads lookup verbose r s → Reads lookup verbose (c :: r) (c :: s)
  | escape {w r c s} : Escape lookup w r c → Reads lookup verbose r s →
      Reads lookup verbose (92 :: (w ++ r)) (c :: s)
  | blank {c r s} : verbose = true → Blank c → Reads lookup verbose r s →
      Reads lookup verbose (c :: r) s
  | comment {w r s} : verbose = true → 10 ∉ w → Reads lookup verbose r s →
      Reads lookup verbose (35 :: w ++ 10 :: r) s
  | lastComment {w} : verbose = true → 10 ∉ w → Reads lookup verbose (35 :: w) []

/-- The characters that need a backslash to stand for themselves, and `]` and `}`. -/
def Quotable (c : Nat) : Prop := Meta c ∨ c = 93 ∨ c = 125

/-- A row of characters and escapes (without the VERBOSE flag) where `]` and `}` have a
backslash, and where there is no backslash before other characters that need none. -/
inductive Common (lookup : List Nat → Option (List Nat)) : List Nat → List Nat → Prop
  | nil : Common lookup [] []
  | plain {c r s} : ¬ Quotable c → Common lookup r s → Common lookup (c :: r) (c :: s)
  | escape {w r c s} : Escape lookup w r c → (∀ p, w = [p] → ¬ Alnum p → Quotable p) →
      Common lookup r s → Common lookup (92 :: (w ++ r)) (c :: s)

end Parce.ToS

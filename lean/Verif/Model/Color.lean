/-
Colours: `parce/css.py:1225-1306, 1386-1392`.

A hexadecimal colour is the list of the values of its digits. A float is a fraction with a power of
two below the bar (`Flt`); dividing and multiplying round to 53 bits, to the nearest, ties to even, as
IEEE 754 doubles do. (There is no overflow or underflow for the numbers used here.)
-/

namespace Parce.Col

/-! ## Floats -/

/-- The number `m / 2 ^ e`. -/
structure Flt where
  m : Nat
  e : Nat
deriving DecidableEq

/-- The exponent that gives a quotient of 53 bits. -/
def expo (n d : Nat) : Nat :=
  let k := 53 + d.log2 - n.log2
  if n * 2 ^ k / d < 2 ^ 53 then k else k - 1

/-- `n / d` rounded. -/
def fdiv (n d : Nat) : Flt :=
  if n = 0 then ⟨0, 0⟩ else
    let k := expo n d
    let q := n * 2 ^ k / d
    let r := n * 2 ^ k % d
    ⟨if 2 * r > d ∨ (2 * r = d ∧ q % 2 = 1) then q + 1 else q, k⟩

/-- `f * n` rounded. -/
def fmul (f : Flt) (n : Nat) : Flt := fdiv (f.m * n) (2 ^ f.e)

/-- `int(f)` -/
def trunc (f : Flt) : Nat := f.m / 2 ^ f.e

/-- `f < 1` -/
def ltOne (f : Flt) : Bool := f.m < 2 ^ f.e

def one : Flt := ⟨1, 0⟩

/-- `Color`, `css.py:98-103`. The channels can be -1. -/
structure Color where
  r : Int
  g : Int
  b : Int
  a : Flt
deriving DecidableEq

/-! ## Hexadecimal colours -/

/-- `int(text, 16)` -/
def fromHex (ds : List Nat) : Nat := ds.foldl (fun n d => n * 16 + d) 0

/-- `get_hex_color`, `css.py:1225-1258`. -/
def getHexColor (ds : List Nat) : Color :=
  let c := fromHex ds
  if ds.length = 3 then
    ⟨((c / 256 &&& 15) * 17 : Nat), ((c / 16 &&& 15) * 17 : Nat), ((c &&& 15) * 17 : Nat), one⟩
  else if ds.length = 4 then
    ⟨((c / 4096 &&& 15) * 17 : Nat), ((c / 256 &&& 15) * 17 : Nat), ((c / 16 &&& 15) * 17 : Nat), fdiv ((c &&& 15) * 17) 255⟩
  else if ds.length = 6 then
    ⟨(c / 65536 &&& 255 : Nat), (c / 256 &&& 255 : Nat), (c &&& 255 : Nat), one⟩
  else
    ⟨(c / 16777216 &&& 255 : Nat), (c / 65536 &&& 255 : Nat), (c / 256 &&& 255 : Nat), fdiv (c &&& 255) 255⟩

/-- The digits of a number. -/
def toHex (n : Nat) : List Nat := if n < 16 then [n] else toHex (n / 16) ++ [n % 16]

/-- A number with at least `w` digits: the formats `06x` and `02x`. -/
def padHex (w n : Nat) : List Nat := List.replicate (w - (toHex n).length) 0 ++ toHex n

/-- `color2hex`, `css.py:1386-1392`, without the hash. The result is `none` for a negative number (it would have
    a minus sign). -/
def color2hex (c : Color) : Option (List Nat) :=
  let n := c.r * 65536 + c.g * 256 + c.b
  if n < 0 then none
  else some (padHex 6 n.toNat ++ (if ltOne c.a then padHex 2 (trunc (fmul c.a 255)) else []))

/-! ## The functions rgb and rgba -/

/-- A number in the arguments: an integer, or a decimal fraction, with its unit. Here it is a fraction of
    integers: `num / den`. -/
structure Num where
  num : Int
  den : Nat
  pct : Bool

/-- The arguments: values with a number, and anything else (delimiters, other values). -/
inductive Arg
  | num (n : Num)
  | other

/-- `v.number` is true in Python when it is there and not zero. -/
def Arg.value : Arg → Option Num
  | .num n => if n.num = 0 then none else some n
  | .other => none

/-- `get_number_value`, `css.py:1292-1305`, as a fraction; the maximum is 255 or 1. -/
def numberValue (v : Num) (maximum : Nat) : Int × Nat :=
  let n : Int × Nat := if v.pct then ((v.num * maximum) / (100 * v.den : Int), 1) else (v.num, v.den)
  let n := if n.1 < 0 then (0, 1) else n
  if n.1 > maximum * n.2 then (maximum, 1) else n

/-- A channel: -1 when there is no value any more. -/
def channel (vs : List Num) : Int × Nat := match vs with
  | [] => (-1, 1)
  | v :: _ => numberValue v 255

/-- `get_rgba_color`, `css.py:1279-1290`: the channels and the opacity as fractions. -/
def getRgba (args : List Arg) : (Int × Nat) × (Int × Nat) × (Int × Nat) × (Int × Nat) :=
  let vs := args.filterMap Arg.value
  (channel vs, channel (vs.drop 1), channel (vs.drop 2), match vs.drop 3 with
    | [] => (1, 1)
    | v :: _ => numberValue v 1)

end Parce.Col

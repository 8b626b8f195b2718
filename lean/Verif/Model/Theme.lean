/-
Text formats: `parce/theme.py:186-310`.
-/

namespace Parce.Theme

/-- The properties of a text format, `theme.py:231-247`. -/
inductive Key
  | color | backgroundColor | caretColor
  | textDecorationColor | textDecorationLine | textDecorationStyle
  | fontFamily | fontKerning | fontSize | fontSizeUnit | fontStretch
  | fontStyle | fontStyleAngle | fontStyleAngleUnit
  | fontVariantCaps | fontVariantPosition | fontWeight
deriving DecidableEq

/-- The `__dict__` of a text format: which properties are set, and to what. A property can be set to
    `None` (e.g. the unit when a number has no unit). The value is that of a dictionary as a
    function, dictionaries are equal when these are. -/
abbrev Fmt (V : Type) := Key → Option (Option V)

variable {V : Type}

/-- `TextFormat({})` -/
def Fmt.empty : Fmt V := fun _ => none

/-- `dict[key] = value` -/
def Fmt.set (f : Fmt V) (k : Key) (v : Option V) : Fmt V := fun k' => if k' = k then some v else f k'

/-- `dict.get(key)`: `None` if it is not there. -/
def Fmt.get (f : Fmt V) (k : Key) : Option V := (f k).join

/-- The groups in `__sub__`, `theme.py:269-282`. -/
def groups : List (List Key) :=
  [[.color], [.backgroundColor], [.caretColor],
   [.textDecorationColor, .textDecorationLine, .textDecorationStyle],
   [.fontFamily], [.fontKerning], [.fontSize, .fontSizeUnit], [.fontStretch],
   [.fontStyle, .fontStyleAngle, .fontStyleAngleUnit],
   [.fontVariantCaps], [.fontVariantPosition], [.fontWeight]]

/-- Copying the properties that are there, `theme.py:285-289`. -/
def copyProps (f : Fmt V) (new : Fmt V) (props : List Key) : Fmt V :=
  props.foldl (fun n k => match f k with
    | some v => n.set k v
    | none => n) new

/-- `__sub__`, `theme.py:266-290`. -/
def Fmt.sub [DecidableEq V] (f o : Fmt V) : Fmt V :=
  groups.foldl (fun new props =>
    if props.any (fun k => (f k).isSome) && props.any (fun k => f.get k ≠ o.get k) then copyProps f new props else new) Fmt.empty

/-- `__add__`, `theme.py:292-297`. -/
def Fmt.add (f o : Fmt V) : Fmt V := fun k => match o k with
  | some v => some v
  | none => f k

/-- `__bool__`, `theme.py:262-264`. -/
def Fmt.isSet (f : Fmt V) : Prop := ∃ k, (f k).isSome

/-! ## Reading and writing the font size -/

/-- A value: a known size word, or a number with a unit, or anything else. -/
inductive SizeVal (V : Type)
  | word (w : V)
  | num (n : V) (unit : Option V)
  | other

/-- `read_font_size`, `theme.py:440-450`. -/
def readFontSize (f : Fmt V) : List (SizeVal V) → Fmt V
  | [] => f
  | .word w :: _ => f.set .fontSize (some w)
  | .num n u :: _ => (f.set .fontSize (some n)).set .fontSizeUnit u
  | .other :: vs => readFontSize f vs

/-- The part of `read_font` that handles the numbers, `theme.py:522-528`. -/
def readFontNums [DecidableEq V] (f : Fmt V) : List (V × Option V) → Fmt V
  | [] => f
  | [(n, u)] => (f.set .fontSize (some n)).set .fontSizeUnit u
  | (w, _) :: (n, u) :: _ =>
    let f := if f.get .fontWeight = none then f.set .fontWeight (some w) else f
    (f.set .fontSize (some n)).set .fontSizeUnit u

/-- The part of `write_font` for the font size, `theme.py:339-341`: the size and the unit that is written
    behind it. A size that is false (zero) is not written. -/
def writeFontSize (truthy : V → Bool) (f : Fmt V) : Option (V × Option V) :=
  match f.get .fontSize with
  | some s => if truthy s then some (s, f.get .fontSizeUnit) else none
  | none => none

end Parce.Theme

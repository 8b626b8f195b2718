/-
Reading a text format from CSS properties and writing it (parce/theme.py:233-528).
Words are strings, `N` are the numbers, `C` the colours.
-/

namespace Parce.TF

variable {N C : Type}

/-- A value of a CSS property (css.py:1309-1353), with the attributes that text formats use. -/
structure Val (N C : Type) where
  text : Option String := none
  number : Option N := none
  unit : Option String := none
  color : Option C := none
  quoted : Bool := false

/-- A word or a number. -/
inductive WN (N : Type) where
  | word (s : String)
  | num (n : N)

/-- The attributes of a text format (theme.py:233-249): `none` is an attribute that is not set, so
that equal formats (theme.py:299-305) are equal here.  A unit that is set can be None. -/
structure Fmt (N C : Type) where
  color : Option C := none
  background : Option C := none
  caret : Option C := none
  decoColor : Option C := none
  decoLine : Option (List String) := none
  decoStyle : Option String := none
  family : Option (List String) := none
  kerning : Option String := none
  size : Option (WN N) := none
  sizeUnit : Option (Option String) := none
  stretch : Option (WN N) := none
  style : Option String := none
  angle : Option N := none
  angleUnit : Option (Option String) := none
  caps : Option String := none
  position : Option String := none
  weight : Option (WN N) := none

/-- `v.text in words`. -/
def Val.isIn (v : Val N C) (ws : List String) : Bool :=
  match v.text with
  | some s => ws.contains s
  | none => false

def decoWords : List String := ["underline", "overline", "line-through"]
def decoStyles : List String := ["solid", "double", "dotted", "dashed", "wavy"]
def families : List String := ["serif", "sans-serif", "monospace", "cursive", "fantasy", "system-ui",
  "math", "emoji", "fangsong"]
def kernings : List String := ["auto", "normal", "none"]
def sizes : List String := ["xx-small", "x-small", "small", "medium", "large", "x-large", "xx-large",
  "xxx-large", "larger", "smaller"]
def stretches : List String := ["ultra-condensed", "extra-condensed", "condensed", "semi-condensed",
  "semi-expanded", "expanded", "extra-expanded", "ultra-expanded"]
def capsWords : List String := ["normal", "small-caps", "all-small-caps", "petite-caps",
  "all-petite-caps", "unicase", "titling-caps"]
def positions : List String := ["normal", "sub", "super"]
def weights : List String := ["normal", "bold", "lighter", "bolder"]
def systemFonts : List String := ["caption", "icon", "menu", "message-box", "small-caption", "status-bar"]

/-- The first colour: the loops of `read_color` and the like (theme.py:359-389). -/
def firstColor (old : Option C) : List (Val N C) → Option C
  | [] => old
  | v :: vs =>
    match v.color with
    | some c => some c
    | none => firstColor old vs

/-- The first word of a list of words (theme.py:401-406, 432-437, 477-490). -/
def firstWord (ws : List String) (old : Option String) : List (Val N C) → Option String
  | [] => old
  | v :: vs => if v.isIn ws then v.text else firstWord ws old vs

/-- The loop of `read_text_decoration_line` (theme.py:391-399). -/
def decos (acc : List String) : List (Val N C) → List String
  | [] => acc
  | v :: vs =>
    if v.isIn decoWords then decos (acc ++ v.text.toList) vs
    else if v.isIn ["none"] then decos [] vs
    else decos acc vs

/-- The loop of `read_font_family` (theme.py:414-430). -/
def fams : List (Val N C) → List String
  | [] => []
  | v :: vs =>
    match v.text with
    | some s => if s ≠ "" ∧ (v.quoted ∨ families.contains s) then s :: fams vs else fams vs
    | none => fams vs

/-- `read_font_size` (theme.py:439-450). -/
def readSize (f : Fmt N C) : List (Val N C) → Fmt N C
  | [] => f
  | v :: vs =>
    if v.isIn sizes then { f with size := v.text.map .word }
    else
      match v.number with
      | some n => { f with size := some (.num n), sizeUnit := some v.unit }
      | none => readSize f vs

/-- `read_font_stretch` (theme.py:452-460): the last one counts. -/
def readStretch (f : Fmt N C) : List (Val N C) → Fmt N C
  | [] => f
  | v :: vs =>
    if v.isIn stretches then readStretch { f with stretch := v.text.map .word } vs
    else
      match v.number with
      | some n =>
        if v.unit = some "%" then readStretch { f with stretch := some (.num n) } vs
        else readStretch f vs
      | none => readStretch f vs

/-- The loop of `read_font_style` (theme.py:464-475). -/
def styleLoop (f : Fmt N C) : List (Val N C) → Fmt N C
  | [] => f
  | v :: vs =>
    if v.isIn ["normal", "italic"] then { f with style := v.text }
    else if v.isIn ["oblique"] then
      match vs with
      | [] => { f with style := v.text }
      | n :: _ =>
        match n.number with
        | some x => { f with style := v.text, angle := some x, angleUnit := some n.unit }
        | none => styleLoop { f with style := v.text } vs
    else styleLoop f vs

/-- `read_font_style` (theme.py:462-475); `none` is the IndexError for an empty list. -/
def readStyle (f : Fmt N C) (vs : List (Val N C)) : Option (Fmt N C) :=
  match vs with
  | [] => none
  | _ => some (styleLoop f vs)

/-- `read_font_weight` (theme.py:492-500). -/
def readWeight (f : Fmt N C) : List (Val N C) → Fmt N C
  | [] => f
  | v :: vs =>
    if v.isIn weights then { f with weight := v.text.map .word }
    else
      match v.number with
      | some n => { f with weight := some (.num n) }
      | none => readWeight f vs

/-- The loop of `read_font` (theme.py:504-520): the format, the numbers, and whether it returned. -/
def fontLoop (f : Fmt N C) (nums : List (N × Option String)) :
    List (Val N C) → Fmt N C × List (N × Option String) × Bool
  | [] => (f, nums, false)
  | v :: vs =>
    if v.isIn systemFonts then ({ f with family := some v.text.toList }, nums, true)
    else if v.isIn ["normal", "small-caps"] then fontLoop { f with caps := v.text } nums vs
    else if v.isIn stretches then fontLoop { f with stretch := v.text.map .word } nums vs
    else if v.isIn ["bold", "lighter", "bolder"] then fontLoop { f with weight := v.text.map .word } nums vs
    else
      match v.number with
      | some n => fontLoop f (nums ++ [(n, v.unit)]) vs
      | none => fontLoop f nums vs

/-- `read_font` (theme.py:502-528). -/
def readFont (f : Fmt N C) (vs : List (Val N C)) : Option (Fmt N C) :=
  match readStyle f vs with
  | none => none
  | some f =>
    match fontLoop f [] vs with
    | (f, _, true) => some f
    | (f, nums, false) =>
      let f := { f with family := some (fams vs) }
      match nums with
      | [] => some f
      | [(n, u)] => some { f with size := some (.num n), sizeUnit := some u }
      | (w, _) :: (n, u) :: _ =>
        let f := match f.weight with
          | none => { f with weight := some (.num w) }
          | some _ => f
        some { f with size := some (.num n), sizeUnit := some u }

/-- `self._dispatch(prop, values)` (theme.py:258-260 and the decorators). -/
def readProp (f : Fmt N C) (prop : String) (vs : List (Val N C)) : Option (Fmt N C) :=
  if prop = "color" then some { f with color := firstColor f.color vs }
  else if prop = "background-color" ∨ prop = "background" then
    some { f with background := firstColor f.background vs }
  else if prop = "caret-color" then some { f with caret := firstColor f.caret vs }
  else if prop = "text-decoration-color" then some { f with decoColor := firstColor f.decoColor vs }
  else if prop = "text-decoration-line" then some { f with decoLine := some (decos [] vs) }
  else if prop = "text-decoration-style" then
    some { f with decoStyle := firstWord decoStyles f.decoStyle vs }
  else if prop = "text-decoration" then
    some { f with decoColor := firstColor f.decoColor vs, decoLine := some (decos [] vs),
                  decoStyle := firstWord decoStyles f.decoStyle vs }
  else if prop = "font-family" then some { f with family := some (fams vs) }
  else if prop = "font-kerning" then some { f with kerning := firstWord kernings f.kerning vs }
  else if prop = "font-size" then some (readSize f vs)
  else if prop = "font-stretch" then some (readStretch f vs)
  else if prop = "font-style" then readStyle f vs
  else if prop = "font-variant-caps" then some { f with caps := firstWord capsWords f.caps vs }
  else if prop = "font-variant-position" then
    some { f with position := firstWord positions f.position vs }
  else if prop = "font-weight" then some (readWeight f vs)
  else if prop = "font" then readFont f vs
  else some f

/-- Reading all properties (theme.py:258-260). -/
def readAll (f : Fmt N C) : List (String × List (Val N C)) → Option (Fmt N C)
  | [] => some f
  | (p, vs) :: ps =>
    match readProp f p vs with
    | none => none
    | some f => readAll f ps

/-- `TextFormat(properties)`. -/
def read (ps : List (String × List (Val N C))) : Option (Fmt N C) := readAll {} ps

/-- What is written (a unit is not the empty string): a word, a string in quotes, a number with a unit, or a colour. -/
inductive W (N C : Type) where
  | word (s : String)
  | quoted (s : String)
  | num (n : N) (unit : Option String)
  | hex (c : C)

/-- `write_color` (theme.py:315-322). -/
def writeColor (f : Fmt N C) : List (String × List (W N C)) :=
  (f.color.toList.map (fun c => ("color", [W.hex c]))) ++
  (f.background.toList.map (fun c => ("background-color", [W.hex c]))) ++
  (f.caret.toList.map (fun c => ("caret-color", [W.hex c])))

/-- `write_text_decoration` (theme.py:324-333). -/
def writeDeco (f : Fmt N C) : List (String × List (W N C)) :=
  match (f.decoLine.getD []).map W.word ++ f.decoStyle.toList.map W.word ++ f.decoColor.toList.map W.hex with
  | [] => []
  | ps => [("text-decoration", ps)]

/-- A property that is a word, if it is set (theme.py:350-355). -/
def writeWord (p : String) (o : Option String) : List (String × List (W N C)) :=
  o.toList.map (fun s => (p, [.word s]))

/-- `format(x)` of a word or number that is not false (theme.py:339-341, 348-349, 356-357), with a unit behind it. -/
def writeWN (zero : N → Bool) (p : String) (o : Option (WN N)) (unit : Option String) :
    List (String × List (W N C)) :=
  match o with
  | some (.word s) => [(p, [.word (s ++ unit.getD "")])]
  | some (.num n) => if zero n then [] else [(p, [.num n unit])]
  | none => []

/-- The family names: `quote_if_needed` (css.py:1395-1400); `plain` says which names are written
without quotes (`[\w-]+`). -/
def writeFamily (plain : String → Bool) (f : Fmt N C) : List (String × List (W N C)) :=
  match f.family.getD [] with
  | [] => []
  | fs => [("font-family", fs.map (fun s => if plain s then .word s else .quoted s))]

/-- The font style (theme.py:342-347). -/
def writeStyle (zero : N → Bool) (f : Fmt N C) : List (String × List (W N C)) :=
  match f.style with
  | none => []
  | some s =>
    match (if s = "oblique" then f.angle else none) with
    | some a =>
      if zero a then [("font-style", [.word s])]
      else [("font-style", [.word "oblique", .num a (f.angleUnit.getD none)])]
    | none => [("font-style", [.word s])]

/-- `css_properties` (theme.py:307-357). -/
def write (plain : String → Bool) (zero : N → Bool) (f : Fmt N C) : List (String × List (W N C)) :=
  writeColor f ++ writeDeco f ++ writeFamily plain f ++
  writeWN zero "font-size" f.size (f.sizeUnit.getD none) ++ writeStyle zero f ++
  writeWN zero "font-stretch" f.stretch none ++ writeWord "font-kerning" f.kerning ++
  writeWord "font-variant-caps" f.caps ++ writeWord "font-variant-position" f.position ++
  writeWN zero "font-weight" f.weight none

/-- What a written value is when it is read.  Simplifications: the text of a number or colour is no
word of the lists above, so it is left out; `color` is what becomes of a colour that is written in
hexadecimal digits (see C55).  (Reading strings in quotes raises an exception, see C94; here they
are read.) -/
def W.read (color : C → C) : W N C → Val N C
  | .word s => { text := some s }
  | .quoted s => { text := some s, quoted := true }
  | .num n u => { number := some n, unit := u }
  | .hex c => { color := some (color c) }

/-- The properties when they are read again. -/
def reread (color : C → C) (ps : List (String × List (W N C))) : List (String × List (Val N C)) :=
  ps.map (fun p => (p.1, p.2.map (W.read color)))

end Parce.TF

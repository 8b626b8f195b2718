/-
The themes of formatters (parce/formatter.py:110-145 and 353-420).
`T` are the themes, `X` the text formats of themes, `F` what the factory makes of them, `G` the
languages, `A` the actions and `R` the roles with their states.
-/

namespace Parce.Thm

/-- What a theme gives, and how text formats are added (`base_ + theme.textformat(action)`). -/
structure Themes (T X A R : Type) where
  textformat : T → A → X
  baseformat : T → R → X
  window : R
  unparsed : A
  add : X → X → X

variable {T X F G A R : Type}

/-- A `FormatCache` (formatter.py:53-88). The caching of the functions is left out: they give the
same value every time. -/
structure Cache (T F A R : Type) where
  theme : Option T
  base : Option F
  textformat : A → Option F
  baseformat : R → Option F
  unparsed : Option F

/-- A dictionary from languages to caches; `none` is the default. -/
abbrev Caches (T F G A R : Type) := List (Option G × Cache T F A R)

/-- `d[key] = value`. -/
def put [DecidableEq G] (k : Option G) (c : Cache T F A R) : Caches T F G A R → Caches T F G A R
  | [] => [(k, c)]
  | (k', c') :: d => if k' = k then (k, c) :: d else (k', c') :: put k c d

/-- `d[key]`; `none` is the KeyError. -/
def look [DecidableEq G] (k : Option G) : Caches T F G A R → Option (Cache T F A R)
  | [] => none
  | (k', c) :: d => if k' = k then some c else look k d

/-- `del d[key]`; `none` is the KeyError. -/
def del [DecidableEq G] (k : Option G) : Caches T F G A R → Option (Caches T F G A R)
  | [] => none
  | (k', c) :: d => if k' = k then some d else (del k d).map ((k', c) :: ·)

/-- The cache that `add_theme` makes (formatter.py:380-398). -/
def mkCache (th : Themes T X A R) (factory : X → Option F) (t : T) (addBase : Bool) : Cache T F A R where
  theme := some t
  base := if addBase then factory (th.baseformat t th.window) else none
  textformat a :=
    if addBase then factory (th.add (th.baseformat t th.window) (th.textformat t a))
    else factory (th.textformat t a)
  baseformat r := factory (th.baseformat t r)
  unparsed := factory (th.textformat t th.unparsed)

/-- Several formatters, each with its factory and its caches. -/
structure State (T X F G A R : Type) where
  factory : Nat → X → Option F
  caches : Nat → Caches T F G A R

/-- Change the caches of one formatter. -/
def State.set (s : State T X F G A R) (i : Nat) (d : Caches T F G A R) : State T X F G A R :=
  { s with caches := fun j => if j = i then d else s.caches j }

/-- `add_theme` (formatter.py:369-398). -/
def addTheme [DecidableEq G] (th : Themes T X A R) (i : Nat) (t : T) (lang : Option G) (addBase : Bool)
    (s : State T X F G A R) : State T X F G A R :=
  s.set i (put lang (mkCache th (s.factory i) t addBase) (s.caches i))

/-- `get_theme` (formatter.py:400-410). -/
def getTheme [DecidableEq G] (i : Nat) (lang : Option G) (s : State T X F G A R) : Option T :=
  (look lang (s.caches i)).bind (·.theme)

/-- `remove_theme` (formatter.py:412-414); `none` is the KeyError. -/
def removeTheme [DecidableEq G] (i : Nat) (lang : Option G) (s : State T X F G A R) : Option (State T X F G A R) :=
  (del lang (s.caches i)).map (s.set i)

/-- `textformat` (formatter.py:128-145). -/
def textformat [DecidableEq G] (i : Nat) (lang : Option G) (a : A) (s : State T X F G A R) : Option F :=
  (look lang (s.caches i)).bind (fun c => c.textformat a)

/-- `baseformat` (formatter.py:110-126). -/
def baseformat [DecidableEq G] (i : Nat) (lang : Option G) (r : R) (s : State T X F G A R) : Option F :=
  (look lang (s.caches i)).bind (fun c => c.baseformat r)

/-- The loop of `copy_themes` (formatter.py:419-420); the second component is whether it raised: a
cache without theme (of `SimpleFormatter`, formatter.py:443-450) gives an AttributeError. -/
def copyLoop [DecidableEq G] (th : Themes T X A R) (i : Nat) :
    Caches T F G A R → State T X F G A R → State T X F G A R × Bool
  | [], s => (s, false)
  | (k, c) :: d, s =>
    match c.theme with
    | some t => copyLoop th i d (addTheme th i t k c.base.isSome s)
    | none => (s, true)

/-- `copy_themes` (formatter.py:416-420): formatter `i` gets the themes of formatter `j`. The caches
of `j` are read after those of `i` are cleared. -/
def copyThemes [DecidableEq G] (th : Themes T X A R) (i j : Nat) (s : State T X F G A R) :
    State T X F G A R × Bool :=
  let s := s.set i []
  copyLoop th i (s.caches j) s

end Parce.Thm

/-!
# Model of the classes found beside a language, parce/util.py:796-820

Classes and modules are of any type. A module has a dictionary of names; what is not a class is left out of it (`isinstance(cls, type)`).
Simplified: classes are always true, and the modules have no `__getattr__`.
-/
namespace Parce.Sis

/-- The classes of a program: `mro()`, `__name__`, `__module__`, `sys.modules` and the attributes of the modules that are classes. -/
structure Classes (C M : Type) where
  mro : C → List C
  name : C → List Nat
  modOf : C → M
  loaded : M → Bool
  attr : M → List Nat → Option C

variable {C M : Type} [DecidableEq C]

/-- `issubclass`. -/
def Classes.sub (k : Classes C M) (c base : C) : Bool := (k.mro c).contains base

/-- The loop, `util.py:815-820`. The outer `none` is a KeyError of `sys.modules`, the inner one is None. -/
def sisterLoop (k : Classes C M) (template : List Nat → List Nat) (base : C) : List C → Option (Option C)
  | [] => some none
  | l :: ls =>
    if k.loaded (k.modOf l) then
      match k.attr (k.modOf l) (template (k.name l)) with
      | some c => if k.sub c base then some (some c) else sisterLoop k template base ls
      | none => sisterLoop k template base ls
    else none

/-- `language_sister_class`, `util.py:796-820`. -/
def sister (k : Classes C M) (lang : C) (template : List Nat → List Nat) (base : C) (tryParents : Bool) : Option (Option C) :=
  sisterLoop k template base (if tryParents then (k.mro lang).take ((k.mro lang).length - 2) else [lang])

/-- A template with the name before this text, as in `"{}IO"`. -/
def suffix (s : List Nat) (n : List Nat) : List Nat := n ++ s

/-- `IO.get`, `docio.py:182-190`, called on the class `cls`: the class of the handler, for the language of a lexicon or None. -/
def ioGet (k : Classes C M) (io cls : C) : Option C → Option C
  | none => some cls
  | some lang => (sister k lang (suffix [73, 79]) io true).map (·.getD cls)

/-- `Indenter.find_indent`, `indent.py:358-372`: the class of the indenter, for the template `"{}Indent"`. -/
def findIndent (k : Classes C M) (indent lang : C) : Option (Option C) := sister k lang (suffix [73, 110, 100, 101, 110, 116]) indent true

/-- `Transformer.find_transform`, `transform.py:453-470`: the class of the transform, for the template `"{}Transform"`. -/
def findTransform (k : Classes C M) (transform lang : C) : Option (Option C) :=
  sister k lang (suffix [84, 114, 97, 110, 115, 102, 111, 114, 109]) transform false

end Parce.Sis

import Verif.Model.Re
import Verif.Model.Transform
/-!
# Model of parce/lang/json.py

Characters are code points. What `\d`, `\s` and `\w` match is a parameter (it is part of Python's
tables of Unicode). The values of numbers, computed by `float()`, are a parameter too.
-/
namespace Parce.Json

/-- The classes of characters of the module `re`. -/
structure Uni where
  digit : Nat → Bool
  space : Nat → Bool
  word : Nat → Bool

/-- The code points of a string. -/
def str (s : String) : List Nat := s.toList.map Char.toNat

/-- The lexicons, `json.py:60-99`. -/
inductive JL where
  | root | object | key | value | array | string
deriving DecidableEq, Repr

/-- The actions, `json.py:37`; `none` stands for no action. -/
inductive JA where
  | delimiter | start | stop | escape | string | number | constant | skip | none
deriving DecidableEq, Repr

/-- A rule without dynamic items. -/
def rule (p : Pat Nat) (a : JA) (t : Option (Target JL) := none) : PRule Nat JL JA := ⟨p, fun _ _ => (a, t)⟩

def chr (s : String) : Pat Nat := Pat.str (str s)

/-- `-?\d+(?:\.\d+)?(?:[Ee][+-]?\d+)?`, `json.py:69`. -/
def number (u : Uni) : Pat Nat :=
  .cat (.opt (chr "-")) (.cat (.plus (.set u.digit)) (.cat (.opt (.cat (chr ".") (.plus (.set u.digit))))
    (.opt (.cat (.set fun c => c == 69 || c == 101) (.cat (.opt (.set fun c => c == 43 || c == 45)) (.plus (.set u.digit)))))))

/-- `words(JSON_CONSTANTS, r'\b', r'\b')`, `json.py:70`. (`words2regexp` may write the words in
    another order; no text begins with two of them.) -/
def constant (u : Uni) : Pat Nat :=
  .cat (.bound u.word) (.cat (.alts [chr "true", chr "false", chr "null"]) (.bound u.word))

/-- `values`, `json.py:64-70`. -/
def values (u : Uni) : List (PRule Nat JL JA) :=
  [rule (chr "{") .delimiter (some ⟨0, [.object]⟩),
   rule (chr "[") .delimiter (some ⟨0, [.array]⟩),
   rule (chr "\"") .start (some ⟨0, [.string]⟩),
   rule (number u) .number,
   rule (constant u) .constant]

def isHex (c : Nat) : Bool := (48 ≤ c && c ≤ 57) || (97 ≤ c && c ≤ 102) || (65 ≤ c && c ≤ 70)

/-- `'\\(?:'+ chars(JSON_ESCAPE_CHARS) + '|u[0-9a-fA-F]{4})'`, `json.py:98`, `48-57`. -/
def escape : Pat Nat :=
  .cat (chr "\\") (.alt (.set fun c => (str "bfnrt\"/\\").contains c) (.cat (chr "u") ((Pat.set isHex).times 4)))

/-- The rules of the lexicons, `json.py:60-99`, and what is done with other text. -/
def rules (u : Uni) : JL → List (PRule Nat JL JA)
  | .root => values u
  | .object => [rule (chr "}") .delimiter (some ⟨1, []⟩), rule (.plus (.set u.space)) .skip]
  | .key => [rule (chr "\"") .start (some ⟨0, [.string]⟩), rule (chr ":") .delimiter (some ⟨1, [.value]⟩)]
  | .value => values u ++ [rule (chr ",") .delimiter (some ⟨1, []⟩), rule (chr "}") .delimiter (some ⟨2, []⟩)]
  | .array => values u ++ [rule (chr ",") .delimiter, rule (chr "]") .delimiter (some ⟨1, []⟩)]
  | .string => [rule (chr "\"") .stop (some ⟨1, []⟩), rule escape .escape]

def dflt : JL → Dflt Nat JL JA
  | .object => .target ⟨0, [.key]⟩
  | .string => .action fun _ => .string
  | _ => .skip

/-- The language `Json`, `json.py:59-99`. -/
def lang (u : Uni) : Lang Nat JL JA RM := patLang .none (· == .skip) (fun _ => false) (rules u) dflt

/-! ### The transform -/

/-- Python values. -/
inductive PV (F : Type) where
  | none
  | bool (b : Bool)
  | int (i : Int)
  | float (f : F)
  | str (s : List Nat)
  | list (l : List (PV F))
  | dict (l : List (PV F × PV F))

/-- `float`, `float.is_integer` and `int` of a float. -/
structure Floats (F : Type) where
  float : List Nat → F
  isInteger : F → Bool
  toInt : F → Int

variable {F : Type}

/-- `json.py:112-116`. -/
def numVal (f : Floats F) (w : List Nat) : PV F :=
  if f.isInteger (f.float w) then .int (f.toInt (f.float w)) else .float (f.float w)

/-- `JSON_CONSTANTS[...]`, `json.py:42-46`. -/
def constVal (w : List Nat) : PV F :=
  if w = str "true" then .bool true else if w = str "false" then .bool false else .none

/-- An item of an item list. -/
abbrev Itm (F : Type) := TItm Nat JL JA (PV F) JL

/-- `values`, `json.py:108-120`. (Untransformed contexts do not occur.) -/
def valuesOf (f : Floats F) : List (Itm F) → List (PV F)
  | [] => []
  | .tok t :: is =>
    if t.act = .number then numVal f t.text :: valuesOf f is
    else if t.act = .constant then constVal t.text :: valuesOf f is
    else valuesOf f is
  | .item _ v :: is => v :: valuesOf f is
  | .raw _ :: is => valuesOf f is

/-- The value of a hexadecimal digit. -/
def hexVal (c : Nat) : Nat := if c ≤ 57 then c - 48 else if c ≤ 70 then c - 55 else c - 87

/-- `JSON_ESCAPE_CHARS`, `json.py:48-57`. -/
def escVal (c : Nat) : Nat :=
  if c = 98 then 8 else if c = 102 then 12 else if c = 110 then 10 else if c = 114 then 13 else if c = 116 then 9 else c

/-- The characters of a token of a string, `json.py:141-148`. -/
def strPart (t : TokN Nat JA) : List Nat :=
  if t.act = .escape then
    if t.text[1]? = some 117 then [(t.text.drop 2).foldl (fun n c => 16 * n + hexVal c) 0]
    else [escVal ((t.text[1]?).getD 0)]
  else t.text

/-- The tokens of an item list. -/
def toksOf : List (Itm F) → List (TokN Nat JA)
  | [] => []
  | .tok t :: is => t :: toksOf is
  | _ :: is => toksOf is

/-- `string`, `json.py:137-149`. -/
def stringOf (is : List (Itm F)) : PV F :=
  let ts := toksOf is
  let ts := if (ts.getLast?.map (·.act)) = some .stop then ts.dropLast else ts
  .str (ts.flatMap strPart)

/-- Equality of keys; only strings and None occur as keys. -/
def sameKey : PV F → PV F → Bool
  | .str a, .str b => a == b
  | .none, .none => true
  | _, _ => false

/-- `d[k] = v`: an equal key keeps its place and gets the new value. -/
def dictSet : List (PV F × PV F) → PV F → PV F → List (PV F × PV F)
  | [], k, v => [(k, v)]
  | (k', v') :: l, k, v =>
    if sameKey k' k then (k', v) :: l
    else (k', v') :: dictSet l k v

def orNone : Option (PV F) → PV F
  | some v => v
  | Option.none => .none

/-- `dict(items.grouped_objects("key", "value"))`, `json.py:122-123`. -/
def objectOf (is : List (Itm F)) : PV F :=
  .dict ((groupedObjects [JL.key, JL.value] (itemsOfList JL.root (fun _ => .none) is)).foldl
    (fun d g => match g with
      | [k, v] => dictSet d (orNone k) (orNone v)
      | _ => d) [])

/-- `key`, `json.py:125-128`. -/
def keyOf : List (Itm F) → PV F
  | [] => .none
  | .item .string v :: _ => v
  | _ :: is => keyOf is

/-- The first one of the values, `json.py:104-106`, `130-132`. -/
def firstOf (f : Floats F) (is : List (Itm F)) : PV F := orNone (valuesOf f is).head?

/-- `JsonTransform`, `json.py:102-149`. -/
def method (f : Floats F) : JL → Meth Nat JL JA (PV F) JL
  | .root => ⟨fun il => firstOf f il.elems, false⟩
  | .object => ⟨fun il => objectOf il.elems, false⟩
  | .key => ⟨fun il => keyOf il.elems, false⟩
  | .value => ⟨fun il => firstOf f il.elems, false⟩
  | .array => ⟨fun il => .list (valuesOf f il.elems), false⟩
  | .string => ⟨fun il => stringOf il.elems, false⟩

def env (f : Floats F) : TrEnv Nat JL JA (PV F) Unit JL where
  language _ := ()
  name l := l
  find _ l := some (method f l)

end Parce.Json

import Verif.Model.ReGroup
import Verif.Model.Transform
/-!
# Model of parce/lang/csv.py

Characters are code points. What `\s` matches is a parameter.
-/
namespace Parce.Csv

/-- The code points of a string. -/
def str (s : String) : List Nat := s.toList.map Char.toNat

/-- The lexicons, `csv.py:37-55`. -/
inductive CL where
  | root | record | string
deriving DecidableEq, Repr

/-- The actions. `opening` and `closing` are the two `bygroup(...)`; `none` stands for no action. -/
inductive CA where
  | name | separator | start | stop | invalid | escape | string | skip | opening | closing | none
deriving DecidableEq, Repr

/-- `csv.py:47` and `csv.py:54`. -/
def groups : CA → Option (List CA)
  | .opening => some [.invalid, .start]
  | .closing => some [.stop, .invalid]
  | _ => .none

def rule (p : Pat Nat) (a : CA) (t : Option (Target CL) := none) : PRule Nat CL CA := ⟨p, fun _ _ => (a, t)⟩

/-- `$`, with MULTILINE. -/
def dollar : Pat Nat := .test (fun t p => t.length ≤ p || t[p]? == some 10)

/-- `[ \t]` -/
def blank (c : Nat) : Bool := c == 32 || c == 9

/-- `[^,"\s]` -/
def junk (space : Nat → Bool) (c : Nat) : Bool := !(c == 44 || c == 34 || space c)

/-- `$\n?`, `csv.py:45`. -/
def eolPat : Pat Nat := .cat dollar (.opt (.chr 10))

/-- `[^,"\n]+(?=$|,|\n)`, `csv.py:46`. -/
def namePat : Pat Nat :=
  .cat (.plus (.set fun c => !(c == 44 || c == 34 || c == 10))) (.look false (.alt dollar (.alt (.chr 44) (.chr 10))))

/-- `[ \t]*((?:[^,"\s]+[ \t]*)+)?(")`, `csv.py:47`. -/
def openPat (space : Nat → Bool) : Pat Nat :=
  .cat (.star (.set blank)) (.cat (.opt (.grp 1 (.plus (.cat (.plus (.set (junk space))) (.star (.set blank))))))
    (.grp 2 (.chr 34)))

/-- `(")[ \t]*([^,"\s]+)?`, `csv.py:54`. -/
def closePat (space : Nat → Bool) : Pat Nat :=
  .cat (.grp 1 (.chr 34)) (.cat (.star (.set blank)) (.opt (.grp 2 (.plus (.set (junk space))))))

/-- The rules, `csv.py:37-55`. -/
def rules (space : Nat → Bool) : CL → List (PRule Nat CL CA)
  | .root => []
  | .record =>
    [rule eolPat .skip (some ⟨1, []⟩),
     rule namePat .name,
     rule (openPat space) .opening (some ⟨0, [.string]⟩),
     rule (Pat.str [44]) .separator]
  | .string =>
    [rule (Pat.str [34, 34]) .escape,
     rule (closePat space) .closing (some ⟨1, []⟩)]

def dflt : CL → Dflt Nat CL CA
  | .root => .target ⟨0, [.record]⟩
  | .record => .skip
  | .string => .action fun _ => .string

/-- The language `Csv`, `csv.py:35-55`. -/
def lang (space : Nat → Bool) : Lang Nat CL CA RM :=
  grpLang .none (· == .skip) groups (· == .string) (rules space) dflt

/-! ### The transform -/

/-- Python values; `error` stands for an exception that was raised. -/
inductive CV where
  | none
  | str (s : List Nat)
  | tuple (l : List CV)
  | list (l : List CV)
  | error

abbrev Itm := TItm Nat CL CA CV CL

/-- `item == ','`: for a token the text is compared, `tree.py:432-435`; an Item is a tuple. -/
def isComma : Itm → Bool
  | .tok t => t.text == [44]
  | _ => false

/-- `split_list(items, ',')`, `util.py:737-750` (by walking through the list once). -/
def splitItems : List Itm → List (List Itm)
  | [] => [[]]
  | x :: xs =>
    if isComma x then [] :: splitItems xs
    else match splitItems xs with
      | [] => [[x]]
      | l :: ls => (x :: l) :: ls

/-- One field, `csv.py:84-86`. -/
def fieldOf : List Itm → CV
  | [] => .none
  | .tok t :: _ => .str t.text
  | .item _ v :: _ => v
  | .raw _ :: _ => .none

def CV.isError : CV → Bool
  | .error => true
  | _ => false

/-- An exception was raised for one of the items. -/
def failed (is : List Itm) : Bool := is.any (fun i => match i with
  | .item _ v => v.isError
  | _ => false)

/-- `record`, `csv.py:76-87`. -/
def recordOf (is : List Itm) : CV := if failed is then .error else .tuple ((splitItems is).map fieldOf)

/-- `[i.obj for i in items]`, `csv.py:72-74`. -/
def objs : List Itm → List CV
  | [] => []
  | .item _ v :: is => v :: objs is
  | _ :: is => objs is

/-- `root`, `csv.py:72-74`. (A token has no attribute `obj`; tokens do not occur there.) -/
def rootOf (is : List Itm) : CV := if failed is then .error else .list (objs is)

/-- The tokens of an item list. (A string contains nothing else.) -/
def toksOf : List Itm → List (TokN Nat CA)
  | [] => []
  | .tok t :: is => t :: toksOf is
  | _ :: is => toksOf is

/-- `string`, `csv.py:89-103`; IndexError if there are only tokens that open the string. -/
def stringOf (is : List Itm) : CV :=
  match (toksOf is).dropWhile (fun t => t.act == .invalid || t.act == .start) with
  | [] => .error
  | t :: ts =>
    .str ((((t :: ts).reverse.dropWhile (fun t => t.act == .stop || t.act == .invalid)).reverse).flatMap
      (fun t => if t.act = .escape then [34] else t.text))

/-- `CsvTransform`, `csv.py:58-103`. -/
def method : CL → Meth Nat CL CA CV CL
  | .root => ⟨fun il => rootOf il.elems, false⟩
  | .record => ⟨fun il => recordOf il.elems, false⟩
  | .string => ⟨fun il => stringOf il.elems, false⟩

def env : TrEnv Nat CL CA CV Unit CL where
  language _ := ()
  name l := l
  find _ l := some (method l)

end Parce.Csv

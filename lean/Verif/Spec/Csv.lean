import Verif.Model.Csv
/-!
# CSV texts (RFC 4180) and the records they stand for
-/
namespace Parce.Csv

/-- A field of a record: written plainly, or between quotes. -/
inductive Field where
  | plain (w : List Nat)
  | quoted (w : List Nat)
deriving DecidableEq, Repr

/-- Inside quotes, a quote is written twice. -/
def doubled : List Nat → List Nat
  | [] => []
  | c :: w => (if c = 34 then [34, 34] else [c]) ++ doubled w

/-- The text of a field. -/
def Field.text : Field → List Nat
  | .plain w => w
  | .quoted w => [34] ++ doubled w ++ [34]

/-- A plain field contains no comma, no quote, and no characters of line ends. -/
def Field.ok (eol : List Nat) : Field → Prop
  | .plain w => ∀ c ∈ w, c ≠ 44 ∧ c ≠ 34 ∧ c ∉ eol
  | .quoted _ => True

/-- What a field stands for. An empty one, not even between quotes, is `None`. -/
def Field.value : Field → CV
  | .plain [] => .none
  | .plain w => .str w
  | .quoted w => .str w

/-- One or more fields, with commas between them. -/
inductive Rec (eol : List Nat) : List Field → List Nat → Prop
  | one {f : Field} : f.ok eol → Rec eol [f] f.text
  | cons {f : Field} {fs : List Field} {t : List Nat} : f.ok eol → Rec eol fs t → Rec eol (f :: fs) (f.text ++ [44] ++ t)

/-- Records, with a line end after each of them; the one after the last record may be left out. -/
inductive Table (eol : List Nat) : List (List Field) → List Nat → Prop
  | nil : Table eol [] []
  | last {r : List Field} {t : List Nat} : Rec eol r t → Table eol [r] t
  | cons {r : List Field} {rs : List (List Field)} {t ts : List Nat} : Rec eol r t → Table eol rs ts → Table eol (r :: rs) (t ++ eol ++ ts)

/-- The value of a table: a list of tuples. -/
def tableValue (rs : List (List Field)) : CV := .list (rs.map fun r => .tuple (r.map Field.value))

end Parce.Csv

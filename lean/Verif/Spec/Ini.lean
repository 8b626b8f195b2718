import Verif.Model.Ini
/-!
# INI files and what they contain

A file is a sequence of lines. What a line contains is written with pieces: characters, and escapes for characters that have a meaning.
-/
namespace Parce.Ini

/-- A piece of a key or a value: a character; a backslash and a character; a backslash, an `x` or `X`, and four hexadecimal digits. -/
inductive Piece where
  | char (c : Nat)
  | esc (c : Nat)
  | hex (x a b c d : Nat)
deriving DecidableEq, Repr

def Piece.text : Piece → List Nat
  | .char c => [c]
  | .esc c => [92, c]
  | .hex x a b c d => [92, x, a, b, c, d]

/-- The value of a hexadecimal digit. -/
def digit (c : Nat) : Nat := if c ≤ 57 then c - 48 else if c ≤ 70 then c - 55 else c - 87

def IsHexDigit (c : Nat) : Prop := (48 ≤ c ∧ c ≤ 57) ∨ (65 ≤ c ∧ c ≤ 70) ∨ (97 ≤ c ∧ c ≤ 102)

/-- What a letter after a backslash stands for; other characters stand for themselves. -/
def letters : List (Nat × Nat) := [(48, 0), (97, 7), (98, 8), (116, 9), (114, 13), (110, 10)]

/-- The character that a piece stands for. -/
def Piece.value : Piece → Nat
  | .char c => c
  | .esc c => (letters.lookup c).getD c
  | .hex _ a b c d => ((digit a * 16 + digit b) * 16 + digit c) * 16 + digit d

/-- A space or a tab that is not escaped. -/
def Piece.isBlank : Piece → Bool
  | .char c => c == 32 || c == 9
  | _ => false

def written (ps : List Piece) : List Nat := ps.flatMap Piece.text

/-- The characters, without the blanks at the start and at the end. -/
def stripped (ps : List Piece) : List Nat := ((ps.dropWhile Piece.isBlank).reverse.dropWhile Piece.isBlank).reverse.map Piece.value

/-- What a line contains, apart from a comment. -/
inductive Content where
  /-- anything without an assignment; nothing, blanks or a name -/
  | idle (ps : List Piece)
  /-- the name of a section, and blanks after it -/
  | head (name : List Nat) (after : List Piece)
  /-- a key and a value -/
  | assign (key value : List Piece)
deriving DecidableEq, Repr

/-- A line; a comment consists of `;` or `#` and any characters. -/
structure Line where
  content : Content
  comment : Option (Nat × List Nat)
deriving DecidableEq, Repr

def Content.text : Content → List Nat
  | .idle ps => written ps
  | .head n ps => [91] ++ n ++ [93] ++ written ps
  | .assign k v => written k ++ [61] ++ written v

def commentText : Option (Nat × List Nat) → List Nat
  | none => []
  | some (c, w) => c :: w

def Line.text (l : Line) : List Nat := l.content.text ++ commentText l.comment

/-- The lines of a file, with line ends between them. -/
def fileText : List Line → List Nat
  | [] => []
  | [l] => l.text
  | l :: ls => l.text ++ 10 :: fileText ls

/-- What may be written: the characters that must be escaped, those that can be escaped, and those that a section name may not
    start with. -/
structure Limits where
  bad : List Nat
  esc : List Nat
  heads : List Nat

/-- In keys and values, a line end, a backslash and the characters that start a comment must be escaped. -/
def full : Limits := ⟨[10, 92, 59, 35], [10, 92, 39, 34, 59, 35, 61, 58] ++ letters.map (·.1), []⟩

def Piece.ok (m : Limits) : Piece → Prop
  | .char c => c ∉ m.bad
  | .esc c => c ∈ m.esc
  | .hex x a b c d => (x = 120 ∨ x = 88) ∧ IsHexDigit a ∧ IsHexDigit b ∧ IsHexDigit c ∧ IsHexDigit d

/-- The name of a section, without the blanks around it. -/
def headName (n : List Nat) : List Nat := stripped (n.map .char)

/-- The pieces of a key: not `=`, unless it is escaped, and it does not start with `[`. -/
def KeyOk (m : Limits) (k : List Piece) : Prop := (∀ p ∈ k, p.ok m ∧ p ≠ .char 61) ∧ k.head? ≠ some (.char 91)

/-- A line that may be written. The key is not left out. The name of a section is in one line, and does not contain `]`. -/
def Content.ok (m : Limits) : Content → Prop
  | .idle ps => KeyOk m ps
  | .head n ps => (∀ c ∈ n, c ≠ 93 ∧ c ≠ 10) ∧ (∀ c ∈ m.heads, (headName n).head? ≠ some c) ∧ (∀ p ∈ ps, p.isBlank = true)
  | .assign k v => k ≠ [] ∧ KeyOk m k ∧ (∀ p ∈ v, p.ok m)

def Line.ok (m : Limits) (l : Line) : Prop :=
  l.content.ok m ∧ ∀ c w, l.comment = some (c, w) → (c = 59 ∨ c = 35) ∧ 10 ∉ w

/-! ### The meaning -/

/-- The keys and values up to the first section. -/
def entries : List Line → List (List Nat × Option (List Nat))
  | [] => []
  | l :: ls =>
    match l.content with
    | .idle _ => entries ls
    | .head _ _ => []
    | .assign k v => (stripped k, if v = [] then none else some (stripped v)) :: entries ls

/-- The sections: the name, and the keys and values. -/
def sections : List Line → List (List Nat × List (List Nat × Option (List Nat)))
  | [] => []
  | l :: ls =>
    match l.content with
    | .head n _ => (headName n, entries ls) :: sections ls
    | _ => sections ls

/-- A dictionary of a list of keys and values: every key once, in the order in which they first appear, with its last value. -/
def dictOf {K V : Type} [DecidableEq K] : List (K × V) → List (K × V)
  | [] => []
  | (k, v) :: l => (k, ((l.reverse.find? (·.1 = k)).map (·.2)).getD v) :: (dictOf l).filter (·.1 ≠ k)

/-- The dictionary of a file: the names of the sections (None for what is before the first section, if there is anything), and
    their dictionaries. -/
def meaning (ls : List Line) : IV :=
  .dict (dictOf ((if entries ls = [] then [] else [(none, dictOf (entries ls))]) ++ (sections ls).map fun s => (some s.1, dictOf s.2)))

/-- The last line that is not empty has a comment that is not empty. -/
def EndsInComment (ls : List Line) : Prop :=
  ∃ l c w, (ls.filter (·.text ≠ [])).getLast? = some l ∧ l.comment = some (c, w) ∧ w ≠ []

end Parce.Ini

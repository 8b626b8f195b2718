/-
Turning the text of a regular expression into a plain string
(parce/regex.py:105-154), `re.escape` as parce uses it (parce/rule.py:385-406)
and the choice between `str.find` and a regular expression
(parce/lexicon.py:312-318).  Characters are code points.
-/

namespace Parce.ToS

/-- The characters of the string `"^$|.()[]{}+*?"` (regex.py:123). -/
def special (c : Nat) : Bool := [94, 36, 124, 46, 40, 41, 91, 93, 123, 125, 43, 42, 63].contains c

/-- The digits `[0-9a-fA-F]`, with their value `int(s, 16)` (regex.py:127). -/
def hex? (c : Nat) : Option Nat :=
  if 48 ≤ c ∧ c ≤ 57 then some (c - 48)
  else if 97 ≤ c ∧ c ≤ 102 then some (c - 87)
  else if 65 ≤ c ∧ c ≤ 70 then some (c - 55)
  else none

/-- The digits `[0-7]`, with their value `int(s, 8)` (regex.py:129). -/
def oct? (c : Nat) : Option Nat := if 48 ≤ c ∧ c ≤ 55 then some (c - 48) else none

/-- `[1-9]` (regex.py:130). -/
def nonzero (c : Nat) : Bool := 49 ≤ c ∧ c ≤ 57

/-- `[0-9]` (regex.py:130). -/
def digit (c : Nat) : Bool := 48 ≤ c ∧ c ≤ 57

/-- What `(.*?)\}` matches: the text up to the first `}`; there may be no newline before it. -/
def upTo : List Nat → Option (List Nat)
  | [] => none
  | c :: r => if c = 125 then some [] else if c = 10 then none else (upTo r).map (c :: ·)

/-- Where the scan of `re.sub` is: in plain text, at a character that is left
out, or in a name that is left out. -/
inductive Scan where
  | plain
  | one
  | name
  deriving DecidableEq

/-- What starts at a backslash for `\\(?:N\{.*?\}|.)` (regex.py:123); `none` when
the pattern does not match there. -/
def escaped : List Nat → Option Scan
  | [] => none
  | 78 :: 123 :: r => if (upTo r).isSome then some .name else some .one
  | c :: _ => if c = 10 then none else some .one

/-- `re.sub(r'\\(?:N\{.*?\}|.)', '', expr)` (regex.py:123). -/
def strip : Scan → List Nat → List Nat
  | _, [] => []
  | .one, _ :: r => strip .plain r
  | .name, c :: r => if c = 125 then strip .plain r else strip .name r
  | .plain, c :: r =>
    if c = 92 then
      match escaped r with
      | some s => strip s r
      | none => c :: strip .plain r
    else c :: strip .plain r

/-- What the function `replace_escapes` gives for one match (regex.py:146-148):
`put` is a string, `n` is the number of characters that the match has after the
backslash, and `bad` says that Python's `re` rejects the escape.  `fail` is the
TypeError or KeyError that is caught, `raise` the ValueError of `chr`, which is not
caught.  A back reference gives None, and `re.sub` adds nothing to the result
for None (it does not raise, as the comment in the code says). -/
inductive Esc where
  | fail
  | raise
  | put (s : List Nat) (n : Nat) (bad : Bool)
  deriving DecidableEq

/-- `chr(v)` (regex.py:137-142). -/
def chr (v n : Nat) (bad : Bool) : Esc := if v < 1114112 then .put [v] n bad else .raise

/-- `{'a':7, 'f':12, 'n':10, 'r':13, 't':9, 'v':11}[s]` (regex.py:138). -/
def control? (c : Nat) : Option Nat :=
  if c = 97 then some 7 else if c = 102 then some 12 else if c = 110 then some 10
  else if c = 114 then some 13 else if c = 116 then some 9 else if c = 118 then some 11
  else none

/-- The value of the first `n` characters, when those are all hexadecimal digits. -/
def hexN : Nat → Nat → List Nat → Option Nat
  | 0, v, _ => some v
  | _ + 1, _, [] => none
  | n + 1, v, c :: r => (hex? c).bind (fun d => hexN n (16 * v + d) r)

/-- Group 3, `0[0-7]{0,2}|[0-7]{3}` (regex.py:129): the value and the number of digits. -/
def octal : List Nat → Option (Nat × Nat)
  | 48 :: r =>
    match r with
    | [] => some (0, 1)
    | a :: r' =>
      match oct? a with
      | none => some (0, 1)
      | some x =>
        match r' with
        | [] => some (x, 2)
        | b :: _ =>
          match oct? b with
          | none => some (x, 2)
          | some y => some (8 * x + y, 3)
  | a :: b :: c :: _ =>
    match oct? a, oct? b, oct? c with
    | some x, some y, some z => some (64 * x + 8 * y + z, 3)
    | _, _, _ => none
  | _ => none

/-- The number of digits of group 4, `[1-9][0-9]{0,2}` (regex.py:130). -/
def backref : List Nat → Option Nat
  | a :: r =>
    if nonzero a then
      match r with
      | b :: r' =>
        if digit b then
          match r' with
          | c :: _ => if digit c then some 3 else some 2
          | [] => some 2
        else some 1
      | [] => some 1
    else none
  | [] => none

/-- The last alternatives after a backslash: an escaped special character or
backslash (group 7), a name (group 8; `lookup` is `unicodedata.lookup`, `none` is
the KeyError) and else nothing, which fails (regex.py:133-135). -/
def lastEsc (lookup : List Nat → Option (List Nat)) : List Nat → Esc
  | [] => .fail
  | c :: r =>
    if special c ∨ c = 92 then .put [c] 1 false
    else if c = 78 then
      match r with
      | 123 :: r' =>
        match upTo r' with
        | some n =>
          match lookup n with
          | some s => .put s (n.length + 3) (s.length != 1)
          | none => .fail
        | none => .fail
      | _ => .fail
    else .fail

/-- The alternatives after a backslash, in their order (regex.py:126-145). -/
def esc (lookup : List Nat → Option (List Nat)) : List Nat → Esc
  | [] => .fail
  | c :: r =>
    match (if c = 120 then hexN 2 0 r else none) with
    | some v => chr v 3 false
    | none =>
      match control? c with
      | some v => chr v 1 false
      | none =>
        match octal (c :: r) with
        | some (v, n) => chr v n (v > 255)
        | none =>
          match backref (c :: r) with
          | some n => .put [] n true
          | none =>
            match (if c = 117 then hexN 4 0 r else none) with
            | some v => chr v 5 false
            | none =>
              match (if c = 85 then hexN 8 0 r else none) with
              | some v => chr v 9 false
              | none => lastEsc lookup (c :: r)

/-- The outcomes of `to_string`: None, a string (with a mark that Python's `re`
rejects the pattern), or an exception. -/
inductive Out where
  | none
  | raise
  | str (s : List Nat) (bad : Bool)
  deriving DecidableEq

/-- Put a text before the result. -/
def Out.after (s : List Nat) (bad : Bool) : Out → Out
  | .none => .none
  | .raise => .raise
  | .str t b => .str (s ++ t) (bad || b)

/-- `re.sub(pat, replace_escapes, expr)` (regex.py:150); the first argument is
the number of characters of the match that are still to be skipped. -/
def replaceEsc (lookup : List Nat → Option (List Nat)) : Nat → List Nat → Out
  | _, [] => .str [] false
  | k + 1, _ :: r => replaceEsc lookup k r
  | 0, c :: r =>
    if c = 92 then
      match esc lookup r with
      | .fail => .none
      | .raise => .raise
      | .put s n bad => (replaceEsc lookup n r).after s bad
    else (replaceEsc lookup 0 r).after [c] false

/-- `to_string` (regex.py:123-154).  The `assert` compiles the pattern; that raises
when Python's `re` rejects one of the escapes. -/
def toString (lookup : List Nat → Option (List Nat)) (e : List Nat) : Out :=
  if (strip .plain e).any special then .none
  else
    match replaceEsc lookup 0 e with
    | .str s false => .str s false
    | .str _ true => .raise
    | .none => .none
    | .raise => .raise

/-- The flags of a lexicon that matter here (lexicon.py:312, re_flags). -/
structure Flags where
  ignorecase : Bool
  verbose : Bool

/-- The string that is searched with `str.find` instead of with a regular
expression (lexicon.py:312-318); `dynamic` is `needs_evaluation(rules[0])`. -/
def needle (lookup : List Nat → Option (List Nat)) (fl : Flags) (dynamic : Bool)
    (patterns : List (List Nat)) : Option (List Nat) :=
  match patterns with
  | [p] =>
    if !fl.ignorecase && !dynamic then
      match toString lookup p with
      | .str (c :: s) _ => some (c :: s)
      | _ => none
    else none
  | _ => none

/-- The characters that `re.escape` puts a backslash before (Python 3.7 and
newer): ``()[]{}?*+-|^$\.&~#`` and the blanks; used by `arg` (rule.py:401-403). -/
def escapedChar (c : Nat) : Bool :=
  special c || [45, 92, 38, 126, 35, 32, 9, 10, 13, 11, 12].contains c

/-- `re.escape`. -/
def reEscape : List Nat → List Nat
  | [] => []
  | c :: r => if escapedChar c then 92 :: c :: reEscape r else c :: reEscape r

end Parce.ToS

import Verif.Model.ReGroup
import Verif.Model.Json
import Verif.Model.Ini
/-!
# Model of parce/lang/toml.py (the language Toml)

Characters are code points. What `\d`, `\s` and `\w` match is a parameter (`Json.Uni`). All lexicons and all rules are modelled.
-/
namespace Parce.Toml
open Parce.Json (Uni str)

/-- The lexicons, `toml.py:51-171`. -/
inductive TL where
  | root | table | arrayTable | key | value | array | inlineTable | inlineKey | inlineValue
  | stringMultilineBasic | stringBasic | stringMultilineLiteral | stringLiteral | comment
deriving DecidableEq, Repr

/-- The actions, `toml.py:30-32`. Those with `Groups` stand for `bygroup(...)`, and `none` for no action. -/
inductive TA where
  | comment | email | url | alert
  | bracketStart | bracketEnd | bracket | bracketInvalid | invalid | variable | namespace | dot | string | stringEscape | stringInvalid
  | assign | assignInvalid | whitespace | timestamp | number | constant | separator
  | openGroups | closeGroups | closeBadGroups | arrayGroups | arrayBadGroups | stringGroups | lineGroups | skip | none
deriving DecidableEq, Repr

abbrev TRule := PRule Nat TL TA

def rule (p : Pat Nat) (a : TA) (t : Option (Target TL) := none) : TRule := ⟨p, fun _ _ => (a, t)⟩

def chr (s : String) : Pat Nat := Pat.str (str s)

def oneOf (s : String) : Pat Nat := .set fun c => (str s).contains c

/-- `[ \t]*` -/
def blanks : Pat Nat := .star (oneOf " \t")

/-- `\d{4}-\d\d-\d\d`, `toml.py:37`. -/
def datePat (u : Uni) : Pat Nat :=
  .cat (.times (.set u.digit) 4) (.cat (chr "-") (.cat (.times (.set u.digit) 2) (.cat (chr "-") (.times (.set u.digit) 2))))

/-- `\d\d:\d\d:\d\d(?:\.\d+)?`, `toml.py:38`. -/
def partialTimePat (u : Uni) : Pat Nat :=
  .cat (.times (.set u.digit) 2) (.cat (chr ":") (.cat (.times (.set u.digit) 2) (.cat (chr ":") (.cat (.times (.set u.digit) 2)
    (.opt (.cat (chr ".") (.plus (.set u.digit))))))))

/-- `(?:[zZ]|[+-]\d\d:\d\d)`, `toml.py:39-40`. -/
def offsetPat (u : Uni) : Pat Nat :=
  .alt (oneOf "zZ") (.cat (oneOf "+-") (.cat (.times (.set u.digit) 2) (.cat (chr ":") (.times (.set u.digit) 2))))

/-- `RE_FULL_TIME`, `toml.py:41`. -/
def timePat (u : Uni) : Pat Nat := .cat (partialTimePat u) (.opt (offsetPat u))

/-- `RE_DATE_TIME`, `toml.py:42`. -/
def dateTimePat (u : Uni) : Pat Nat := .cat (datePat u) (.cat (oneOf " tT") (timePat u))

/-- `[0-9a-fA-F]` -/
def isHex (c : Nat) : Bool := (48 ≤ c && c ≤ 57) || (97 ≤ c && c ≤ 102) || (65 ≤ c && c ≤ 70)

/-- `_?[...]` -/
def digitPat (f : Nat → Bool) : Pat Nat := .cat (.opt (chr "_")) (.set f)

/-- `0[xX](?:_?[0-9a-fA-F])+` and the like, `toml.py:44-46`. -/
def radixPat (x : String) (f : Nat → Bool) : Pat Nat := .cat (chr "0") (.cat (oneOf x) (.plus (digitPat f)))

/-- `\d(?:_?\d)*` -/
def digitsPat (u : Uni) : Pat Nat := .cat (.set u.digit) (.star (digitPat u.digit))

/-- `[-+]?\d(?:_?\d)*(?:\.(?:\d(?:_?\d)*)+)?(?:[eE][-+]?\d(?:_?\d)*)?`, `toml.py:47`. -/
def decPat (u : Uni) : Pat Nat :=
  .cat (.opt (oneOf "-+")) (.cat (digitsPat u) (.cat (.opt (.cat (chr ".") (.plus (digitsPat u))))
    (.opt (.cat (oneOf "eE") (.cat (.opt (oneOf "-+")) (digitsPat u))))))

/-- `[A-Za-z0-9_-]` -/
def isKey (c : Nat) : Bool := (65 ≤ c && c ≤ 90) || (97 ≤ c && c ≤ 122) || (48 ≤ c && c ≤ 57) || c == 95 || c == 45

/-- `(\.)(?=[ \t]*[\}\],'"A-Za-z0-9_-])`, `toml.py:88`. -/
def dotPat : Pat Nat := .cat (.grp 1 (chr ".")) (.look false (.cat blanks (.set fun c => (str "}],'\"").contains c || isKey c)))

/-- `keys()`, `toml.py:85-92`. -/
def keys (u : Uni) (a : TA) : List TRule :=
  [rule (.plus (.set isKey)) a,
   rule dotPat .dot,
   rule (chr "\"") .string (some ⟨0, [.stringBasic]⟩),
   rule (chr "'") .string (some ⟨0, [.stringLiteral]⟩),
   rule (.plus (oneOf " \t")) .skip,
   rule (.plus (.set fun c => !(u.space c || (str "#=]").contains c))) .invalid]

/-- `values()`, `toml.py:94-112`. -/
def values (u : Uni) : List TRule :=
  [rule (chr "#") .comment (some ⟨0, [.comment]⟩),
   rule (chr "[") .bracket (some ⟨0, [.array]⟩),
   rule (chr "{") .bracket (some ⟨0, [.inlineTable]⟩),
   rule (chr "\"\"\"") .string (some ⟨0, [.stringMultilineBasic]⟩),
   rule (chr "\"") .string (some ⟨0, [.stringBasic]⟩),
   rule (.cat (.grp 1 (chr "'''")) (.opt (.grp 2 (chr "\n")))) .lineGroups (some ⟨0, [.stringMultilineLiteral]⟩),
   rule (chr "'") .string (some ⟨0, [.stringLiteral]⟩),
   rule (dateTimePat u) .timestamp,
   rule (datePat u) .timestamp,
   rule (timePat u) .timestamp,
   rule (radixPat "oO" fun c => 48 ≤ c && c ≤ 55) .number,
   rule (radixPat "bB" fun c => c == 48 || c == 49) .number,
   rule (radixPat "xX" isHex) .number,
   rule (decPat u) .number,
   rule (.cat (.opt (oneOf "-+")) (.cat (.bound u.word) (.cat (.alt (chr "inf") (chr "nan")) (.bound u.word)))) .number,
   rule (.cat (.bound u.word) (.cat (.alt (chr "true") (chr "false")) (.bound u.word))) .constant,
   rule (.plus (.set fun c => !u.space c)) .invalid]

/-- `call(str.isspace, TEXT)`, for the text of a group. (`"".isspace()` is false; then there is no token, whatever the action is.) -/
def spaceGroup (u : Uni) (i : Nat) (gs : List (Nat × List Nat)) : Bool :=
  match gs.lookup i with
  | some w => w != [] && w.all u.space
  | Option.none => false

/-- `(?:(\.)[ \t]*)?(\])([^\n#]*)` and the one with `]]`, with their actions, `toml.py:63-64`, `69-70`. -/
def closeRule (u : Uni) (s : String) : TRule :=
  ⟨.cat (.opt (.cat (.grp 1 (chr ".")) blanks)) (.cat (.grp 2 (chr s)) (.grp 3 (.star (.set fun c => !(c == 10 || c == 35))))),
   fun _ gs => (if spaceGroup u 3 gs then .closeGroups else .closeBadGroups, some ⟨1, []⟩)⟩

/-- `(\[)(?:[ \t]*(\.))?` and the one with `[[`, `toml.py:54-55`. -/
def openPat (s : String) : Pat Nat := .cat (.grp 1 (chr s)) (.opt (.cat blanks (.grp 2 (chr "."))))

/-- `\\(?:["\\bfnrt]|u[0-9a-fA-F]{4})`, `toml.py:145`, `152`. -/
def escapePat : Pat Nat := .cat (chr "\\") (.alt (oneOf "\"\\bfnrt") (.cat (chr "u") (.times (.set isHex) 4)))

/-- `\\.` -/
def badEscapePat : Pat Nat := .cat (chr "\\") (.set (· != 10))

/-- `(")([^\s,}#\]=]*)` and the like, `toml.py:143`, `151`, `159`, `164`. -/
def endPat (u : Uni) (s stop : String) : Pat Nat := .cat (.grp 1 (chr s)) (.grp 2 (.star (.set fun c => !(u.space c || (str stop).contains c))))

/-- `[^"]*?$` and the like, `toml.py:154`, `165`. -/
def openEndPat (q : Nat) : Pat Nat := .cat (.lazy (.set (· != q))) Ini.dollar

/-- The rules of the lexicons, `toml.py:51-171`, with `comment_common()`, `language.py:46-58`. -/
def rules (u : Uni) : TL → List TRule
  | .root =>
    [rule (chr "#") .comment (some ⟨0, [.comment]⟩),
     rule (openPat "[[") .openGroups (some ⟨0, [.arrayTable]⟩),
     rule (openPat "[") .openGroups (some ⟨0, [.table]⟩),
     rule (.cat (chr "=") (.star (.set fun c => !(c == 10 || c == 35)))) .invalid,
     rule (.cat (chr ".") (.star (.set fun c => !(c == 10 || c == 35)))) .invalid,
     rule (.plus (.set u.space)) .skip]
  | .table => closeRule u "]" :: keys u .namespace
  | .arrayTable => closeRule u "]]" :: keys u .namespace
  | .key =>
    [rule (chr "#") .comment (some ⟨1, [.comment]⟩), rule (chr "=") .assign (some ⟨1, [.value]⟩)] ++ keys u .variable
  | .value => [rule (chr "#") .comment (some ⟨1, [.comment]⟩), rule Ini.dollar .none (some ⟨1, []⟩)] ++ values u
  | .array =>
    [⟨.cat (.grp 1 (chr "]")) (.grp 2 (.star (.set fun c => !(10 :: str ",}#]").contains c))),
      fun _ gs => (if spaceGroup u 2 gs then .arrayGroups else .arrayBadGroups, some ⟨1, []⟩)⟩,
     rule (chr ",") .separator] ++ values u
  | .inlineTable =>
    [rule (chr "#") .comment (some ⟨0, [.comment]⟩), rule (chr "}") .bracket (some ⟨1, []⟩), rule (chr "=") .assignInvalid,
     rule (.plus (.set u.space)) .skip]
  | .inlineKey => [rule (chr "=") .assign (some ⟨1, [.inlineValue]⟩), rule (chr "}") .bracketInvalid (some ⟨1, []⟩)] ++ keys u .variable
  | .inlineValue =>
    [rule (chr "#") .comment (some ⟨0, [.comment]⟩), rule (chr "}") .bracket (some ⟨2, []⟩), rule (chr ",") .separator (some ⟨1, []⟩)] ++ values u
  | .stringMultilineBasic =>
    [rule (endPat u "\"\"\"" ",}#]") .stringGroups (some ⟨1, []⟩), rule (.cat (chr "\\") (.plus (.set u.space))) .whitespace,
     rule escapePat .stringEscape, rule badEscapePat .stringInvalid]
  | .stringBasic =>
    [rule (endPat u "\"" ",}#]=") .stringGroups (some ⟨1, []⟩), rule escapePat .stringEscape, rule badEscapePat .stringInvalid,
     rule (openEndPat 34) .stringInvalid (some ⟨1, []⟩)]
  | .stringMultilineLiteral => [rule (endPat u "'''" ",}#]") .stringGroups (some ⟨1, []⟩)]
  | .stringLiteral => [rule (endPat u "'" ",}#]=") .stringGroups (some ⟨1, []⟩), rule (openEndPat 39) .stringInvalid (some ⟨1, []⟩)]
  | .comment =>
    [rule (Ini.emailPat u.word) .email, rule (Ini.urlPat u.word) .url, rule (Ini.alertPat u.word) .alert, rule Ini.dollar .comment (some ⟨1, []⟩)]

/-- What is done with other text. -/
def dflt : TL → Dflt Nat TL TA
  | .root => .target ⟨0, [.key]⟩
  | .inlineTable => .target ⟨0, [.inlineKey]⟩
  | .stringMultilineBasic | .stringBasic | .stringMultilineLiteral | .stringLiteral => .action fun _ => .string
  | .comment => .action fun _ => .comment
  | _ => .skip

/-- The actions of the groups. -/
def groups : TA → Option (List TA)
  | .openGroups => some [.bracketStart, .invalid]
  | .closeGroups => some [.invalid, .bracketEnd, .skip]
  | .closeBadGroups => some [.invalid, .bracketEnd, .invalid]
  | .arrayGroups => some [.bracket, .skip]
  | .arrayBadGroups => some [.bracket, .invalid]
  | .stringGroups => some [.string, .invalid]
  | .lineGroups => some [.string, .whitespace]
  | _ => Option.none

/-- The language `Toml`, `toml.py:50-171`. -/
def lang (u : Uni) : Lang Nat TL TA RM := grpLang .none (· == .skip) groups (fun _ => false) (rules u) dflt

end Parce.Toml

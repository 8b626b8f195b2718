import Verif.Model.ReGroup
import Verif.Model.Json
import Verif.Model.Ini
/-!
# Model of parce/lang/xml.py (the language Xml)

Characters are code points. What `\s` and `\w` match is a parameter (`Json.Uni`). The flag IGNORECASE of `root` is modelled for the
words CDATA and DOCTYPE, and for the characters of names: with it, U+00B5 and U+0345 are also matched, because they are other cases of
U+03BC and U+03B9. The lexicon `cdata` has one rule with a literal text, which the code does not compile to a regular expression; here
it is one like the others.
-/
namespace Parce.Xml
open Parce.Json (Uni str)

/-- The lexicons, `xml.py:51-67`, `87-143`. -/
inductive XL where
  | root | tag | attrs | dqstring | sqstring | cdata | comment | pi | doctype | internalDtd
deriving DecidableEq, Repr

/-- The actions, `xml.py:30-32`. The last ones stand for `bygroup(...)`, and `none` for no action. -/
inductive XA where
  | commentStart | commentEnd | commentInvalid | comment | email | url | alert
  | delimiter | dataDef | keyword | tagDef | ppStart | ppName | ppEnd | ppText | tagName | escape | text | whitespace | data
  | attribute | operator | dqStart | dq | dqEnd | sqStart | sq | sqEnd | stringEscape | name | entity | bracket | invalid
  | cdataGroups | doctypeGroups | ppGroups | tagGroups | attrGroups | skip | none
deriving DecidableEq, Repr

abbrev XRule := PRule Nat XL XA

def rule (p : Pat Nat) (a : XA) (t : Option (Target XL) := none) : XRule := ⟨p, fun _ _ => (a, t)⟩

def chr (s : String) : Pat Nat := Pat.str (str s)

def between (a b c : Nat) : Bool := a ≤ c && c ≤ b

/-- `RE_XML_NAME_START_CHAR`, `xml.py:38-44`. -/
def nameStart (ci : Bool) (c : Nat) : Bool :=
  c == 95 || c == 58 || between 65 90 c || between 97 122 c || between 0xC0 0xD6 c || between 0xD8 0xF6 c ||
  between 0xF8 0x2FF c || between 0x370 0x37D c || between 0x37F 0x1FFF c ||
  c == 0x200C || c == 0x200D || between 0x2070 0x218F c || between 0x2C00 0x2FEF c ||
  between 0x3001 0xD7FF c || between 0xF900 0xFDCF c || between 0xFDF0 0xFFFD c || between 0x10000 0xEFFFF c ||
  (ci && (c == 0xB5 || c == 0x345))

/-- `RE_XML_NAME_CHAR`, `xml.py:45`. -/
def nameChar (ci : Bool) (c : Nat) : Bool :=
  c == 45 || c == 46 || between 48 57 c || c == 0xB7 || between 0x300 0x36F c || between 0x203F 0x2040 c || nameStart ci c

/-- `RE_XML_NAME`, `_N_`, `xml.py:46`. -/
def namePat (ci : Bool) : Pat Nat := .cat (.set (nameStart ci)) (.star (.set (nameChar ci)))

/-- `\s*` -/
def spaces (u : Uni) : Pat Nat := .star (.set u.space)

/-- `\s*?` -/
def spacesLazy (u : Uni) : Pat Nat := .lazy (.set u.space)

/-- `&\S*?;`, `xml.py:53`, `59`, `102`, `118`. -/
def refPat (u : Uni) : Pat Nat := .cat (chr "&") (.cat (.lazy (.set fun c => !u.space c)) (chr ";"))

/-- A letter, with IGNORECASE also the other case. -/
def letter (ci : Bool) (c : Nat) : Pat Nat := .set fun x => x == c || (ci && x == c + 32)

/-- A word in capitals. -/
def word (ci : Bool) : List Nat → Pat Nat
  | [] => .eps
  | [c] => letter ci c
  | c :: w => .cat (letter ci c) (word ci w)

/-- `(<!\[)(CDATA)(\[)`, `xml.py:90`. -/
def cdataPat (ci : Bool) : Pat Nat := .cat (.grp 1 (chr "<![")) (.cat (.grp 2 (word ci (str "CDATA"))) (.grp 3 (chr "[")))

/-- `(<!)(DOCTYPE)\b(?:\s*({_N_}))?`, `xml.py:91`. -/
def doctypePat (u : Uni) (ci : Bool) : Pat Nat :=
  .cat (.grp 1 (chr "<!")) (.cat (.grp 2 (word ci (str "DOCTYPE"))) (.cat (.bound u.word) (.opt (.cat (spaces u) (.grp 3 (namePat ci))))))

/-- `(<\?)({_N_})?`, `xml.py:93`. -/
def ppPat (ci : Bool) : Pat Nat := .cat (.grp 1 (chr "<?")) (.opt (.grp 2 (namePat ci)))

/-- `(<\s*?/)\s*({_N_})\s*(>)`, `xml.py:96`. -/
def closePat (u : Uni) (ci : Bool) : Pat Nat :=
  .cat (.grp 1 (.cat (chr "<") (.cat (spacesLazy u) (chr "/")))) (.cat (spaces u) (.cat (.grp 2 (namePat ci)) (.cat (spaces u) (.grp 3 (chr ">")))))

/-- `(<)\s*({_N_})(?:\s*((?:/\s*)?>))?`, `xml.py:97`. -/
def openPat (u : Uni) (ci : Bool) : Pat Nat :=
  .cat (.grp 1 (chr "<")) (.cat (spaces u) (.cat (.grp 2 (namePat ci))
    (.opt (.cat (spaces u) (.grp 3 (.cat (.opt (.cat (chr "/") (spaces u))) (chr ">")))))))

/-- `dselect(MATCH[3], {None: cls.attrs, ">": cls.tag})`, `xml.py:98-101`, `rule.py:255-279`. -/
def openTarget (gs : List (Nat × List Nat)) : Option (Target XL) :=
  match gs.lookup 3 with
  | Option.none => some ⟨0, [.attrs]⟩
  | some w => if w = str ">" then some ⟨0, [.tag]⟩ else Option.none

/-- The rules of `root`, which `tag` also has (without IGNORECASE), `xml.py:87-107`. -/
def contentRules (u : Uni) (ci : Bool) : List XRule :=
  [rule (chr "<!--") .commentStart (some ⟨0, [.comment]⟩),
   rule (cdataPat ci) .cdataGroups (some ⟨0, [.cdata]⟩),
   rule (doctypePat u ci) .doctypeGroups (some ⟨0, [.doctype]⟩),
   rule (ppPat ci) .ppGroups (some ⟨0, [.pi]⟩),
   rule (closePat u ci) .tagGroups (some ⟨1, []⟩),
   ⟨openPat u ci, fun _ gs => (.tagGroups, openTarget gs)⟩,
   rule (refPat u) .escape]

/-- `find_strings`, `xml.py:75-78`. -/
def stringRules : List XRule :=
  [rule (chr "\"") .dqStart (some ⟨0, [.dqstring]⟩), rule (chr "'") .sqStart (some ⟨0, [.sqstring]⟩)]

/-- `({_N_})\s*?(=)(?=\s*?["\'])`, `xml.py:116`. -/
def piAttrPat (u : Uni) : Pat Nat :=
  .cat (.grp 1 (namePat false)) (.cat (spacesLazy u) (.cat (.grp 2 (chr "=")) (.look false (.cat (spacesLazy u) (.set fun c => c == 34 || c == 39)))))

/-- The rules of the lexicons, `xml.py:51-67`, `87-143`, with `comment_common()`, `language.py:46-58`. Not modelled are the rules of
    `Dtd.root` in `internal_dtd` (`xml.py:133`). -/
def rules (u : Uni) : XL → List XRule
  | .root => contentRules u true
  | .tag => contentRules u false
  | .attrs =>
    [rule (namePat false) .attribute, rule (chr "=") .operator] ++ stringRules ++
    [rule (.cat (chr "/") (.cat (spaces u) (chr ">"))) .delimiter (some ⟨1, []⟩),
     rule (chr ">") .delimiter (some ⟨1, [.tag]⟩),
     rule (.plus (.set u.space)) .skip]
  | .dqstring => [rule (refPat u) .stringEscape, rule (chr "\"") .dqEnd (some ⟨1, []⟩)]
  | .sqstring => [rule (refPat u) .stringEscape, rule (chr "'") .sqEnd (some ⟨1, []⟩)]
  | .cdata => [rule (chr "]]>") .delimiter (some ⟨1, []⟩)]
  | .comment =>
    [rule (chr "-->") .commentEnd (some ⟨1, []⟩), rule (chr "--") .commentInvalid,
     rule (Ini.emailPat u.word) .email, rule (Ini.urlPat u.word) .url, rule (Ini.alertPat u.word) .alert]
  | .pi => [rule (piAttrPat u) .attrGroups] ++ stringRules ++ [rule (refPat u) .escape, rule (chr "?>") .ppEnd (some ⟨1, []⟩)]
  | .doctype =>
    [rule (.alts [chr "SYSTEM", chr "PUBLIC", chr "NDATA"]) .keyword, rule (namePat false) .name] ++ stringRules ++
    [rule (.cat (chr "%") (.cat (namePat false) (chr ";"))) .entity, rule (chr "[") .bracket (some ⟨0, [.internalDtd]⟩),
     rule (chr ">") .delimiter (some ⟨1, []⟩)]
  | .internalDtd => [rule (chr "]") .bracket (some ⟨1, []⟩)]

/-- What is done with other text. In the content, `select(call(str.isspace, TEXT), Text, Whitespace)`, `xml.py:103`. -/
def dflt (u : Uni) : XL → Dflt Nat XL XA
  | .root | .tag => .action fun w => if w.all u.space then .whitespace else .text
  | .attrs => .action fun _ => .invalid
  | .dqstring => .action fun _ => .dq
  | .sqstring => .action fun _ => .sq
  | .cdata => .action fun _ => .data
  | .comment => .action fun _ => .comment
  | .pi => .action fun _ => .ppText
  | .doctype | .internalDtd => .skip

/-- The actions of the groups, `xml.py:90-98`, `116`. -/
def groups : XA → Option (List XA)
  | .cdataGroups => some [.delimiter, .dataDef, .delimiter]
  | .doctypeGroups => some [.delimiter, .keyword, .tagDef]
  | .ppGroups => some [.ppStart, .ppName]
  | .tagGroups => some [.delimiter, .tagName, .delimiter]
  | .attrGroups => some [.attribute, .operator]
  | _ => Option.none

/-- The language `Xml`, `xml.py:85-153`. -/
def lang (u : Uni) : Lang Nat XL XA RM := grpLang .none (· == .skip) groups (fun _ => false) (rules u) (dflt u)

end Parce.Xml

import Verif.Model.ReGroup
import Verif.Model.Bare
import Verif.Model.Json
import Verif.Model.Ini
/-!
# Model of parce/lang/css.py and of CssTransform in parce/css.py

Characters are code points. Parameters are what `\d`, `\s` and `\w` match (`Json.Uni`), the tables of words, and the functions that
compute numbers and colours.
-/
namespace Parce.CssL
open Parce.Json (Uni str)

/-- The lexicons, `lang/css.py:55-298`. -/
inductive CL where
  | root | prelude | selector | selectorList | rule | inline | declaration | unit | elementSelector | property | attribute | idSelector
  | classSelector | attributeSelector | pseudoClass | pseudoElement | atrule | atruleNested | atruleKeyword | atruleBlock
  | atruleNestedBlock | identToken | identifier | function | urlFunction | dqstring | sqstring | comment
deriving DecidableEq, Repr

/-- The actions, `lang/css.py:37-39`. `urlGroups` is `bygroup(Name, Delimiter)`; `none` stands for no action. -/
inductive CA where
  | keyword | comment | bracket | operator | percent | delimiter | string | stringEscape | escape | number | color | name | tag
  | propertyDef | property | attribute | identifierDef | cls | pseudoClass | pseudoTag | symbol | unit | url | invalid
  | email | urlLink | alert | urlGroups | skip | none
deriving DecidableEq, Repr

abbrev CRule := PRule Nat CL CA

def rule (p : Pat Nat) (a : CA) (t : Option (Target CL) := none) : CRule := ⟨p, fun _ _ => (a, t)⟩

def chr (s : String) : Pat Nat := Pat.str (str s)

/-- `[0-9A-Fa-f]` -/
def isHex (c : Nat) : Bool := (48 ≤ c && c ≤ 57) || (97 ≤ c && c ≤ 102) || (65 ≤ c && c ≤ 70)

/-- `a{0,n}` -/
def upTo (a : Pat Nat) : Nat → Pat Nat
  | 0 => .eps
  | n + 1 => .opt (.cat a (upTo a n))

/-- `RE_CSS_ESCAPE`, `lang/css.py:45`. -/
def escapePat : Pat Nat :=
  .cat (chr "\\") (.alt (.cat (.cat (.set isHex) (upTo (.set isHex) 5)) (.opt (chr " "))) (.set fun c => c != 10))

def sign (c : Nat) : Bool := c == 43 || c == 45

/-- `RE_CSS_NUMBER`, `lang/css.py:46-49`. -/
def numberPat (u : Uni) : Pat Nat :=
  .cat (.opt (.set sign)) (.cat (.opt (.cat (.star (.set u.digit)) (chr "."))) (.cat (.plus (.set u.digit))
    (.opt (.cat (.set fun c => c == 69 || c == 101) (.cat (.set sign) (.plus (.set u.digit)))))))

/-- `RE_HEX_COLOR`, `lang/css.py:51`. -/
def colorPat : Pat Nat :=
  .cat (chr "#") (.cat ((Pat.set isHex).times 3) (.alt ((Pat.set isHex).times 5) (.alt ((Pat.set isHex).times 3) (.opt (.set isHex)))))

/-- `[\w-]` -/
def nameChar (u : Uni) (c : Nat) : Bool := u.word c || c == 45

/-- `[\w-]+` -/
def namePat (u : Uni) : Pat Nat := .plus (.set (nameChar u))

def spacePat (u : Uni) : Pat Nat := .plus (.set u.space)

/-- The tables of words in `lang/css_words.py`. -/
structure Words where
  isProperty : List Nat → Bool
  isColor : List Nat → Bool

/-- A dynamic action that depends on the text. -/
def ruleOf (p : Pat Nat) (a : List Nat → CA) (t : Option (Target CL) := none) : CRule := ⟨p, fun w _ => (a w, t)⟩

/-- `identifier_common` without the default target, `lang/css.py:147-151`; as it is used by `anyof` (`rule.py:463-496`), with a
    target. -/
def identRules (u : Uni) (a : List Nat → CA) (t : Option (Target CL) := none) : List CRule :=
  [rule escapePat .escape t, ruleOf (namePat u) a t]

/-- The action for a property, `lang/css.py:163`. -/
def propertyAct (k : Words) (w : List Nat) : CA := if k.isProperty w then .propertyDef else .property

/-- The action for an identifier, `lang/css.py:251-252`. -/
def identifierAct (k : Words) (w : List Nat) : CA :=
  if w = str "transparent" then .color else if k.isColor w then .color else .symbol

/-- `common`, `lang/css.py:127-138`. -/
def commonRules (u : Uni) (k : Words) : List CRule :=
  [rule (chr "\"") .string (some ⟨0, [.dqstring]⟩),
   rule (chr "'") .string (some ⟨0, [.sqstring]⟩),
   rule (chr "/*") .comment (some ⟨0, [.comment]⟩),
   rule (chr "{") .bracket (some ⟨0, [.rule]⟩),
   rule (numberPat u) .number (some ⟨0, [.unit]⟩),
   rule colorPat .color,
   rule (.cat (.grp 1 (chr "url")) (.grp 2 (chr "("))) .urlGroups (some ⟨0, [.urlFunction]⟩)] ++
  identRules u (identifierAct k) (some ⟨0, [.identifier]⟩) ++
  [rule (.set fun c => (str ":,;@%!").contains c) .delimiter]

/-- `inline`, `lang/css.py:111-115`. -/
def inlineRules (u : Uni) (k : Words) : List CRule :=
  identRules u (propertyAct k) (some ⟨0, [.declaration, .property]⟩) ++ commonRules u k

/-- `toplevel`, `lang/css.py:60-66`. -/
def toplevelRules (u : Uni) : List CRule :=
  [rule (chr "@") .keyword (some ⟨0, [.atrule, .atruleKeyword]⟩),
   rule (chr "/*") .comment (some ⟨0, [.comment]⟩),
   rule (spacePat u) .skip]

/-- `selectors`, `lang/css.py:75-84`. -/
def selectorsRules (u : Uni) : List CRule :=
  [rule (spacePat u) .skip,
   rule (.alt (.set fun c => (str ">+~").contains c) (chr "||")) .operator,
   rule (chr ",") .delimiter,
   rule (chr "/*") .comment (some ⟨0, [.comment]⟩),
   rule (chr "\"") .string (some ⟨0, [.dqstring]⟩),
   rule (chr "'") .string (some ⟨0, [.sqstring]⟩)]

/-- `atrule_common`, `lang/css.py:234-240`. -/
def atruleRules (u : Uni) (k : Words) : List CRule :=
  [rule (chr ";") .delimiter (some ⟨1, []⟩),
   rule (chr ":") .keyword (some ⟨0, [.pseudoClass]⟩)] ++ commonRules u k ++
  [rule (.look false (chr "</")) .none (some ⟨1, []⟩)]

/-- `string`, `lang/css.py:286-292`, without the default action. -/
def stringRules : List CRule :=
  [rule escapePat .stringEscape,
   rule (Pat.str [92, 10]) .stringEscape,
   rule (Pat.str [10]) .invalid (some ⟨1, []⟩)]

/-- The rules, `lang/css.py:55-298`, with `comment_common()`, `language.py:45-58`. -/
def rules (u : Uni) (k : Words) : CL → List CRule
  | .root => toplevelRules u
  | .prelude =>
    [rule (chr "{") .bracket (some ⟨1, [.rule]⟩),
     rule (.look false (chr "</")) .none (some ⟨1, []⟩)] ++ selectorsRules u
  | .selector =>
    [rule (chr "*") .keyword,
     rule (chr "|") .keyword,
     rule (chr "#") .identifierDef (some ⟨0, [.idSelector]⟩),
     rule (.cat (chr ".") (.look true (.set u.digit))) .keyword (some ⟨0, [.classSelector]⟩),
     rule (chr "::") .keyword (some ⟨0, [.pseudoElement]⟩),
     rule (chr ":") .keyword (some ⟨0, [.pseudoClass]⟩),
     rule (chr "[") .delimiter (some ⟨0, [.attributeSelector, .attribute]⟩)] ++
    identRules u (fun _ => .tag) (some ⟨0, [.elementSelector]⟩)
  | .selectorList => rule (chr ")") .delimiter (some ⟨2, []⟩) :: selectorsRules u
  | .rule => rule (chr "}") .bracket (some ⟨1, []⟩) :: inlineRules u k
  | .inline => inlineRules u k
  | .declaration =>
    [rule (chr ":") .delimiter,
     rule (chr ";") .delimiter (some ⟨1, []⟩),
     rule (.cat (chr "!important") (.bound u.word)) .keyword (some ⟨1, []⟩)] ++ commonRules u k ++
    [rule (spacePat u) .skip]
  | .unit => rule (chr "%") .percent (some ⟨1, []⟩) :: identRules u fun _ => .unit
  | .elementSelector => identRules u fun _ => .tag
  | .property => identRules u (propertyAct k)
  | .attribute => identRules u fun _ => .attribute
  | .idSelector => identRules u fun _ => .identifierDef
  | .classSelector => identRules u fun _ => .cls
  | .attributeSelector =>
    [rule (chr "]") .delimiter (some ⟨1, []⟩),
     rule (.cat (.opt (.set fun c => (str "~|^$*").contains c)) (chr "=")) .operator,
     rule (chr "\"") .string (some ⟨0, [.dqstring]⟩),
     rule (chr "'") .string (some ⟨0, [.sqstring]⟩)] ++
    identRules u (fun _ => .symbol) (some ⟨0, [.identToken]⟩) ++
    [rule (spacePat u) .skip]
  | .pseudoClass => rule (chr "(") .delimiter (some ⟨0, [.selectorList]⟩) :: identRules u fun _ => .pseudoClass
  | .pseudoElement => identRules u fun _ => .pseudoTag
  | .atrule => rule (chr "{") .bracket (some ⟨0, [.atruleBlock]⟩) :: atruleRules u k
  | .atruleNested => rule (chr "{") .bracket (some ⟨0, [.atruleNestedBlock]⟩) :: atruleRules u k
  | .atruleKeyword =>
    rule (.cat (.grp 1 (.alts [chr "media", chr "supports", chr "document"])) (.bound u.word)) .keyword (some ⟨1, [.atruleNested]⟩) ::
    identRules u fun _ => .keyword
  | .atruleBlock => rule (chr "}") .bracket (some ⟨2, []⟩) :: inlineRules u k
  | .atruleNestedBlock => rule (chr "}") .bracket (some ⟨2, []⟩) :: toplevelRules u
  | .identToken => identRules u fun _ => .symbol
  | .identifier => rule (chr "(") .delimiter (some ⟨0, [.function]⟩) :: identRules u (identifierAct k)
  | .function =>
    [rule (chr ")") .delimiter (some ⟨2, []⟩),
     rule (chr "(") .delimiter (some ⟨0, [.function]⟩)] ++ commonRules u k ++
    [rule (.set fun c => (str "*/+-").contains c) .operator]
  | .urlFunction =>
    [rule (chr ")") .delimiter (some ⟨1, []⟩),
     rule (chr "\"") .string (some ⟨0, [.dqstring]⟩),
     rule (chr "'") .string (some ⟨0, [.sqstring]⟩),
     rule (chr "/*") .comment (some ⟨0, [.comment]⟩),
     rule escapePat .escape]
  | .dqstring => rule (chr "\"") .string (some ⟨1, []⟩) :: stringRules
  | .sqstring => rule (chr "'") .string (some ⟨1, []⟩) :: stringRules
  | .comment =>
    [rule (chr "*/") .comment (some ⟨1, []⟩),
     rule (Ini.emailPat u.word) .email,
     rule (Ini.urlPat u.word) .urlLink,
     rule (Ini.alertPat u.word) .alert]

/-- What is done with other text. -/
def dflt : CL → Dflt Nat CL CA
  | .root => .target ⟨0, [.prelude]⟩
  | .prelude => .target ⟨0, [.selector]⟩
  | .selectorList => .target ⟨0, [.selector]⟩
  | .atruleNestedBlock => .target ⟨0, [.prelude]⟩
  | .rule => .skip
  | .inline => .skip
  | .atrule => .skip
  | .atruleNested => .skip
  | .atruleBlock => .skip
  | .function => .skip
  | .attributeSelector => .action fun _ => .invalid
  | .urlFunction => .action fun _ => .url
  | .dqstring => .action fun _ => .string
  | .sqstring => .action fun _ => .string
  | .comment => .action fun _ => .comment
  | _ => .target ⟨1, []⟩

/-- `consume=True`, `lang/css.py:154-247`. -/
def consumes (l : CL) : Bool := l = .elementSelector || l = .property || l = .identToken || l = .identifier

/-- `bygroup(Name, Delimiter)`, `lang/css.py:136`. -/
def groups : CA → Option (List CA)
  | .urlGroups => some [.name, .delimiter]
  | _ => none

/-- The language `Css`, `lang/css.py:54-298`. (For lexicons with one or only literal rules, faster parse functions are made; what they
    give is the same, C24.) -/
def lang (u : Uni) (k : Words) : Lang Nat CL CA RM := grpLang .none (· == .skip) groups consumes (rules u k) dflt

/-! ### The transform -/

/-- Python values; `Q` are numbers and `K` colours. `list` is a list or a tuple, `sel` is a dictionary of lists with the names of
    lexicons as keys, `value` is a `Value`, `css.py:1308-1352`. `error` stands for an exception that was raised. -/
inductive CV (Q K : Type) where
  | none
  | error
  | text (s : List Nat)
  | value (text : Option (List Nat)) (number : Option Q) (unit url : Option (List Nat)) (color : Option K) (func : Option (List Nat))
      (quoted : Bool) (args : List (CV Q K))
  | list (l : List (CV Q K))
  | dict (d : List (List Nat × List (CV Q K)))
  | sel (d : List (CL × List (CV Q K)))
  | rule (prelude block : CV Q K)
  | atrule (keyword contents block : CV Q K)

/-- The functions that compute values. `int16` is `int(text, 16)`, none for ValueError. `num` is `get_number`, `hexColor` is
    `get_hex_color`, `named` is `get_named_color` and `rgba` is `get_rgba_color`, `css.py:1177-1182`, `1225-1290`. -/
structure Funcs (Q K : Type) where
  int16 : List Nat → Option Nat
  num : List Nat → Q
  hexColor : List Nat → K
  named : List Nat → K
  rgba : List (CV Q K) → K

variable {Q K : Type}

abbrev Itm (Q K : Type) := BItm Nat CA (CV Q K) CL

/-- `i.action in a.Delimiter`: Operator and Bracket are below Delimiter, `action.py:143-155`. -/
def isDelimiter (a : CA) : Bool := a == .delimiter || a == .operator || a == .percent || a == .bracket

/-- `i.action in a.Name`. -/
def isName (a : CA) : Bool :=
  a == .name || a == .tag || a == .propertyDef || a == .property || a == .attribute || a == .identifierDef || a == .cls ||
  a == .pseudoClass || a == .pseudoTag || a == .symbol || a == .unit

/-- `get_escape`, `css.py:1184-1193`; none for the ValueError of `chr`. -/
def getEscape (f : Funcs Q K) (w : List Nat) : Option (List Nat) :=
  if w.drop 1 = [10] then some []
  else match f.int16 (w.drop 1) with
    | none => some (w.drop 1)
    | some n => if n < 0x110000 then some [n] else none

/-- `get_ident_token`, `css.py:1207-1223`: the name, and the last action that is a Name. -/
def identToken (f : Funcs Q K) : List (Itm Q K) → Option (List Nat × Option CA)
  | [] => some ([], none)
  | .item _ _ :: is => identToken f is
  | .tok w a :: is =>
    match identToken f is with
    | none => none
    | some (s, b) =>
      if a = .escape then (getEscape f w).map fun x => (x ++ s, b)
      else if isDelimiter a then some (s, b)
      else some (w ++ s, if b.isSome then b else if isName a then some a else none)

/-- The methods that return `self.get_ident_token(items)[0]`, `css.py:958-978`, `1016-1018`, `1051-1053`, `1063-1065`. -/
def identText (f : Funcs Q K) (is : List (Itm Q K)) : CV Q K :=
  match identToken f is with
  | some (s, _) => .text s
  | none => .error

/-- `items and items[-1] == c` -/
def endsWith (c : Nat) (is : List (Itm Q K)) : Bool :=
  match is.getLast? with
  | some (.tok w _) => w == [c]
  | _ => false

/-- A `Value`, with these attributes. -/
def Value (text : Option (List Nat) := none) (number : Option Q := none) (unit : Option (List Nat) := none) (url : Option (List Nat) := none)
    (color : Option K := none) (func : Option (List Nat) := none) (quoted : Bool := false) (args : List (CV Q K) := []) : CV Q K :=
  .value text number unit url color func quoted args

/-- The string, if it is one. -/
def CV.str? : CV Q K → Option (List Nat)
  | .text s => some s
  | _ => Option.none

/-- The items that `common` yields the object of, `css.py:1156-1163`. -/
def yielded (l : CL) : Bool := l = .urlFunction || l = .identifier || l = .pseudoClass || l = .attribute || l = .selectorList

/-- What `common` waits for: the next item; the unit of a number (line 1140-1143); or the parenthesis after `url` (line 1153). -/
inductive Await where
  | any
  | unit (w : List Nat)
  | paren
deriving DecidableEq

/-- The number that was read. -/
def Await.flush (f : Funcs Q K) : Await → List (CV Q K)
  | .unit w => [Value (text := some w) (number := some (f.num w))]
  | _ => []

/-- What is yielded for an item, and what is awaited then. -/
def commonItem (f : Funcs Q K) : Itm Q K → List (CV Q K) × Await
  | .tok w a =>
    if a = .number then ([], .unit w)
    else if a = .color then ([Value (color := some (f.hexColor (w.drop 1))) (text := some w)], .any)
    else if a = .keyword ∨ isDelimiter a then ([.text w], .any)
    else if a = .name ∧ w = str "url" then ([], .paren)
    else ([], .any)
  | .item n o =>
    if n = .sqstring ∨ n = .dqstring then ([Value (text := o.str?) (quoted := true)], .any)
    else if yielded n then ([o], .any)
    else ([], .any)

/-- The loop of `common`, `css.py:1134-1164`. -/
def commonLoop (f : Funcs Q K) : Await → List (Itm Q K) → List (CV Q K)
  | s, [] => s.flush f
  | .paren, _ :: is => commonLoop f .any is
  | .unit w, .item .unit o :: is => Value (text := some w) (number := some (f.num w)) (unit := o.str?) :: commonLoop f .any is
  | s, i :: is => s.flush f ++ (commonItem f i).1 ++ commonLoop f (commonItem f i).2 is

/-- `common`, `css.py:1125-1164`. -/
def common (f : Funcs Q K) (is : List (Itm Q K)) : List (CV Q K) := commonLoop f .any is

/-- `i not in (':', ';')` -/
def notColon : Itm Q K → Bool
  | .tok w _ => w != [58] && w != [59]
  | .item _ _ => true

/-- `declaration`, `css.py:940-952`. -/
def declaration (f : Funcs Q K) : List (Itm Q K) → CV Q K
  | [] => .none
  | .item n o :: is => if n = .property then .list [o, .list (common f (is.filter notColon))] else declaration f is
  | .tok _ _ :: is => declaration f is

/-- `inline`, `css.py:931-938`. An empty object is not used; a declaration gives None or a pair. -/
def inline (is : List (Itm Q K)) : CV Q K :=
  .dict (is.foldl (fun d i => match i with
    | .item .declaration (.list [.text p, .list vs]) => Ini.dictSet d p vs
    | _ => d) [])

/-- `isinstance(x, dict)`, for what is in a selector list. -/
def CV.isSel : CV Q K → Bool
  | .sel _ => true
  | _ => false

/-- `result and isinstance(result[-1], dict)` -/
def lastSel (result : List (CV Q K)) : Bool :=
  match result.getLast? with
  | some v => v.isSel
  | none => false

/-- The loop of `prelude`, `css.py:873-890`. -/
def preludeLoop : List (Itm Q K) → List (List (CV Q K)) → List (CV Q K) → List (List (CV Q K))
  | [], prelude, result => if result.isEmpty then prelude else prelude ++ [result]
  | .tok w a :: is, prelude, result =>
    if w = [44] then preludeLoop is (prelude ++ [result]) []
    else if a = .operator ∧ lastSel result then preludeLoop is prelude (result ++ [.text w])
    else preludeLoop is prelude result
  | .item n o :: is, prelude, result =>
    if n = .selector then preludeLoop is prelude ((if lastSel result then result ++ [.text [32]] else result) ++ [o])
    else preludeLoop is prelude result

/-- `css.py:893-895`. -/
def trimOperator (s : List (CV Q K)) : List (CV Q K) := if s.isEmpty || lastSel s then s else s.dropLast

/-- `prelude`, `css.py:857-898`. -/
def preludeOf (is : List (Itm Q K)) : CV Q K :=
  .list ((((preludeLoop is [] []).map trimOperator).filter fun s => !s.isEmpty).map .list)

/-- `d[name].append(obj)` -/
def selAdd : List (CL × List (CV Q K)) → CL → CV Q K → List (CL × List (CV Q K))
  | [], n, o => [(n, [o])]
  | (m, os) :: d, n, o => if m = n then (m, os ++ [o]) :: d else (m, os) :: selAdd d n o

/-- `selector`, `css.py:900-918`. -/
def selectorOf (is : List (Itm Q K)) : CV Q K :=
  .sel (is.foldl (fun d i => match i with
    | .item n o => selAdd d n o
    | .tok _ _ => d) [])

/-- `selector_list`, `css.py:920-925`. -/
def selectorListOf (is : List (Itm Q K)) : CV Q K := preludeOf (if endsWith 41 is then is.dropLast else is)

/-- `unit`, `css.py:954-958`. -/
def unitOf (f : Funcs Q K) (is : List (Itm Q K)) : CV Q K :=
  match is with
  | .tok [37] _ :: _ => .text [37]
  | _ => identText f is

/-- `if val:` -/
def truthy : CV Q K → Bool
  | .text s => !s.isEmpty
  | _ => false

/-- `attribute_selector`, `css.py:980-1000`. -/
def attributeLoop : List (Itm Q K) → CV Q K → CV Q K → CV Q K → CV Q K → CV Q K
  | [], attr, op, val, flag => .list [attr, op, val, flag]
  | .tok w a :: is, attr, op, val, flag => attributeLoop is attr (if a = .operator then .text w else op) val flag
  | .item n o :: is, attr, op, val, flag =>
    if n = .sqstring ∨ n = .dqstring then attributeLoop is attr op o flag
    else if n = .attribute then attributeLoop is o op val flag
    else if n = .identToken then
      if truthy val then attributeLoop is attr op val o else attributeLoop is attr op o flag
    else attributeLoop is attr op val flag

/-- `pseudo_class`, `css.py:1002-1014`. -/
def pseudoClassOf (f : Funcs Q K) (is : List (Itm Q K)) : CV Q K :=
  match identToken f is with
  | none => .error
  | some (s, _) =>
    match is.getLast? with
    | some (.item .selectorList o) => .list [.text s, o]
    | _ => .list [.text s, .none]

/-- The loop of `atrule`, `css.py:1027-1040`, over the items from `n`: the contents and the block. -/
def atruleLoop (f : Funcs Q K) (all : List (Itm Q K)) : (n : Nat) → List (Itm Q K) → CV Q K × CV Q K
  | _, [] => (.list (common f all), .none)
  | n, .tok w _ :: is => if w = [59] then (.list (common f (all.take n)), .none) else atruleLoop f all (n + 1) is
  | n, .item m o :: is =>
    if m = .atruleNested then
      match o with
      | .list [c, b] => (c, b)
      | _ => (.error, .error)
    else if m = .atruleBlock then (.list (common f (if n = 0 then all.dropLast else all.take (n - 1))), o)
    else atruleLoop f all (n + 1) is

/-- `atrule`, `css.py:1020-1041`. -/
def atruleOf (f : Funcs Q K) (is : List (Itm Q K)) : CV Q K :=
  match is with
  | .item .atruleKeyword o :: is' => .atrule o (atruleLoop f is' 0 is').1 (atruleLoop f is' 0 is').2
  | _ => .atrule .none (atruleLoop f is 0 is).1 (atruleLoop f is 0 is).2

/-- `atrule_nested`, `css.py:1043-1049`. (`items.pop()` with nothing left raises IndexError.) -/
def atruleNestedOf (f : Funcs Q K) (is : List (Itm Q K)) : CV Q K :=
  match is.getLast? with
  | some (.item .atruleNestedBlock o) =>
    if is.dropLast.isEmpty then .error else .list [.list (common f is.dropLast.dropLast), o]
  | _ => .list [.list (common f is), .none]

/-- `get_css_function_call`, `css.py:1166-1175`. -/
def functionCall (f : Funcs Q K) (name : List Nat) (args : List (CV Q K)) : CV Q K :=
  if name = str "rgb" ∨ name = str "rgba" then Value (color := some (f.rgba args))
  else if name = str "url" then Value (url := some (args.flatMap fun v => match v with
    | .value (some t) _ _ _ _ _ _ _ => t
    | _ => []))
  else Value (func := some name) (args := args)

/-- `identifier`, `css.py:1067-1087`. -/
def identifierOf (k : Words) (f : Funcs Q K) (is : List (Itm Q K)) : CV Q K :=
  match identToken f is with
  | none => .error
  | some (s, a) =>
    match is.getLast? with
    | some (.item .function (.list args)) => functionCall f s args
    | _ => if a = some .color ∨ k.isColor s then Value (color := some (f.named s)) (text := some s) else Value (text := some s)

/-- `function`, `css.py:1089-1094`. -/
def functionOf (f : Funcs Q K) (is : List (Itm Q K)) : CV Q K := .list (common f (if endsWith 41 is then is.dropLast else is))

/-- `gen()` in `url_function`, `css.py:1098-1106`. -/
def urlParts (f : Funcs Q K) : List (Itm Q K) → Option (List Nat)
  | [] => some []
  | .tok w a :: is =>
    if a = .escape then (getEscape f w).bind fun x => (urlParts f is).map (x ++ ·)
    else if a = .url then (urlParts f is).map (w ++ ·)
    else urlParts f is
  | .item n o :: is =>
    if n = .sqstring ∨ n = .dqstring then (urlParts f is).map ((o.str?.getD []) ++ ·) else urlParts f is

/-- `url_function`, `css.py:1096-1107`. -/
def urlFunctionOf (f : Funcs Q K) (is : List (Itm Q K)) : CV Q K :=
  match urlParts f is with
  | some w => Value (url := some w)
  | none => .error

/-- An item is a token. -/
def isToken : Itm Q K → Bool
  | .tok _ _ => true
  | .item _ _ => false

/-- `dqstring` and `sqstring`, `css.py:1109-1119`, with `get_string`, `css.py:1195-1205`. Without the last item (the quote) the item
    list is a list that has no method `tokens` (AttributeError); the loop over the tokens uses the variable `String`, which is not
    there (NameError). -/
def stringOf (quote : Nat) (is : List (Itm Q K)) : CV Q K :=
  if endsWith quote is then .error else if is.any isToken then .error else .text []

/-- The loop of `root`, `css.py:845-855`. -/
def rootLoop : List (Itm Q K) → CV Q K → List (CV Q K)
  | [], _ => []
  | .tok _ _ :: is, p => rootLoop is p
  | .item n o :: is, p =>
    if n = .prelude then rootLoop is o
    else if n = .rule then .rule p o :: rootLoop is .none
    else if n = .atrule then o :: rootLoop is p
    else rootLoop is p

/-- `root`, `css.py:843-855`. -/
def rootOf (is : List (Itm Q K)) : CV Q K := .list (rootLoop is .none)

/-- An exception was raised for one of the items. -/
def failed (is : List (Itm Q K)) : Bool := is.any fun i => match i with
  | .item _ .error => true
  | _ => false

/-- The methods, `css.py:843-1122`. -/
def methOf (k : Words) (f : Funcs Q K) : CL → List (Itm Q K) → CV Q K
  | .root => rootOf
  | .prelude => preludeOf
  | .selector => selectorOf
  | .selectorList => selectorListOf
  | .rule => inline
  | .inline => inline
  | .declaration => declaration f
  | .unit => unitOf f
  | .attributeSelector => fun is => attributeLoop is .none .none .none .none
  | .pseudoClass => pseudoClassOf f
  | .atrule => atruleOf f
  | .atruleNested => atruleNestedOf f
  | .atruleBlock => inline
  | .atruleNestedBlock => rootOf
  | .identifier => identifierOf k f
  | .function => functionOf f
  | .urlFunction => urlFunctionOf f
  | .dqstring => stringOf 34
  | .sqstring => stringOf 39
  | _ => identText f

/-- `CssTransform`, `css.py:809-1122`; `comment = None`. An exception ends the transform. -/
def method (k : Words) (f : Funcs Q K) (l : CL) : Option (List (Itm Q K) → CV Q K) :=
  if l = .comment then none else some fun is => if failed is then .error else methOf k f l is

def env (k : Words) (f : Funcs Q K) : TrEnv Nat CL CA (CV Q K) Unit CL := bareEnv (method k f)

end Parce.CssL

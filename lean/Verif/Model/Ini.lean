import Verif.Model.Re
import Verif.Model.Transform
/-!
# Model of parce/lang/ini.py

Characters are code points. Parameters are what `\w` matches, and `chr(int(text, 16))`.
-/
namespace Parce.Ini

/-- The code points of a string. -/
def str (s : String) : List Nat := s.toList.map Char.toNat

/-- The lexicons, `ini.py:38-73`. -/
inductive IL where
  | root | section | key | value | comment
deriving DecidableEq, Repr

/-- The actions. `none` stands for no action. -/
inductive IA where
  | start | stop | comment | assign | space | ident | data | escape | email | url | alert | none
deriving DecidableEq, Repr

def rule (p : Pat Nat) (a : IA) (t : Option (Target IL) := none) : PRule Nat IL IA := ⟨p, fun _ _ => (a, t)⟩

/-- `[\n\\'"0abtrn;#=:]` -/
def escaped (c : Nat) : Bool := (10 :: str "\\'\"0abtrn;#=:").contains c

/-- `[0-9a-fA-F]` -/
def isHex (c : Nat) : Bool := (48 ≤ c && c ≤ 57) || (97 ≤ c && c ≤ 102) || (65 ≤ c && c ≤ 70)

/-- `\\(?:[\n\\'"0abtrn;#=:]|[xX][0-9a-fA-F]{4})`, `ini.py:65`. -/
def escapePat : Pat Nat :=
  .cat (.chr 92) (.alt (.set escaped) (.cat (.set fun c => c == 120 || c == 88) (.times (.set isHex) 4)))

/-- `[^\[\\\n;=#:]` -/
def plain (c : Nat) : Bool := !(10 :: str "[\\;=#:").contains c

/-- `values()`, `ini.py:62-67`. -/
def valueRules (a : IA) : List (PRule Nat IL IA) := [rule escapePat .escape, rule (.plus (.set plain)) a]

/-- `$`, with MULTILINE. -/
def dollar : Pat Nat := .test (fun t p => t.length ≤ p || t[p]? == some 10)

/-- A class with the characters that `\w` matches, and others. -/
def wordOr (word : Nat → Bool) (s : String) : Pat Nat := .set fun c => word c || (str s).contains c

/-- `\b\w+(?:[._%+-]\w+)*@\w+(?:[._-]\w+)*\b`, `language.py:55`. -/
def emailPat (word : Nat → Bool) : Pat Nat :=
  .cat (.bound word) (.cat (.plus (.set word)) (.cat (.star (.cat (.set fun c => (str "._%+-").contains c) (.plus (.set word))))
    (.cat (.chr 64) (.cat (.plus (.set word)) (.cat (.star (.cat (.set fun c => (str "._-").contains c) (.plus (.set word)))) (.bound word))))))

/-- `(?:(?:https?|ftp):/|\bwww\.)(?:[\w_~:/#-]+([.?=][\w_~:/#-]+)*|\([\w._~:?/#-]*\))+`, `language.py:56`. -/
def urlPat (word : Nat → Bool) : Pat Nat :=
  .cat (.alt (.cat (.alt (.cat (Pat.str (str "http")) (.opt (.chr 115))) (Pat.str (str "ftp"))) (Pat.str (str ":/")))
      (.cat (.bound word) (Pat.str (str "www."))))
    (.plus (.alt
      (.cat (.plus (wordOr word "_~:/#-")) (.star (.grp 1 (.cat (.set fun c => (str ".?=").contains c) (.plus (wordOr word "_~:/#-"))))))
      (.cat (.chr 40) (.cat (.star (wordOr word "._~:?/#-")) (.chr 41)))))

/-- `\b(ALERT|BUG|FIXME|TEMP|TODO|XXX+)\b`, `language.py:57`. -/
def alertPat (word : Nat → Bool) : Pat Nat :=
  .cat (.bound word) (.cat (.grp 1 (.alts [Pat.str (str "ALERT"), Pat.str (str "BUG"), Pat.str (str "FIXME"), Pat.str (str "TEMP"),
    Pat.str (str "TODO"), .cat (Pat.str (str "XX")) (.plus (.chr 88))])) (.bound word))

/-- The rules, `ini.py:38-73`, with `comment_common()`, `language.py:45-58`. -/
def rules (word : Nat → Bool) : IL → List (PRule Nat IL IA)
  | .root =>
    [rule (Pat.str (str "[")) .start (some ⟨0, [.section]⟩),
     rule (.set fun c => (str ";#").contains c) .comment (some ⟨0, [.comment]⟩),
     rule (Pat.str (str "=")) .assign (some ⟨0, [.value]⟩)]
  | .section => [rule (Pat.str (str "]")) .stop (some ⟨1, []⟩)]
  | .key => valueRules .ident
  | .value => valueRules .data
  | .comment =>
    [rule dollar .comment (some ⟨1, []⟩),
     rule (emailPat word) .email,
     rule (urlPat word) .url,
     rule (alertPat word) .alert]

def dflt : IL → Dflt Nat IL IA
  | .root => .target ⟨0, [.key]⟩
  | .section => .action fun _ => .space
  | .key => .target ⟨1, []⟩
  | .value => .target ⟨1, []⟩
  | .comment => .action fun _ => .comment

/-- The language `Ini`, `ini.py:37-73`. The lexicon `section` has one literal rule, for which a faster parse function is made
    (`lexicon.py:313-367`); what it gives is the same (C24). -/
def lang (word : Nat → Bool) : Lang Nat IL IA RM := patLang .none (fun _ => false) (fun _ => false) (rules word) dflt

/-! ### The transform -/

/-- Python values: None, a string, a dictionary of dictionaries; `error` stands for an exception that was raised. -/
inductive IV where
  | none
  | str (s : List Nat)
  | dict (d : List (Option (List Nat) × List (List Nat × Option (List Nat))))
  | error
deriving DecidableEq, Repr

abbrev Itm := TItm Nat IL IA IV IL

/-- `' \t'` -/
def blank (c : Nat) : Bool := c == 32 || c == 9

/-- `t.startswith('\\')` -/
def isEscape (w : List Nat) : Bool := w.head? == some 92

/-- `w.lstrip(' \t')` -/
def lstrip (w : List Nat) : List Nat := w.dropWhile blank

/-- `w.rstrip(' \t')` -/
def rstrip (w : List Nat) : List Nat := (w.reverse.dropWhile blank).reverse

/-- `ini.py:130-131`. -/
def stripFirst : List (List Nat) → List (List Nat)
  | [] => []
  | w :: ws => (if isEscape w then w else lstrip w) :: ws

/-- `ini.py:132-133`. -/
def stripLast : List (List Nat) → List (List Nat)
  | [] => []
  | [w] => [if isEscape w then w else rstrip w]
  | w :: ws => w :: stripLast ws

/-- `ini.py:135-138`; none: an exception is raised, an IndexError from `t[1]` or a ValueError. -/
def unescape (hex : List Nat → Option Nat) (w : List Nat) : Option (List Nat) :=
  if isEscape w then
    match w with
    | _ :: c :: r => if c = 120 ∨ c = 88 then (hex r).map fun n => [n] else some [c]
    | _ => none
  else some w

/-- The text of a token. Other items do not occur here; they would have no `text` attribute. -/
def textOf : Itm → Option (List Nat)
  | .tok t => some t.text
  | _ => none

/-- `values()`, `ini.py:123-140`. -/
def valuesOf (hex : List Nat → Option Nat) (is : List Itm) : IV :=
  match (is.mapM textOf).bind fun ws => (stripLast (stripFirst ws)).mapM (unescape hex) with
  | some ws => .str ws.flatten
  | none => .error

/-- `section()`, `ini.py:109-113`. -/
def sectionOf (hex : List Nat → Option Nat) (is : List Itm) : IV :=
  valuesOf hex (match is.getLast? with
    | some (.tok t) => if t.act = .stop then is.dropLast else is
    | _ => is)

/-- `d[k] = v`: an equal key keeps its place and gets the new value. -/
def dictSet {K V : Type} [DecidableEq K] : List (K × V) → K → V → List (K × V)
  | [], k, v => [(k, v)]
  | (k', v') :: l, k, v => if k' = k then (k', v) :: l else (k', v') :: dictSet l k v

/-- `d[k]` -/
def dictGet {K V : Type} [DecidableEq K] : List (K × V) → K → Option V
  | [], _ => none
  | (k', v') :: l, k => if k' = k then some v' else dictGet l k

abbrev Section := List (List Nat × Option (List Nat))

/-- The dictionary `d` is the one that is in the result under the name `cur`. -/
def setIn (r : List (Option (List Nat) × Section)) (cur : Option (List Nat)) (k : List Nat) (v : Option (List Nat)) :
    List (Option (List Nat) × Section) :=
  dictSet r cur (dictSet ((dictGet r cur).getD []) k v)

/-- The text of a value; only strings occur. -/
def IV.text : IV → List Nat
  | .str s => s
  | _ => []

/-- `items.peek(i, "key", Operator.Assignment)`, for what is after the key, and the value, `ini.py:95-101`. -/
def assigned : List Itm → Option (Option (List Nat))
  | .tok t :: is =>
    if t.act = .assign then
      match is with
      | .item n v :: _ => if n = .value then some (some v.text) else some none
      | _ => some none
    else none
  | _ => none

/-- The loop over the items, `ini.py:92-104`. The code skips the assignment and the value when it has read them (`i += 1`); here they
    are skipped because the loop does nothing with them. -/
def rootLoop : List Itm → List (Option (List Nat) × Section) → Option (List Nat) → List (Option (List Nat) × Section)
  | [], r, _ => r
  | .item n s :: is, r, cur =>
    if n = .section then rootLoop is (dictSet r (some s.text) []) (some s.text)
    else if n = .key then
      match assigned is with
      | some v => rootLoop is (setIn r cur s.text v) cur
      | none => rootLoop is r cur
    else rootLoop is r cur
  | .tok _ :: is, r, cur => rootLoop is r cur
  | .raw _ :: is, r, cur => rootLoop is r cur

/-- An exception was raised for one of the items. -/
def failed (is : List Itm) : Bool := is.any (fun i => match i with
  | .item _ .error => true
  | _ => false)

/-- `root()`, `ini.py:84-108`. -/
def rootOf (is : List Itm) : IV :=
  if failed is then .error
  else
    let r := rootLoop is [(none, [])] none
    .dict (if dictGet r none = some [] then r.filter (fun e => e.1 ≠ none) else r)

/-- `IniTransform`, `ini.py:76-143`; `comment = None`. -/
def method (hex : List Nat → Option Nat) : IL → Option (Meth Nat IL IA IV IL)
  | .root => some ⟨fun il => rootOf il.elems, false⟩
  | .section => some ⟨fun il => sectionOf hex il.elems, false⟩
  | .key => some ⟨fun il => valuesOf hex il.elems, false⟩
  | .value => some ⟨fun il => valuesOf hex il.elems, false⟩
  | .comment => none

def env (hex : List Nat → Option Nat) : TrEnv Nat IL IA IV Unit IL where
  language _ := ()
  name l := l
  find _ l := method hex l

end Parce.Ini

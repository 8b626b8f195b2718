import Verif.Model.Xml
/-!
# Model of parce/lang/html.py (the language Html)

The rules of Xml are those of `Verif.Model.Xml`. The embedded languages Css and JavaScript are a parameter: their rules may lead to
lexicons `other n`, of which the rules are also given. `using(Css.inline)` is one action. The words of an optimised expression
(`words()`) are alternatives; no word is the start of another one, so their order does not matter. IGNORECASE is modelled for the
letters of the words: `k` then also matches U+212A, `s` also U+017F.
-/
namespace Parce.Html
open Parce.Json (Uni str)
open Parce.Xml (XL XA chr spaces spacesLazy)

/-- The argument of `attrs`, `html.py:50-51`, `96`. -/
inductive Arg where
  | none | css | js | noclose
deriving DecidableEq, Repr

/-- The lexicons: those of Xml, but `attrs` has an argument, and `html.py:64-82`. -/
inductive HL where
  | xml (l : XL)
  | attrs (a : Arg)
  | scriptTag | styleTag | styleAttr
  | other (n : Nat)
deriving DecidableEq, Repr

/-- The actions: those of Xml; `String`; those of the embedded languages; and for `bygroup(Name.Attribute, Operator, String)` and
    `bygroup(using(Css.inline), String)`. -/
inductive HA where
  | x (a : XA)
  | string
  | embedded (n : Nat)
  | inlineCss
  | styleGroups | inlineGroups
deriving DecidableEq, Repr

abbrev HRule := PRule Nat HL HA

/-- The rules of Css and JavaScript. -/
structure Ext where
  css : List HRule
  js : List HRule
  cssDflt : Dflt Nat HL HA
  jsDflt : Dflt Nat HL HA
  rules : Nat → List HRule
  dflt : Nat → Dflt Nat HL HA

/-- `HTML_VOID_ELEMENTS`, `html.py:42-45`. -/
def voids : List (List Nat) :=
  [str "area", str "base", str "br", str "col", str "embed", str "hr", str "img", str "input", str "link", str "meta",
   str "param", str "source", str "track", str "wbr", str "command", str "keygen", str "menuitem"]

/-- A lower-case letter, with IGNORECASE also its other forms. -/
def letter (ci : Bool) (c : Nat) : Pat Nat :=
  .set fun x => x == c || (ci && (x + 32 == c || (c == 107 && x == 0x212A) || (c == 115 && x == 0x17F)))

/-- A word in lower case. -/
def word (ci : Bool) : List Nat → Pat Nat
  | [] => .eps
  | [c] => letter ci c
  | c :: w => .cat (letter ci c) (word ci w)

/-- `words(HTML_VOID_ELEMENTS)`, `rule.py:346`. -/
def voidPat (ci : Bool) : Pat Nat := .alts (voids.map (word ci))

/-- `(<\s*?/)\s*((?:\w+:)?(?:...))\s*(>)`, `html.py:91`. -/
def voidClosePat (u : Uni) (ci : Bool) : Pat Nat :=
  .cat (.grp 1 (.cat (chr "<") (.cat (spacesLazy u) (chr "/")))) (.cat (spaces u)
    (.cat (.grp 2 (.cat (.opt (.cat (.plus (.set u.word)) (chr ":"))) (voidPat ci))) (.cat (spaces u) (.grp 3 (chr ">")))))

/-- `(<)\s*((?:...))(?:\s*((?:/\s*)?>))?`, `html.py:93`. -/
def voidOpenPat (u : Uni) (ci : Bool) : Pat Nat :=
  .cat (.grp 1 (chr "<")) (.cat (spaces u) (.cat (.grp 2 (voidPat ci))
    (.opt (.cat (spaces u) (.grp 3 (.cat (.opt (.cat (chr "/") (spaces u))) (chr ">")))))))

/-- `dselect(MATCH[3], {None: cls.attrs("noclose")})`, `html.py:94-96`. -/
def voidTarget (gs : List (Nat × List Nat)) : Option (Target HL) :=
  match gs.lookup 3 with
  | none => some ⟨0, [.attrs .noclose]⟩
  | some _ => none

/-- `(<)(style|script)\b(>|/\s*>)?`, `html.py:52`. -/
def stylePat (u : Uni) (ci : Bool) : Pat Nat :=
  .cat (.grp 1 (chr "<")) (.cat (.grp 2 (.alt (word ci (str "style")) (word ci (str "script")))) (.cat (.bound u.word)
    (.opt (.grp 3 (.alt (chr ">") (.cat (chr "/") (.cat (spaces u) (chr ">"))))))))

/-- `dselect(MATCH[2], {"style": dselect(MATCH[3], ...), "script": dselect(MATCH[3], ...)})`, `html.py:53-56`. -/
def styleTarget (gs : List (Nat × List Nat)) : Option (Target HL) :=
  if gs.lookup 2 = some (str "style") then
    match gs.lookup 3 with
    | none => some ⟨0, [.attrs .css]⟩
    | some w => if w = str ">" then some ⟨0, [.styleTag]⟩ else none
  else if gs.lookup 2 = some (str "script") then
    match gs.lookup 3 with
    | none => some ⟨0, [.attrs .js]⟩
    | some w => if w = str ">" then some ⟨0, [.scriptTag]⟩ else none
  else none

/-- A lexicon of Xml, as a target. -/
def lift : XL → HL
  | .attrs => .attrs .none
  | l => .xml l

/-- A rule of Xml. -/
def liftRule (r : PRule Nat XL XA) : HRule :=
  ⟨r.pat, fun w gs => (.x (r.out w gs).1, (r.out w gs).2.map fun t => ⟨t.pop, t.push.map lift⟩)⟩

def hrule (p : Pat Nat) (a : HA) (t : Option (Target HL) := none) : HRule := ⟨p, fun _ _ => (a, t)⟩

/-- `Html.root`, `html.py:88-98`, with `XHtml.root`, `html.py:50-57`; `tag` has the same rules, without IGNORECASE (`xml.py:106-107`). -/
def contentRules (u : Uni) (ci : Bool) : List HRule :=
  [hrule (voidClosePat u ci) (.x .tagGroups),
   ⟨voidOpenPat u ci, fun _ gs => (.x .tagGroups, voidTarget gs)⟩,
   ⟨stylePat u ci, fun _ gs => (.x .tagGroups, styleTarget gs)⟩] ++ (Xml.contentRules u ci).map liftRule

/-- What `>` leads to in `attrs`, `html.py:64-67`. -/
def attrsNext : Arg → List HL
  | .none => [.xml .tag]
  | .css => [.styleTag]
  | .js => [.scriptTag]
  | .noclose => []

/-- `(<\s*/)\s*(word)\s*(>)`, `html.py:73`, `79`. -/
def endPat (u : Uni) (w : List Nat) : Pat Nat :=
  .cat (.grp 1 (.cat (chr "<") (.cat (spaces u) (chr "/")))) (.cat (spaces u) (.cat (.grp 2 (Pat.str w)) (.cat (spaces u) (.grp 3 (chr ">")))))

/-- The rules of the lexicons, `html.py:48-98`. -/
def rules (u : Uni) (x : Ext) : HL → List HRule
  | .xml .root => contentRules u true
  | .xml .tag => contentRules u false
  | .xml l => (Xml.rules u l).map liftRule
  | .attrs a =>
    [hrule (.cat (.grp 1 (chr "style")) (.cat (spaces u) (.cat (.grp 2 (chr "=")) (.cat (spaces u) (.grp 3 (chr "\""))))))
       .styleGroups (some ⟨0, [.styleAttr]⟩),
     hrule (chr ">") (.x .delimiter) (some ⟨1, attrsNext a⟩)] ++ (Xml.rules u .attrs).map liftRule
  | .scriptTag => hrule (endPat u (str "script")) (.x .tagGroups) (some ⟨1, []⟩) :: x.js
  | .styleTag => hrule (endPat u (str "style")) (.x .tagGroups) (some ⟨1, []⟩) :: x.css
  | .styleAttr =>
    [hrule (.cat (.grp 1 (.star (.set fun c => c != 34))) (.grp 2 (chr "\""))) .inlineGroups (some ⟨1, []⟩)]
  | .other n => x.rules n

/-- What is done with other text. -/
def dflt (u : Uni) (x : Ext) : HL → Dflt Nat HL HA
  | .xml .root | .xml .tag => .action fun w => if w.all u.space then .x .whitespace else .x .text
  | .xml l => match Xml.dflt u l with
    | .action f => .action fun w => .x (f w)
    | _ => .skip
  | .attrs _ => .action fun _ => .x .invalid
  | .scriptTag => x.jsDflt
  | .styleTag => x.cssDflt
  | .styleAttr => .target ⟨1, []⟩
  | .other n => x.dflt n

/-- The actions of the groups. -/
def groups : HA → Option (List HA)
  | .x a => (Xml.groups a).map (·.map .x)
  | .styleGroups => some [.x .attribute, .x .operator, .string]
  | .inlineGroups => some [.inlineCss, .string]
  | _ => none

/-- The language `Html`. -/
def lang (u : Uni) (x : Ext) : Lang Nat HL HA RM := grpLang (.x .none) (· == .x .skip) groups (fun _ => false) (rules u x) (dflt u x)

end Parce.Html

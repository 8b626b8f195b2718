import Verif.Model.CssLang
import Verif.Spec.Json
import Verif.Spec.Ini
/-!
# CSS texts and what they stand for

A part of CSS: style rules with selectors and declarations, and at-rules without nested rules. Identifiers are written without
escapes. What is allowed only with `wide` is read wrongly by the code.
-/
namespace Parce.CssL
open Parce.Json (Uni str)

/-! ### Words, white space and comments -/

def IsLetter (c : Nat) : Prop := (65 ≤ c ∧ c ≤ 90) ∨ (97 ≤ c ∧ c ≤ 122)

def IsDigit (c : Nat) : Prop := 48 ≤ c ∧ c ≤ 57

def IsHexDigit (c : Nat) : Prop := IsDigit c ∨ (65 ≤ c ∧ c ≤ 70) ∨ (97 ≤ c ∧ c ≤ 102)

/-- A character that can be in an identifier: a hyphen, or a character that `\w` matches. -/
def IsName (u : Uni) (c : Nat) : Prop := u.word c = true ∨ c = 45

/-- An identifier: it starts with a letter or an underscore, that can have a hyphen before it, or with two hyphens. -/
structure Ident (u : Uni) (w : List Nat) : Prop where
  start : ∃ c r, w = c :: r ∧ (IsLetter c ∨ c = 95 ∨ (c = 45 ∧ ∃ d r', r = d :: r' ∧ (IsLetter d ∨ d = 95 ∨ d = 45)))
  all : ∀ c ∈ w, IsName u c

/-- The text does not go on with a character of an identifier, or with an escape. -/
def Stops (u : Uni) (rest : List Nat) : Prop := ∀ c, rest.head? = some c → ¬ IsName u c ∧ c ≠ 92

/-- White space. -/
def IsWs (c : Nat) : Prop := c = 32 ∨ c = 9 ∨ c = 10 ∨ c = 12 ∨ c = 13

/-- White space, or a comment. -/
inductive Blank where
  | ws (c : Nat)
  | comment (w : List Nat)
deriving DecidableEq

abbrev Blanks := List Blank

def Blank.text : Blank → List Nat
  | .ws c => [c]
  | .comment w => str "/*" ++ w ++ str "*/"

/-- The end `*/` is not inside a comment. -/
def Blank.ok : Blank → Prop
  | .ws c => IsWs c
  | .comment w => ∀ i, i < w.length → ¬ ((w ++ str "*/")[i]? = some 42 ∧ (w ++ str "*/")[i + 1]? = some 47)

def Blank.isComment : Blank → Bool
  | .ws _ => false
  | .comment _ => true

def btext (bs : Blanks) : List Nat := bs.flatMap Blank.text

def Bok (bs : Blanks) : Prop := ∀ b ∈ bs, b.ok

/-! ### Values -/

/-- A number: a sign, digits, a fraction, and an exponent with a sign. -/
def NumText (w : List Nat) : Prop :=
  ∃ s i f e, w = s ++ i ++ f ++ e ∧ (s = [] ∨ s = str "+" ∨ s = str "-") ∧ (∀ c ∈ i, IsDigit c) ∧
    ((f = [] ∧ i ≠ []) ∨ ∃ d, f = str "." ++ d ∧ d ≠ [] ∧ ∀ c ∈ d, IsDigit c) ∧
    (e = [] ∨ ∃ x g d, e = x ++ g ++ d ∧ (x = str "e" ∨ x = str "E") ∧ (g = str "+" ∨ g = str "-") ∧ d ≠ [] ∧ ∀ c ∈ d, IsDigit c)

/-- What is after a number: nothing, `%` or a unit. -/
inductive NUnit where
  | none
  | percent
  | word (w : List Nat)
deriving DecidableEq

def NUnit.text : NUnit → List Nat
  | .none => []
  | .percent => str "%"
  | .word w => w

def NUnit.name : NUnit → Option (List Nat)
  | .none => Option.none
  | .percent => some (str "%")
  | .word w => some w

mutual
/-- A part of a value. -/
inductive Arg where
  | ident (w : List Nat)
  | num (w : List Nat) (un : NUnit)
  /-- `#` and hexadecimal digits -/
  | color (w : List Nat)
  | func (name : List Nat) (as : Args)
  | url (w : List Nat)
  /-- in quotes -/
  | str (w : List Nat)
  | comma
  /-- an operator -/
  | op (c : Nat)
  /-- all blanks that are here -/
  | gap (bs : Blanks)
inductive Args where
  | nil
  | cons (a : Arg) (as : Args)
end

mutual
def Arg.text : Arg → List Nat
  | .ident w => w
  | .num w un => w ++ un.text
  | .color w => str "#" ++ w
  | .func n as => n ++ Json.str "(" ++ as.text ++ Json.str ")"
  | .url w => Json.str "url(" ++ w ++ Json.str ")"
  | .str w => Json.str "\"" ++ w ++ Json.str "\""
  | .comma => Json.str ","
  | .op c => [c]
  | .gap bs => btext bs
def Args.text : Args → List Nat
  | .nil => []
  | .cons a as => a.text ++ as.text
end

mutual
/-- The part is well-formed, when `rest` is the text after it. Operators can only be in the arguments of a function, unless `wide`. -/
def Arg.ok (u : Uni) (k : Words) (wide : Bool) : Arg → (inFunc : Bool) → (rest : List Nat) → Prop
  | .ident w, _, rest => Ident u w ∧ Stops u rest ∧ rest.head? ≠ some 40 ∧ (wide = true ∨ w ≠ Json.str "transparent" ∨ k.isColor w = true)
  | .num w .none, _, rest => NumText w ∧ Stops u rest ∧ rest.head? ≠ some 37 ∧ rest.head? ≠ some 46
  | .num w .percent, _, _ => NumText w
  | .num w (.word x), _, rest => NumText w ∧ x ≠ [] ∧ (∀ c ∈ x, IsLetter c) ∧ Stops u rest ∧ rest.head? ≠ some 43 ∧ rest.head? ≠ some 37
  | .color w, _, rest => (∀ c ∈ w, IsHexDigit c) ∧ (w.length = 3 ∨ w.length = 4 ∨ w.length = 6 ∨ w.length = 8) ∧ Stops u rest
  | .func n as, _, rest => Ident u n ∧ n ≠ Json.str "url" ∧ as.ok u k wide true (41 :: rest)
  | .url w, _, _ => (∀ c ∈ w, c ≠ 41 ∧ c ≠ 34 ∧ c ≠ 39 ∧ c ≠ 92) ∧ ∀ i, ¬ (w[i]? = some 47 ∧ w[i + 1]? = some 42)
  | .str w, _, _ => wide = true ∧ ∀ c ∈ w, c ≠ 34 ∧ c ≠ 92 ∧ c ≠ 10
  | .comma, _, _ => True
  | .op c, inFunc, rest => (inFunc = true ∨ (wide = true ∧ c = 47)) ∧ (c = 42 ∨ (c = 43 ∧ ∀ d, rest.head? = some d → u.digit d = false ∧ d ≠ 46) ∨
      (c = 47 ∧ rest.head? ≠ some 42))
  | .gap bs, _, rest => Bok bs ∧ ∀ c, rest.head? = some c → u.space c = false
def Args.ok (u : Uni) (k : Words) (wide : Bool) : Args → (inFunc : Bool) → (rest : List Nat) → Prop
  | .nil, _, _ => True
  | .cons a as, inFunc, rest => a.ok u k wide inFunc (as.text ++ rest) ∧ as.ok u k wide inFunc rest
end

variable {Q K : Type}

mutual
/-- What the part stands for. Functions for colours and numbers are parameters. -/
def Arg.vals (k : Words) (f : Funcs Q K) : Arg → List (CV Q K)
  | .ident w => [if k.isColor w ∨ w = Json.str "transparent" then Value (color := some (f.named w)) (text := some w) else Value (text := some w)]
  | .num w un => [Value (text := some w) (number := some (f.num w)) (unit := un.name)]
  | .color w => [Value (color := some (f.hexColor w)) (text := some (Json.str "#" ++ w))]
  | .func n as => [if n = Json.str "rgb" ∨ n = Json.str "rgba" then Value (color := some (f.rgba (as.vals k f)))
      else Value (func := some n) (args := as.vals k f)]
  | .url w => [Value (url := some w)]
  | .str w => [Value (text := some w) (quoted := true)]
  | .comma => [.text (Json.str ",")]
  | .op c => [.text [c]]
  | .gap _ => []
def Args.vals (k : Words) (f : Funcs Q K) : Args → List (CV Q K)
  | .nil => []
  | .cons a as => a.vals k f ++ as.vals k f
end

/-! ### Declarations -/

/-- A property, blanks, a colon, and the value; with `important` also `!important` and blanks. -/
structure Decl where
  name : List Nat
  g : Blanks
  args : Args
  important : Option Blanks

def Decl.bang (d : Decl) : List Nat :=
  match d.important with
  | none => []
  | some g => str "!important" ++ btext g

def Decl.text (d : Decl) : List Nat := d.name ++ btext d.g ++ str ":" ++ d.args.text ++ d.bang

def Decl.ok (u : Uni) (k : Words) (wide : Bool) (d : Decl) (rest : List Nat) : Prop :=
  Ident u d.name ∧ Bok d.g ∧ d.args.ok u k wide false (d.bang ++ rest) ∧ ∀ g, d.important = some g → Bok g

def Decl.entry (k : Words) (f : Funcs Q K) (d : Decl) : List Nat × List (CV Q K) :=
  (d.name, d.args.vals k f ++ if d.important.isSome then [.text (str "!important")] else [])

/-- Declarations, separated by semicolons; with blanks before them. -/
inductive Block where
  | nil (g : Blanks)
  | last (g : Blanks) (d : Decl)
  /-- a semicolon -/
  | semi (g : Blanks) (b : Block)
  | cons (g : Blanks) (d : Decl) (b : Block)

def Block.text : Block → List Nat
  | .nil g => btext g
  | .last g d => btext g ++ d.text
  | .semi g b => btext g ++ str ";" ++ b.text
  | .cons g d b => btext g ++ d.text ++ str ";" ++ b.text

def Block.ok (u : Uni) (k : Words) (wide : Bool) : Block → Prop
  | .nil g => Bok g
  | .last g d => Bok g ∧ d.ok u k wide (str "}")
  | .semi g b => Bok g ∧ b.ok u k wide
  | .cons g d b => Bok g ∧ d.ok u k wide (str ";") ∧ b.ok u k wide

/-- The properties with their values. -/
def Block.entries (k : Words) (f : Funcs Q K) : Block → List (List Nat × List (CV Q K))
  | .nil _ => []
  | .last _ d => [d.entry k f]
  | .semi _ b => b.entries k f
  | .cons _ d b => d.entry k f :: b.entries k f

def Block.value (k : Words) (f : Funcs Q K) (b : Block) : CV Q K := .dict (Ini.dictOf (b.entries k f))

/-! ### Selectors -/

/-- An element: `*` or a name. -/
inductive Elem where
  | any
  | name (w : List Nat)

/-- A combinator between selectors: blanks, or an operator. -/
inductive Comb where
  | desc (g : Blanks)
  | op (g : Blanks) (o : List Nat) (g' : Blanks)

mutual
/-- A part of a selector. -/
inductive Simple where
  | id (w : List Nat)
  | cls (w : List Nat)
  | pelem (w : List Nat)
  | pcls (w : List Nat)
  | pfun (w : List Nat) (s : Sels)
  /-- `[w]`, with blanks before the bracket -/
  | attr (w : List Nat) (g : List Nat)
  /-- `[w op v]` -/
  | attrVal (w g op g' v g'' : List Nat)
inductive Simples where
  | nil
  | cons (s : Simple) (ss : Simples)
/-- What follows the first selector: combinators and selectors. -/
inductive Steps where
  | nil
  | cons (c : Comb) (e : Option Elem) (s : Simples) (r : Steps)
/-- One or more selectors, with blanks around them. -/
inductive Sels where
  | one (g : Blanks) (e : Option Elem) (s : Simples) (r : Steps) (g' : Blanks)
  | more (g : Blanks) (e : Option Elem) (s : Simples) (r : Steps) (g' : Blanks) (ss : Sels)
end

def Elem.text : Option Elem → List Nat
  | none => []
  | some .any => str "*"
  | some (.name w) => w

def Comb.text : Comb → List Nat
  | .desc g => btext g
  | .op g o g' => btext g ++ o ++ btext g'

mutual
def Simple.text : Simple → List Nat
  | .id w => str "#" ++ w
  | .cls w => str "." ++ w
  | .pelem w => str "::" ++ w
  | .pcls w => str ":" ++ w
  | .pfun w s => str ":" ++ w ++ str "(" ++ s.text ++ str ")"
  | .attr w g => str "[" ++ w ++ g ++ str "]"
  | .attrVal w g op g' v g'' => str "[" ++ w ++ g ++ op ++ g' ++ v ++ g'' ++ str "]"
def Simples.text : Simples → List Nat
  | .nil => []
  | .cons s ss => s.text ++ ss.text
def Steps.text : Steps → List Nat
  | .nil => []
  | .cons c e s r => c.text ++ Elem.text e ++ s.text ++ r.text
def Sels.text : Sels → List Nat
  | .one g e s r g' => btext g ++ Elem.text e ++ s.text ++ r.text ++ btext g'
  | .more g e s r g' ss => btext g ++ Elem.text e ++ s.text ++ r.text ++ btext g' ++ str "," ++ ss.text
end

/-- Only white space. -/
def Wok (g : List Nat) : Prop := ∀ c ∈ g, IsWs c

def Elem.ok (u : Uni) : Option Elem → Prop
  | some (.name w) => Ident u w
  | _ => True

/-- White space between two selectors means that the one is a descendant of the other. Before `||` a blank is needed, unless `wide`. -/
def Comb.ok (wide : Bool) : Comb → Prop
  | .desc g => Bok g ∧ ∃ c, .ws c ∈ g
  | .op g o g' => Bok g ∧ Bok g' ∧ (o = str ">" ∨ o = str "+" ∨ o = str "~" ∨ (o = str "||" ∧ (wide = true ∨ g ≠ [])))

/-- The operators for attributes. -/
def attrOps : List (List Nat) := [str "=", str "~=", str "|=", str "^=", str "$=", str "*="]

mutual
def Simple.ok (u : Uni) (wide : Bool) : Simple → Prop
  | .id w => Ident u w
  | .cls w => Ident u w
  | .pelem w => Ident u w
  | .pcls w => Ident u w
  | .pfun w s => Ident u w ∧ s.ok u wide
  | .attr w g => Ident u w ∧ Wok g
  | .attrVal w g op g' v g'' => Ident u w ∧ Wok g ∧ op ∈ attrOps ∧ Wok g' ∧ Ident u v ∧ Wok g''
def Simples.ok (u : Uni) (wide : Bool) : Simples → Prop
  | .nil => True
  | .cons s ss => s.ok u wide ∧ ss.ok u wide
def Steps.ok (u : Uni) (wide : Bool) : Steps → Prop
  | .nil => True
  | .cons c e s r => c.ok wide ∧ Elem.ok u e ∧ (e ≠ none ∨ s ≠ .nil) ∧ s.ok u wide ∧ r.ok u wide
def Sels.ok (u : Uni) (wide : Bool) : Sels → Prop
  | .one g e s r g' => Bok g ∧ Elem.ok u e ∧ (e ≠ none ∨ s ≠ .nil) ∧ s.ok u wide ∧ r.ok u wide ∧ Bok g'
  | .more g e s r g' ss => Bok g ∧ Elem.ok u e ∧ (e ≠ none ∨ s ≠ .nil) ∧ s.ok u wide ∧ r.ok u wide ∧ Bok g' ∧ ss.ok u wide
end

/-- The values for every key, with the keys in the order in which they first appear. -/
def grouped {A B : Type} [DecidableEq A] : List (A × B) → List (A × List B)
  | [] => []
  | (a, b) :: l => (a, b :: (l.filter (·.1 = a)).map (·.2)) :: (grouped l).filter (·.1 ≠ a)

def Elem.pairs : Option Elem → List (CL × CV Q K)
  | some (.name w) => [(.elementSelector, .text w)]
  | _ => []

def Comb.op' : Comb → List Nat
  | .desc _ => str " "
  | .op _ o _ => o

mutual
/-- The kind of the selector, and what stands for it. -/
def Simple.pair : Simple → CL × CV Q K
  | .id w => (.idSelector, .text w)
  | .cls w => (.classSelector, .text w)
  | .pelem w => (.pseudoElement, .text w)
  | .pcls w => (.pseudoClass, .list [.text w, .none])
  | .pfun w s => (.pseudoClass, .list [.text w, .list s.values])
  | .attr w _ => (.attributeSelector, .list [.text w, .none, .none, .none])
  | .attrVal w _ op _ v _ => (.attributeSelector, .list [.text w, .text op, .text v, .none])
def Simples.pairs : Simples → List (CL × CV Q K)
  | .nil => []
  | .cons s ss => s.pair :: ss.pairs
/-- Operators and selectors alternate. -/
def Steps.values : Steps → List (CV Q K)
  | .nil => []
  | .cons c e s r => .text c.op' :: .sel (grouped (Elem.pairs e ++ s.pairs)) :: r.values
def Sels.values : Sels → List (CV Q K)
  | .one _ e s r _ => [.list (.sel (grouped (Elem.pairs e ++ s.pairs)) :: r.values)]
  | .more _ e s r _ ss => .list (.sel (grouped (Elem.pairs e ++ s.pairs)) :: r.values) :: ss.values
end

/-- The blanks before the first selector. -/
def Sels.lead : Sels → Blanks
  | .one g _ _ _ _ => g
  | .more g _ _ _ _ _ => g

/-! ### Style sheets -/

/-- A rule, or an at-rule. -/
inductive Stmt where
  | rule (s : Sels) (b : Block)
  | «at» (kw : List Nat) (as : Args)
  | atBlock (kw : List Nat) (as : Args) (b : Block)

def Stmt.text : Stmt → List Nat
  | .rule s b => s.text ++ str "{" ++ b.text ++ str "}"
  | .at kw as => str "@" ++ kw ++ as.text ++ str ";"
  | .atBlock kw as b => str "@" ++ kw ++ as.text ++ str "{" ++ b.text ++ str "}"

/-- The keywords of at-rules with nested rules. -/
def nesting : List (List Nat) := [str "media", str "supports", str "document"]

/-- A keyword of another at-rule. -/
def Keyword (u : Uni) (kw rest : List Nat) : Prop :=
  Ident u kw ∧ Stops u rest ∧ ∀ n ∈ nesting, ∀ r, kw = n ++ r → ∃ c, r.head? = some c ∧ u.word c = true

def Stmt.ok (u : Uni) (k : Words) (wide : Bool) : Stmt → Prop
  | .rule s b => s.ok u wide ∧ s.lead = [] ∧ b.ok u k wide
  | .at kw as => Keyword u kw (as.text ++ str ";") ∧ as.ok u k wide false (str ";")
  | .atBlock kw as b => Keyword u kw (as.text ++ str "{") ∧ as.ok u k wide false (str "{") ∧ b.ok u k wide

def Stmt.value (k : Words) (f : Funcs Q K) : Stmt → CV Q K
  | .rule s b => .rule (.list s.values) (b.value k f)
  | .at kw as => .atrule (.text kw) (.list (as.vals k f)) .none
  | .atBlock kw as b => .atrule (.text kw) (.list (as.vals k f)) (b.value k f)

/-- Blanks, and rules with blanks after them. -/
structure Css where
  g : Blanks
  stmts : List (Stmt × Blanks)

def Css.text (s : Css) : List Nat := btext s.g ++ s.stmts.flatMap fun x => x.1.text ++ btext x.2

def Css.ok (u : Uni) (k : Words) (wide : Bool) (s : Css) : Prop :=
  Bok s.g ∧ ∀ x ∈ s.stmts, x.1.ok u k wide ∧ Bok x.2

/-- What the style sheet stands for: the list of its rules. -/
def Css.value (k : Words) (f : Funcs Q K) (s : Css) : CV Q K := .list (s.stmts.map fun x => x.1.value k f)

/-- The blanks after the last rule. -/
def Css.tail (s : Css) : Blanks :=
  match s.stmts.getLast? with
  | none => s.g
  | some x => x.2

/-- There is a comment after the last rule. -/
def Css.endsInComment (s : Css) : Prop := ∃ b ∈ s.tail, b.isComment = true

end Parce.CssL

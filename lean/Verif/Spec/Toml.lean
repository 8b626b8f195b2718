import Verif.Model.Toml
import Verif.Spec.Json
/-!
# TOML texts, and the tree one expects for them

Documents after https://toml.io/en/v1.0.0, with their text, and the tree of contexts and tokens that has their structure. Left out are
comments with addresses and the like.
-/
namespace Parce.Toml
open Parce.Json (Uni str)

/-- Spaces and tabs. -/
def Blank (w : List Nat) : Prop := ∀ c ∈ w, c = 32 ∨ c = 9

/-- Spaces, tabs and newlines. -/
def Ws (w : List Nat) : Prop := ∀ c ∈ w, c = 32 ∨ c = 9 ∨ c = 10

def IsDigit (c : Nat) : Prop := 48 ≤ c ∧ c ≤ 57

def IsHexDigit (c : Nat) : Prop := IsDigit c ∨ (97 ≤ c ∧ c ≤ 102) ∨ (65 ≤ c ∧ c ≤ 70)

/-- A character of a bare key. -/
def IsBare (c : Nat) : Prop := IsDigit c ∨ (97 ≤ c ∧ c ≤ 122) ∨ (65 ≤ c ∧ c ≤ 90) ∨ c = 95 ∨ c = 45

/-- `n` digits. -/
def Digits (n : Nat) (w : List Nat) : Prop := w.length = n ∧ ∀ c ∈ w, IsDigit c

/-- Digits, with underscores between them. -/
inductive Grouped (D : Nat → Prop) : List Nat → Prop
  | one {c} : D c → Grouped D [c]
  | next {c w} : D c → Grouped D w → Grouped D (c :: w)
  | under {c w} : D c → Grouped D w → Grouped D (c :: 95 :: w)

def Sign (w : List Nat) : Prop := w = [] ∨ w = [43] ∨ w = [45]

/-- An integer or a float, in decimals. (TOML does not allow leading zeros, this does.) -/
def Dec (w : List Nat) : Prop := ∃ s i f e, w = s ++ i ++ f ++ e ∧ Sign s ∧ Grouped IsDigit i ∧
  (f = [] ∨ ∃ g, f = 46 :: g ∧ Grouped IsDigit g) ∧
  (e = [] ∨ ∃ x s' g, e = x :: s' ++ g ∧ (x = 101 ∨ x = 69) ∧ Sign s' ∧ Grouped IsDigit g)

/-- A hexadecimal, octal or binary integer. -/
def Radix (w : List Nat) : Prop := ∃ x g, w = 48 :: x :: g ∧
  ((x = 120 ∧ Grouped IsHexDigit g) ∨ (x = 111 ∧ Grouped (fun c => 48 ≤ c ∧ c ≤ 55) g) ∨ (x = 98 ∧ Grouped (fun c => c = 48 ∨ c = 49) g))

/-- `1979-05-27` -/
def Date (w : List Nat) : Prop := ∃ y m d, w = y ++ 45 :: (m ++ 45 :: d) ∧ Digits 4 y ∧ Digits 2 m ∧ Digits 2 d

/-- `07:32:00.999-07:00`, where the fraction and the offset may be left out. -/
def Time (w : List Nat) : Prop := ∃ h m s f z, w = h ++ 58 :: (m ++ 58 :: (s ++ (f ++ z))) ∧ Digits 2 h ∧ Digits 2 m ∧ Digits 2 s ∧
  (f = [] ∨ ∃ g, f = 46 :: g ∧ g ≠ [] ∧ ∀ c ∈ g, IsDigit c) ∧
  (z = [] ∨ z = [90] ∨ z = [122] ∨ ∃ x a b, z = x :: (a ++ 58 :: b) ∧ (x = 43 ∨ x = 45) ∧ Digits 2 a ∧ Digits 2 b)

/-- A date, a time, or both. -/
def Stamp (w : List Nat) : Prop :=
  Date w ∨ Time w ∨ ∃ d x t, w = d ++ x :: t ∧ Date d ∧ (x = 32 ∨ x = 84 ∨ x = 116) ∧ Time t

/-- What is after a backslash. With `strict`, also the long form. -/
def Escape (strict : Bool) (w : List Nat) : Prop :=
  (∃ c, w = [c] ∧ c ∈ str "\"\\bfnrt") ∨ (∃ h, w = 117 :: h ∧ h.length = 4 ∧ ∀ c ∈ h, IsHexDigit c) ∨
  (strict = true ∧ ∃ h, w = 85 :: h ∧ h.length = 8 ∧ ∀ c ∈ h, IsHexDigit c)

/-- A piece of a string between double quotes: characters, or an escape. -/
inductive Part where
  | chars (w : List Nat)
  | esc (w : List Nat)

def Part.text : Part → List Nat
  | .chars w => w
  | .esc w => 92 :: w

def partsText (l : List Part) : List Nat := l.flatMap Part.text

def partsOk (strict : Bool) : List Part → Prop
  | [] => True
  | .chars w :: l => w ≠ [] ∧ (∀ c ∈ w, c ≠ 34 ∧ c ≠ 92 ∧ c ≠ 10) ∧ (∀ w' l', l ≠ .chars w' :: l') ∧ partsOk strict l
  | .esc w :: l => Escape strict w ∧ partsOk strict l

def LitOk (w : List Nat) : Prop := ∀ c ∈ w, c ≠ 39 ∧ c ≠ 10

/-- A piece of a multi-line string between `"""`: characters, an escape, or a backslash at the end of a line, with the white space after it. -/
inductive MPart where
  | chars (w : List Nat)
  | esc (w : List Nat)
  | cont (w : List Nat)

def MPart.text : MPart → List Nat
  | .chars w => w
  | .esc w => 92 :: w
  | .cont w => 92 :: w

def mpartsText (l : List MPart) : List Nat := l.flatMap MPart.text

/-- Without `strict`, the string does not end with a quote. (The white space after a backslash ends at a character of ASCII.) -/
def mpartsOk (strict : Bool) : List MPart → Prop
  | [] => True
  | .chars w :: l => w ≠ [] ∧ 92 ∉ w ∧ ¬ [34, 34, 34] <:+: w ∧ (l = [] → strict = false → w.getLast? ≠ some 34) ∧ (∀ w' l', l ≠ .chars w' :: l') ∧ mpartsOk strict l
  | .esc w :: l => Escape strict w ∧ mpartsOk strict l
  | .cont w :: l => (∃ b r, w = b ++ 10 :: r ∧ Blank b ∧ Ws r) ∧ (∀ w' l', l = .chars w' :: l' → ∃ c q, w' = c :: q ∧ 33 ≤ c ∧ c ≤ 126) ∧ mpartsOk strict l

/-- The text between `'''`; `nl` tells that there is a newline before it, which is not a part of the string. -/
def MLitOk (strict nl : Bool) (w : List Nat) : Prop :=
  ¬ [39, 39, 39] <:+: w ∧ (strict = false → w.getLast? ≠ some 39) ∧ (nl = false → w.head? ≠ some 10)

/-- A part of a key. -/
inductive Comp where
  | bare (w : List Nat)
  | basic (l : List Part)
  | lit (w : List Nat)

def Comp.text : Comp → List Nat
  | .bare w => w
  | .basic l => 34 :: (partsText l ++ [34])
  | .lit w => 39 :: (w ++ [39])

def Comp.ok (strict : Bool) : Comp → Prop
  | .bare w => w ≠ [] ∧ ∀ c ∈ w, IsBare c
  | .basic l => partsOk strict l
  | .lit w => LitOk w

def Comp.quoted : Comp → Bool
  | .bare _ => false
  | _ => true

/-- A key: its first part, and the others, with the white space before the dot and after it. -/
structure Key where
  first : Comp
  more : List (List Nat × List Nat × Comp)

def moreText : List (List Nat × List Nat × Comp) → List Nat
  | [] => []
  | (b, a, c) :: l => b ++ 46 :: (a ++ (c.text ++ moreText l))

def Key.text (k : Key) : List Nat := k.first.text ++ moreText k.more

/-- Without `strict`, there is white space between a quoted part and the dot after it. -/
def moreOk (strict : Bool) : Comp → List (List Nat × List Nat × Comp) → Prop
  | _, [] => True
  | c, (b, a, c') :: l => Blank b ∧ Blank a ∧ (strict = false → c.quoted = true → b ≠ []) ∧ c'.ok strict ∧ moreOk strict c' l

def Key.ok (strict : Bool) (k : Key) : Prop := k.first.ok strict ∧ moreOk strict k.first k.more

/-- Texts that have tokens of their own in comments: parts of addresses, and words that ask for attention. Comments with them are left out. -/
def noted : List String := ["@", ":/", "www.", "ALERT", "BUG", "FIXME", "TEMP", "TODO", "XXX"]

/-- The text of a comment after `#`. -/
def ComOk (w : List Nat) : Prop := (∀ c ∈ w, c ≠ 10) ∧ ∀ s ∈ noted, ¬ str s <:+: w

/-- White space, and perhaps comments, each with a newline and white space after it. -/
inductive Gap where
  | ws (w : List Nat)
  | com (w c : List Nat) (g : Gap)

def Gap.text : Gap → List Nat
  | .ws w => w
  | .com w c g => w ++ 35 :: (c ++ 10 :: g.text)

def Gap.ok : Gap → Prop
  | .ws w => Ws w
  | .com w c g => Ws w ∧ ComOk c ∧ g.ok

mutual
/-- A value. -/
inductive Val where
  /-- an integer or a float -/
  | num (w : List Nat)
  /-- a date or a time -/
  | stamp (w : List Nat)
  | bool (b : Bool)
  /-- a string between `"` -/
  | basic (l : List Part)
  /-- a string between `'` -/
  | lit (w : List Nat)
  /-- a multi-line string between `"""` -/
  | mbasic (l : List MPart)
  /-- a multi-line string between `'''` -/
  | mlit (nl : Bool) (w : List Nat)
  | arr (e : Elems)
  /-- `inf` or `nan`, with a sign -/
  | inf (s : List Nat) (nan : Bool)
  /-- an inline table -/
  | tbl (f : Fields)
/-- What is between the brackets of an array. -/
inductive Elems where
  /-- white space and comments only; also after a comma -/
  | nil (g : Gap)
  /-- a value, with white space and comments before and after it -/
  | last (l : Gap) (v : Val) (r : Gap)
  /-- a value and a comma -/
  | more (l : Gap) (v : Val) (r : Gap) (e : Elems)
/-- What is after the opening brace of an inline table. -/
inductive Fields where
  /-- blanks only. (TOML does not allow this after a comma.) -/
  | nil (l : List Nat)
  /-- `key = value`, with blanks before and after each part -/
  | last (l : List Nat) (k : Key) (b a : List Nat) (v : Val) (r : List Nat)
  /-- the same, and a comma -/
  | more (l : List Nat) (k : Key) (b a : List Nat) (v : Val) (r : List Nat) (f : Fields)
end

def infText (nan : Bool) : List Nat := if nan then str "nan" else str "inf"

mutual
def Val.text : Val → List Nat
  | .num w => w
  | .stamp w => w
  | .bool b => if b then str "true" else str "false"
  | .basic l => 34 :: (partsText l ++ [34])
  | .lit w => 39 :: (w ++ [39])
  | .mbasic l => [34, 34, 34] ++ (mpartsText l ++ [34, 34, 34])
  | .mlit nl w => [39, 39, 39] ++ ((if nl then [10] else []) ++ (w ++ [39, 39, 39]))
  | .arr e => 91 :: (e.text ++ [93])
  | .inf s nan => s ++ infText nan
  | .tbl f => 123 :: f.text
def Elems.text : Elems → List Nat
  | .nil g => g.text
  | .last l v r => l.text ++ (v.text ++ r.text)
  | .more l v r e => l.text ++ (v.text ++ (r.text ++ 44 :: e.text))
def Fields.text : Fields → List Nat
  | .nil l => l ++ [125]
  | .last l k b a v r => l ++ (k.text ++ (b ++ 61 :: (a ++ (v.text ++ (r ++ [125])))))
  | .more l k b a v r f => l ++ (k.text ++ (b ++ 61 :: (a ++ (v.text ++ (r ++ 44 :: f.text)))))
end

mutual
def Val.ok (strict : Bool) : Val → Prop
  | .num w => Dec w ∨ Radix w
  | .stamp w => Stamp w
  | .bool _ => True
  | .basic l => partsOk strict l
  | .lit w => LitOk w
  | .mbasic l => mpartsOk strict l
  | .mlit nl w => MLitOk strict nl w
  | .arr e => e.ok strict
  | .inf s _ => Sign s
  | .tbl f => f.ok strict
def Elems.ok (strict : Bool) : Elems → Prop
  | .nil g => g.ok
  | .last l v r => l.ok ∧ v.ok strict ∧ r.ok
  | .more l v r e => l.ok ∧ v.ok strict ∧ r.ok ∧ e.ok strict
def Fields.ok (strict : Bool) : Fields → Prop
  | .nil l => Blank l
  | .last l k b a v r => Blank l ∧ k.ok strict ∧ Blank b ∧ Blank a ∧ v.ok strict ∧ Blank r
  | .more l k b a v r f => Blank l ∧ k.ok strict ∧ Blank b ∧ Blank a ∧ v.ok strict ∧ Blank r ∧ f.ok strict
end

/-- A comment, or no comment. -/
def comText : Option (List Nat) → List Nat
  | none => []
  | some w => 35 :: w

def comOk : Option (List Nat) → Prop
  | none => True
  | some w => ComOk w

/-- A line. -/
inductive Item where
  /-- `[key]` or `[[key]]`, and perhaps a comment -/
  | table (double : Bool) (a : List Nat) (k : Key) (b r : List Nat) (c : Option (List Nat) := none)
  /-- `key = value`, and perhaps a comment -/
  | pair (k : Key) (b a : List Nat) (v : Val) (r : List Nat) (c : Option (List Nat) := none)
  /-- a comment -/
  | comment (w : List Nat)

def Item.text : Item → List Nat
  | .table d a k b r c => (if d then str "[[" else str "[") ++ (a ++ (k.text ++ (b ++ ((if d then str "]]" else str "]") ++ (r ++ comText c)))))
  | .pair k b a v r c => k.text ++ (b ++ 61 :: (a ++ (v.text ++ (r ++ comText c))))
  | .comment w => 35 :: w

def Item.ok (strict : Bool) : Item → Prop
  | .table _ a k b r c => Blank a ∧ k.ok strict ∧ Blank b ∧ Blank r ∧ comOk c
  | .pair k b a v r c => k.ok strict ∧ Blank b ∧ Blank a ∧ v.ok strict ∧ Blank r ∧ comOk c
  | .comment w => ComOk w

/-- A document: white space, and lines, each with a newline and white space (also empty lines) after it. -/
def linesText : List (Item × List Nat) → List Nat
  | [] => []
  | (i, w) :: l => i.text ++ 10 :: (w ++ linesText l)

def docText (ws : List Nat) (l : List (Item × List Nat)) : List Nat := ws ++ linesText l

def docOk (strict : Bool) (ws : List Nat) (l : List (Item × List Nat)) : Prop := Ws ws ∧ ∀ x ∈ l, x.1.ok strict ∧ Ws x.2

/-! ### Trees -/

/-- A tree without positions. -/
inductive V where
  | tok (w : List Nat) (a : TA)
  | ctx (l : TL) (cs : List V)
deriving Repr

mutual
def view : Node Nat TL TA → V
  | .tok t => .tok t.text t.act
  | .ctx l cs => .ctx l (views cs)
def views : List (Node Nat TL TA) → List V
  | [] => []
  | n :: ns => view n :: views ns
end

def Part.view : Part → V
  | .chars w => .tok w .string
  | .esc w => .tok (92 :: w) .stringEscape

def basicView (l : List Part) : List V := [.tok [34] .string, .ctx .stringBasic (l.map Part.view ++ [.tok [34] .string])]

def litView (w : List Nat) : List V :=
  [.tok [39] .string, .ctx .stringLiteral ((if w = [] then [] else [.tok w .string]) ++ [.tok [39] .string])]

def MPart.view : MPart → V
  | .chars w => .tok w .string
  | .esc w => .tok (92 :: w) .stringEscape
  | .cont w => .tok (92 :: w) .whitespace

def mbasicView (l : List MPart) : List V := [.tok [34, 34, 34] .string, .ctx .stringMultilineBasic (l.map MPart.view ++ [.tok [34, 34, 34] .string])]

def mlitView (nl : Bool) (w : List Nat) : List V :=
  .tok [39, 39, 39] .string :: ((if nl then [.tok [10] .whitespace] else []) ++
    [.ctx .stringMultilineLiteral ((if w = [] then [] else [.tok w .string]) ++ [.tok [39, 39, 39] .string])])

def Comp.view (a : TA) : Comp → List V
  | .bare w => [.tok w a]
  | .basic l => basicView l
  | .lit w => litView w

/-- The names of tables and of values have different actions. -/
def Key.view (a : TA) (k : Key) : List V := k.first.view a ++ k.more.flatMap fun x => .tok [46] .dot :: x.2.2.view a

/-- The `#`; it is in the context before that of the comment. -/
def hashView : Option (List Nat) → List V
  | none => []
  | some _ => [.tok [35] .comment]

/-- The text of a comment that is not empty. -/
def comView : Option (List Nat) → List V
  | none => []
  | some w => if w = [] then [] else [.ctx .comment [.tok w .comment]]

def Gap.view : Gap → List V
  | .ws _ => []
  | .com _ c g => hashView (some c) ++ (comView (some c) ++ g.view)

mutual
def Val.view : Val → List V
  | .num w => [.tok w .number]
  | .stamp w => [.tok w .timestamp]
  | .bool b => [.tok (if b then str "true" else str "false") .constant]
  | .basic l => basicView l
  | .lit w => litView w
  | .mbasic l => mbasicView l
  | .mlit nl w => mlitView nl w
  | .arr e => [.tok [91] .bracket, .ctx .array (e.view ++ [.tok [93] .bracket])]
  | .inf s nan => [.tok (s ++ infText nan) .number]
  | .tbl f => [.tok [123] .bracket, .ctx .inlineTable f.view]
def Elems.view : Elems → List V
  | .nil g => g.view
  | .last l v r => l.view ++ (v.view ++ r.view)
  | .more l v r e => l.view ++ (v.view ++ (r.view ++ .tok [44] .separator :: e.view))
def Fields.view : Fields → List V
  | .nil _ => [.tok [125] .bracket]
  | .last _ k _ _ v _ => [.ctx .inlineKey (k.view .variable ++ [.tok [61] .assign]), .ctx .inlineValue (v.view ++ [.tok [125] .bracket])]
  | .more _ k _ _ v _ f =>
    .ctx .inlineKey (k.view .variable ++ [.tok [61] .assign]) :: .ctx .inlineValue (v.view ++ [.tok [44] .separator]) :: f.view
end

def Item.view : Item → List V
  | .table d _ k _ _ c =>
    (if d then [.tok (str "[[") .bracketStart, .ctx .arrayTable (k.view .namespace ++ [.tok (str "]]") .bracketEnd])]
    else [.tok (str "[") .bracketStart, .ctx .table (k.view .namespace ++ [.tok (str "]") .bracketEnd])]) ++ (hashView c ++ comView c)
  | .pair k _ _ v _ c => .ctx .key (k.view .variable ++ [.tok [61] .assign]) :: .ctx .value (v.view ++ hashView c) :: comView c
  | .comment w => hashView (some w) ++ comView (some w)

def docView (l : List (Item × List Nat)) : List V := l.flatMap fun x => x.1.view

end Parce.Toml

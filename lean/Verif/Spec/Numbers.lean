import Verif.Model.Numbers
/-!
# English number words, and the numbers they stand for
-/
namespace Parce.Num

/-- The kinds of number words, with the value. `teen` is also used for zero. -/
inductive Kind where
  | unit (v : Nat) | teen (v : Nat) | tens (v : Nat) | hundred | thousand | million
deriving DecidableEq, Repr

/-- The English number words. -/
def enWords : List (String × Kind) :=
  [("zero", .teen 0), ("one", .unit 1), ("two", .unit 2), ("three", .unit 3), ("four", .unit 4), ("five", .unit 5), ("six", .unit 6),
   ("seven", .unit 7), ("eight", .unit 8), ("nine", .unit 9), ("ten", .teen 10), ("eleven", .teen 11), ("twelve", .teen 12),
   ("thirteen", .teen 13), ("fourteen", .teen 14), ("fifteen", .teen 15), ("sixteen", .teen 16), ("seventeen", .teen 17),
   ("eighteen", .teen 18), ("nineteen", .teen 19), ("twenty", .tens 20), ("thirty", .tens 30), ("forty", .tens 40),
   ("fifty", .tens 50), ("sixty", .tens 60), ("seventy", .tens 70), ("eighty", .tens 80), ("ninety", .tens 90),
   ("hundred", .hundred), ("thousand", .thousand), ("million", .million)]

/-- Words for a number below hundred. -/
inductive To99 : List Kind → Nat → Prop
  | unit (v : Nat) : To99 [.unit v] v
  | teen (v : Nat) : To99 [.teen v] v
  | tens (v : Nat) : To99 [.tens v] v
  | both (v w : Nat) : To99 [.tens v, .unit w] (v + w)

/-- Words for a number with `h` (which stands for `f`) or without it, where `S` is for the numbers before and after `h`. -/
inductive With (S : List Kind → Nat → Prop) (h : Kind) (f : Nat) : List Kind → Nat → Prop
  | plain {ks : List Kind} {a : Nat} : S ks a → With S h f ks a
  | bare : With S h f [h] f
  | times {ks : List Kind} {a : Nat} : S ks a → With S h f (ks ++ [h]) (f * a)
  | bareAnd {ls : List Kind} {b : Nat} : S ls b → With S h f (h :: ls) (f + b)
  | timesAnd {ks ls : List Kind} {a b : Nat} : S ks a → S ls b → With S h f (ks ++ h :: ls) (f * a + b)

def ToHundreds : List Kind → Nat → Prop := With To99 .hundred 100
def ToThousands : List Kind → Nat → Prop := With ToHundreds .thousand 1000

/-- The words for a number. -/
def Phrase : List Kind → Nat → Prop := With ToThousands .million 1000000

/-- Two numbers may follow each other, if the words next to each other do not belong together. -/
def Apart : Kind → Kind → Prop
  | .unit _, .unit _ => True
  | .unit _, .teen _ => True
  | .unit _, .tens _ => True
  | .teen _, .unit _ => True
  | .teen _, .teen _ => True
  | .teen _, .tens _ => True
  | .tens _, .teen _ => True
  | .tens _, .tens _ => True
  | _, _ => False

/-- A word that begins with the word for a unit, such as `sixteen`. -/
def StartsWithUnit (b : Kind) : Prop := ∃ w x v, (w, b) ∈ enWords ∧ (x, .unit v) ∈ enWords ∧ x.toList <+: w.toList

/-- Two numbers that may follow each other, and the second word does not begin with a unit when a unit could follow. -/
def Clear (a b : Kind) : Prop := Apart a b ∧ ((∃ v, a = .tens v) → ¬ StartsWithUnit b)

/-- The words for some numbers; the words next to each other of two numbers are related by `R`. -/
inductive Numbers (R : Kind → Kind → Prop) : List Nat → List Kind → Prop
  | nil : Numbers R [] []
  | cons {ks ls : List Kind} {n : Nat} {ns : List Nat} : Phrase ks n → Numbers R ns ls →
      (∀ a ∈ ks.getLast?, ∀ b ∈ ls.head?, R a b) → Numbers R (n :: ns) (ks ++ ls)

/-- A blank character or a hyphen. -/
def Sep (u : Uni) (c : Char) : Prop := u.space c = true ∨ c = '-'

/-- Not a letter, not blank, and not a hyphen. -/
def Other (u : Uni) (c : Char) : Prop := ¬ Sep u c ∧ (u.fold c).isAlpha = false

/-- The words as a text, in upper or lower case, with blanks or hyphens after each word (or none). -/
inductive Written (u : Uni) : List Kind → List Char → Prop
  | nil : Written u [] []
  | word {k : Kind} {ks : List Kind} {w : String} {v s t : List Char} : (w, k) ∈ enWords → v.map Char.toLower = w.toList →
      (∀ c ∈ s, Sep u c) → Written u ks t → Written u (k :: ks) (v ++ s ++ t)

/-- A text with numbers, and other characters (but no other words) between them. -/
inductive Texts (u : Uni) (R : Kind → Kind → Prop) : List Nat → List Char → Prop
  | last {ns : List Nat} {ks : List Kind} {s t : List Char} : (∀ c ∈ s, Sep u c) → Numbers R ns ks → Written u ks t → Texts u R ns (s ++ t)
  | more {ns ms : List Nat} {ks : List Kind} {s t r : List Char} {c : Char} : (∀ c ∈ s, Sep u c) → Numbers R ns ks →
      Written u ks t → Other u c → Texts u R ms r → Texts u R (ns ++ ms) (s ++ t ++ c :: r)

/-- The ASCII letters are what they should be, and blanks and the hyphen are no letters. -/
structure Uni.Ascii (u : Uni) : Prop where
  fold : ∀ c : Char, c.isAlpha = true → u.fold c = c.toLower
  low : ∀ c : Char, c.isAlpha = true → u.low c = [c.toLower]
  space : ∀ c : Char, c.isAlpha = true → u.space c = false
  sep : ∀ c : Char, Sep u c → (u.fold c).isAlpha = false

/-! ### How a number is written -/

def spell99 (n : Nat) : List Kind :=
  if n < 10 then [if n = 0 then .teen 0 else .unit n]
  else if n < 20 then [.teen n]
  else if n % 10 = 0 then [.tens n]
  else [.tens (n / 10 * 10), .unit (n % 10)]

/-- With `h` for `f`, when `S` writes the numbers below `f`. -/
def spellWith (S : Nat → List Kind) (h : Kind) (f : Nat) (n : Nat) : List Kind :=
  if n < f then S n
  else if n % f = 0 then S (n / f) ++ [h]
  else S (n / f) ++ h :: S (n % f)

/-- The words for a number below 10¹². -/
def spell : Nat → List Kind := spellWith (spellWith (spellWith spell99 .hundred 100) .thousand 1000) .million 1000000

end Parce.Num

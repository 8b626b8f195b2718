/-
How CSS reads strings and names, after "CSS Syntax Module Level 3" (4.3.5, 4.3.7 and 4.3.9).
Nothing here uses the functions of the model.
-/

namespace Parce.Quo

/-- The value of a hexadecimal digit. -/
def digit? (c : Nat) : Option Nat :=
  if 48 ≤ c ∧ c ≤ 57 then some (c - 48)
  else if 65 ≤ c ∧ c ≤ 70 then some (c - 55)
  else if 97 ≤ c ∧ c ≤ 102 then some (c - 87)
  else none

/-- A newline: line feed, carriage return or form feed. -/
def Newline (c : Nat) : Prop := c = 10 ∨ c = 13 ∨ c = 12

instance (c : Nat) : Decidable (Newline c) := by unfold Newline; infer_instance

/-- The character for an escaped number: zero, surrogates and too large numbers give U+FFFD. -/
def escaped (v : Nat) : Nat :=
  if v = 0 ∨ (55296 ≤ v ∧ v ≤ 57343) ∨ 1114111 < v then 65533 else v

/-- Where the reader of a string is: in the text, after a backslash, or in a number `v` of `n` digits. -/
inductive At where
  | text
  | backslash
  | number (v n : Nat)

/-- Put a character before the value. -/
def add (c : Nat) (o : Option (List Nat × List Nat)) : Option (List Nat × List Nat) :=
  o.map (fun r => (c :: r.1, r.2))

/-- Reading a string in double quotes, after the first quote: the value and the text after the second
quote.  `none`: it is not a string token. -/
def readString : At → List Nat → Option (List Nat × List Nat)
  | _, [] => none
  | .text, c :: r =>
    if c = 34 then some ([], r)
    else if c = 92 then readString .backslash r
    else if Newline c then none
    else add c (readString .text r)
  | .backslash, c :: r =>
    match digit? c with
    | some d => readString (.number d 1) r
    | none => if Newline c then readString .text r else add c (readString .text r)
  | .number v n, c :: r =>
    match (if n < 6 then digit? c else none) with
    | some d => readString (.number (16 * v + d) (n + 1)) r
    | none =>
      if c = 32 ∨ c = 9 ∨ Newline c then add (escaped v) (readString .text r)
      else if c = 34 then some ([escaped v], r)
      else if c = 92 then add (escaped v) (readString .backslash r)
      else add (escaped v) (add c (readString .text r))

/-- A character that can start a name. -/
def NameStart (c : Nat) : Prop := (65 ≤ c ∧ c ≤ 90) ∨ (97 ≤ c ∧ c ≤ 122) ∨ c = 95 ∨ 128 ≤ c

/-- A character in a name. -/
def NameChar (c : Nat) : Prop := NameStart c ∨ (48 ≤ c ∧ c ≤ 57) ∨ c = 45

/-- A name (ident-token) without escapes. -/
inductive Ident : List Nat → Prop
  | start {c r} : NameStart c → (∀ d ∈ r, NameChar d) → Ident (c :: r)
  | hyphen {c r} : NameStart c ∨ c = 45 → (∀ d ∈ r, NameChar d) → Ident (45 :: c :: r)

end Parce.Quo

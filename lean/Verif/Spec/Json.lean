import Verif.Model.Json
/-!
# JSON texts (RFC 8259) and the values they stand for
-/
namespace Parce.Json

/-- For the characters of ASCII, `\d`, `\s` and `\w` match what they should. -/
structure Uni.Ascii (u : Uni) : Prop where
  digit : ∀ c, c < 128 → u.digit c = (48 ≤ c && c ≤ 57)
  space : ∀ c, c < 128 → u.space c = ((9 ≤ c && c ≤ 13) || (28 ≤ c && c ≤ 32))
  word : ∀ c, c < 128 → u.word c = ((48 ≤ c && c ≤ 57) || (65 ≤ c && c ≤ 90) || c == 95 || (97 ≤ c && c ≤ 122))

/-- A JSON value. A number is the text it is written with. -/
inductive JV where
  | null
  | bool (b : Bool)
  | num (w : List Nat)
  | str (s : List Nat)
  | arr (l : List JV)
  | obj (l : List (List Nat × JV))

/-- White space. -/
def Ws (w : List Nat) : Prop := ∀ c ∈ w, c = 32 ∨ c = 9 ∨ c = 10 ∨ c = 13

/-- One or more digits. -/
def Digits (w : List Nat) : Prop := w ≠ [] ∧ ∀ c ∈ w, 48 ≤ c ∧ c ≤ 57

/-- A number. (Also allowed are zeros in front, as in `007`.) -/
def Num (w : List Nat) : Prop :=
  ∃ s i f e, w = s ++ i ++ f ++ e ∧ (s = [] ∨ s = str "-") ∧ Digits i ∧
    (f = [] ∨ ∃ d, f = str "." ++ d ∧ Digits d) ∧
    (e = [] ∨ ∃ x g d, e = x ++ g ++ d ∧ (x = str "e" ∨ x = str "E") ∧ (g = [] ∨ g = str "+" ∨ g = str "-") ∧ Digits d)

/-- A hexadecimal digit and its value. -/
def Hex (c n : Nat) : Prop :=
  (48 ≤ c ∧ c ≤ 57 ∧ n = c - 48) ∨ (65 ≤ c ∧ c ≤ 70 ∧ n = 10 + (c - 65)) ∨ (97 ≤ c ∧ c ≤ 102 ∧ n = 10 + (c - 97))

/-- Four hexadecimal digits and their number. -/
def Hex4 (w : List Nat) (n : Nat) : Prop :=
  ∃ a b c d a' b' c' d', w = [a, b, c, d] ∧ Hex a a' ∧ Hex b b' ∧ Hex c c' ∧ Hex d d' ∧
    n = 4096 * a' + 256 * b' + 16 * c' + d'

/-- What a character after a backslash stands for. -/
def escapes : List (Nat × Nat) := [(34, 34), (92, 92), (47, 47), (98, 8), (102, 12), (110, 10), (114, 13), (116, 9)]

/-- The text between the quotes of a string, and its characters. With `pairs`, characters outside
    the Basic Multilingual Plane may be written as a pair of escapes. -/
inductive Chars (pairs : Bool) : List Nat → List Nat → Prop
  | nil : Chars pairs [] []
  | plain {s t : List Nat} (c : Nat) : 32 ≤ c → c ≠ 34 → c ≠ 92 → Chars pairs s t → Chars pairs (c :: s) (c :: t)
  | esc {s t : List Nat} (e c : Nat) : (e, c) ∈ escapes → Chars pairs s t → Chars pairs (c :: s) (92 :: e :: t)
  | hex {s t : List Nat} (w : List Nat) (n : Nat) : Hex4 w n → (n < 0xD800 ∨ 0xDFFF < n) → Chars pairs s t →
    Chars pairs (n :: s) (92 :: 117 :: w ++ t)
  | pair {s t : List Nat} (w w' : List Nat) (n n' : Nat) : pairs = true → Hex4 w n → Hex4 w' n' →
    0xD800 ≤ n → n ≤ 0xDBFF → 0xDC00 ≤ n' → n' ≤ 0xDFFF → Chars pairs s t →
    Chars pairs ((0x10000 + 0x400 * (n - 0xD800) + (n' - 0xDC00)) :: s) (92 :: 117 :: w ++ 92 :: 117 :: w' ++ t)

mutual
/-- The texts of a value, without white space around it. -/
inductive Val (pairs : Bool) : JV → List Nat → Prop
  | null : Val pairs .null (str "null")
  | true : Val pairs (.bool true) (str "true")
  | false : Val pairs (.bool false) (str "false")
  | num {w : List Nat} : Num w → Val pairs (.num w) w
  | str {s t : List Nat} : Chars pairs s t → Val pairs (.str s) (str "\"" ++ t ++ str "\"")
  | arr0 {w : List Nat} : Ws w → Val pairs (.arr []) (str "[" ++ w ++ str "]")
  | arr {l : List JV} {t : List Nat} : Elems pairs l t → Val pairs (.arr l) (str "[" ++ t ++ str "]")
  | obj0 {w : List Nat} : Ws w → Val pairs (.obj []) (str "{" ++ w ++ str "}")
  | obj {l : List (List Nat × JV)} {t : List Nat} : Members pairs l t → Val pairs (.obj l) (str "{" ++ t ++ str "}")
/-- One or more values, separated with commas. -/
inductive Elems (pairs : Bool) : List JV → List Nat → Prop
  | one {v : JV} {a t b : List Nat} : Ws a → Val pairs v t → Ws b → Elems pairs [v] (a ++ t ++ b)
  | cons {v : JV} {vs : List JV} {a t b ts : List Nat} : Ws a → Val pairs v t → Ws b → Elems pairs vs ts →
    Elems pairs (v :: vs) (a ++ t ++ b ++ str "," ++ ts)
/-- One or more pairs of a name and a value. -/
inductive Members (pairs : Bool) : List (List Nat × JV) → List Nat → Prop
  | one {k kt : List Nat} {v : JV} {a b c t d : List Nat} : Ws a → Chars pairs k kt → Ws b → Ws c → Val pairs v t → Ws d →
    Members pairs [(k, v)] (a ++ str "\"" ++ kt ++ str "\"" ++ b ++ str ":" ++ c ++ t ++ d)
  | cons {k kt : List Nat} {v : JV} {l : List (List Nat × JV)} {a b c t d ts : List Nat} :
    Ws a → Chars pairs k kt → Ws b → Ws c → Val pairs v t → Ws d → Members pairs l ts →
    Members pairs ((k, v) :: l) (a ++ str "\"" ++ kt ++ str "\"" ++ b ++ str ":" ++ c ++ t ++ d ++ str "," ++ ts)
end

/-- A JSON text: a value with white space around it. -/
def Text (pairs : Bool) (v : JV) (t : List Nat) : Prop := ∃ a w b, t = a ++ w ++ b ∧ Ws a ∧ Val pairs v w ∧ Ws b

/-- The names of an object, without the doubles. -/
def names {X : Type} : List (List Nat × X) → List (List Nat)
  | [] => []
  | (k, _) :: l => k :: (names l).filter (· != k)

/-- The last value for a name. -/
def lastVal {X : Type} (k : List Nat) : List (List Nat × X) → Option X
  | [] => none
  | (k', v) :: l => match lastVal k l with
    | some x => some x
    | none => if k' = k then some v else none

variable {F : Type}

mutual
/-- The Python value: numbers as computed by `float()` and made an int if they are whole, objects as
    dicts. Where an object has a name twice, the last value counts. -/
def JV.py (f : Floats F) : JV → PV F
  | .null => .none
  | .bool b => .bool b
  | .num w => if f.isInteger (f.float w) then .int (f.toInt (f.float w)) else .float (f.float w)
  | .str s => .str s
  | .arr l => .list (pyL f l)
  | .obj l => .dict ((names l).filterMap (fun k => (lastVal k (pyO f l)).map (fun v => (.str k, v))))
def pyL (f : Floats F) : List JV → List (PV F)
  | [] => []
  | v :: vs => v.py f :: pyL f vs
def pyO (f : Floats F) : List (List Nat × JV) → List (List Nat × PV F)
  | [] => []
  | (k, v) :: l => (k, v.py f) :: pyO f l
end

end Parce.Json

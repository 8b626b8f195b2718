import Verif.Model.Regex
/-!
# The meaning of regular expressions

The part of Python's syntax used by `words2regexp`: characters, escaped characters, character
classes, groups `(?:…)`, counts `?`, `{n}`, `{m,n}`, `{,n}`, sequences and alternatives.
-/
namespace Parce.Rx

/-- A set of words. -/
abbrev Lang := Word → Prop

def Lang.cat (L M : Lang) : Lang := fun w => ∃ a b, w = a ++ b ∧ L a ∧ M b

/-- `n` times. -/
def Lang.pow (L : Lang) : Nat → Lang
  | 0 => fun w => w = []
  | n + 1 => L.cat (L.pow n)

/-- At least `lo` and at most `hi` times. -/
def Lang.rep (L : Lang) (lo hi : Nat) : Lang := fun w => ∃ n, lo ≤ n ∧ n ≤ hi ∧ L.pow n w

/-- The characters with a special meaning. -/
def metaChars : List Char := ".^$*+?{}[]\\|()".toList

/-- The characters with a (possible) special meaning in a character class. -/
def classMeta : List Char := "[]\\^-&~|".toList

/-- A decimal number. -/
def IsNum (ds : Word) (n : Nat) : Prop :=
  ds ≠ [] ∧ (∀ d ∈ ds, d.isDigit) ∧ ds.foldl (fun n d => 10 * n + (d.toNat - 48)) 0 = n

/-- A character in a class; a backslash before a character that is no letter or digit stands for
    that character. -/
inductive IsClassChar : Word → Char → Prop
  | lit (c : Char) : c ∉ classMeta → IsClassChar [c] c
  | esc (c : Char) : ¬ c.isAlphanum → IsClassChar ['\\', c] c

/-- The contents of a character class, with the set of characters it stands for. -/
inductive IsClass : Word → (Char → Prop) → Prop
  | nil : IsClass [] (fun _ => False)
  | char (s : Word) (c : Char) : IsClassChar s c → IsClass s (fun d => d = c)
  | range (s t : Word) (a b : Char) : IsClassChar s a → IsClassChar t b → a.toNat ≤ b.toNat →
      IsClass (s ++ '-' :: t) (fun d => a.toNat ≤ d.toNat ∧ d.toNat ≤ b.toNat)
  | append (s t : Word) (P Q : Char → Prop) : IsClass s P → IsClass t Q → IsClass (s ++ t) (fun d => P d ∨ Q d)

/-- The syntactic categories. -/
inductive Syn where
  | atom | piece | seq | alt

/-- `Den k s L`: the text `s` is an expression of category `k`, and `L` is the set of the words that
    it matches fully. -/
inductive Den : Syn → Word → Lang → Prop
  | lit (c : Char) : c ∉ metaChars → Den .atom [c] (fun w => w = [c])
  | esc (c : Char) : ¬ c.isAlphanum → Den .atom ['\\', c] (fun w => w = [c])
  | cls (s : Word) (P : Char → Prop) : IsClass s P → s ≠ [] → Den .atom ('[' :: s ++ [']']) (fun w => ∃ c, w = [c] ∧ P c)
  | group (s : Word) (L : Lang) : Den .alt s L → Den .atom ('(' :: '?' :: ':' :: s ++ [')']) L
  | once (s : Word) (L : Lang) : Den .atom s L → Den .piece s L
  | opt (s : Word) (L : Lang) : Den .atom s L → Den .piece (s ++ ['?']) (L.rep 0 1)
  | exact (s ds : Word) (n : Nat) (L : Lang) : Den .atom s L → IsNum ds n →
      Den .piece (s ++ ('{' :: ds ++ ['}'])) (L.rep n n)
  | between (s ds es : Word) (m n : Nat) (L : Lang) : Den .atom s L → IsNum ds m → IsNum es n → m ≤ n →
      Den .piece (s ++ ('{' :: ds ++ ',' :: es ++ ['}'])) (L.rep m n)
  | upto (s es : Word) (n : Nat) (L : Lang) : Den .atom s L → IsNum es n →
      Den .piece (s ++ ('{' :: ',' :: es ++ ['}'])) (L.rep 0 n)
  | nil : Den .seq [] (fun w => w = [])
  | cons (s t : Word) (L M : Lang) : Den .piece s L → Den .seq t M → Den .seq (s ++ t) (L.cat M)
  | single (s : Word) (L : Lang) : Den .seq s L → Den .alt s L
  | or (s t : Word) (L M : Lang) : Den .seq s L → Den .alt t M → Den .alt (s ++ '|' :: t) (fun w => L w ∨ M w)

/-- The text is a regular expression that fully matches exactly these words. -/
def Matches (rx : Word) (L : Lang) : Prop := Den .alt rx L

end Parce.Rx

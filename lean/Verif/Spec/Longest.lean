import Verif.Spec.Regex
import Verif.Spec.Re
/-!
# Which word an expression finds

`Matches` of `Verif.Spec.Regex` tells the words an expression stands for. Here the text of an
expression is read as a `Pat`, which also has the order in which the matches are tried, and so the
one match that is taken. `Pat.First` tells that match apart from how it is found.
-/
namespace Parce

/-- At most `n` times, preferably more. -/
def Pat.upTo {α : Type} (a : Pat α) : Nat → Pat α
  | 0 => .eps
  | n + 1 => .opt (.cat a (a.upTo n))

namespace Rx

/-- `Reads k s a`: the text `s` is an expression of category `k`, and it is the expression `a`. The
    grammar is that of `Den`. -/
inductive Reads : Syn → Word → Pat Char → Prop
  | lit (c : Char) : c ∉ metaChars → Reads .atom [c] (.chr c)
  | esc (c : Char) : ¬ c.isAlphanum → Reads .atom ['\\', c] (.chr c)
  | cls (s : Word) (P : Char → Prop) (f : Char → Bool) : IsClass s P → s ≠ [] → (∀ c, f c = true ↔ P c) →
      Reads .atom ('[' :: s ++ [']']) (.set f)
  | group (s : Word) (a : Pat Char) : Reads .alt s a → Reads .atom ('(' :: '?' :: ':' :: s ++ [')']) a
  | once (s : Word) (a : Pat Char) : Reads .atom s a → Reads .piece s a
  | opt (s : Word) (a : Pat Char) : Reads .atom s a → Reads .piece (s ++ ['?']) a.opt
  | exact (s ds : Word) (n : Nat) (a : Pat Char) : Reads .atom s a → IsNum ds n →
      Reads .piece (s ++ ('{' :: ds ++ ['}'])) (a.times n)
  | between (s ds es : Word) (m n : Nat) (a : Pat Char) : Reads .atom s a → IsNum ds m → IsNum es n → m ≤ n →
      Reads .piece (s ++ ('{' :: ds ++ ',' :: es ++ ['}'])) (.cat (a.times m) (a.upTo (n - m)))
  | upto (s es : Word) (n : Nat) (a : Pat Char) : Reads .atom s a → IsNum es n →
      Reads .piece (s ++ ('{' :: ',' :: es ++ ['}'])) (a.upTo n)
  | nil : Reads .seq [] .eps
  | cons (s t : Word) (a b : Pat Char) : Reads .piece s a → Reads .seq t b → Reads .seq (s ++ t) (.cat a b)
  | single (s : Word) (a : Pat Char) : Reads .seq s a → Reads .alt s a
  | or (s t : Word) (a b : Pat Char) : Reads .seq s a → Reads .alt t b → Reads .alt (s ++ '|' :: t) (.alt a b)

/-- The text from `p` to `q` is the longest of the words that the text has at `p`, of those of which
    the end satisfies `P`. -/
def LongestAt (ws : List Word) (t : List Char) (P : Nat → Prop) (p q : Nat) : Prop :=
  p ≤ q ∧ q ≤ t.length ∧ slice t p q ∈ ws ∧ P q ∧ ∀ w ∈ ws, w <+: t.drop p → P (p + w.length) → w.length ≤ q - p

end Rx
end Parce

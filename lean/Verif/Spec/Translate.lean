import Verif.Spec.Replace
/-!
# What translating keys should do
-/
namespace Parce

/-- A word starts or ends at `p`: exactly one of the characters before and after `p` is a word
    character. -/
def WordEdge (isWord : Char → Bool) (t : List Char) (p : Nat) : Prop :=
  (∃ i c, i + 1 = p ∧ t[i]? = some c ∧ isWord c = true) ↔ ¬ ∃ c, t[p]? = some c ∧ isWord c = true

/-- In the text `t` there is at `i` the key `w`, that ends not after `b`; with word edges on both sides if
    `whole`. -/
def KeyAt (isWord : Char → Bool) (mapping : List (List Char × List Char)) (t : List Char) (b : Nat) (whole : Bool)
    (i : Nat) (w : List Char) : Prop :=
  w ∈ mapping.map Prod.fst ∧ w <+: t.drop i ∧ i + w.length ≤ b ∧
    (whole = true → WordEdge isWord t i ∧ WordEdge isWord t (i + w.length))

/-- What the text `t` from `p` to `b` becomes by replacing keys by their values, from left to right, at
    most so many as given; `K` tells which keys are where. Where keys are, the longest is replaced. -/
inductive Translated (mapping : List (List Char × List Char)) (K : Nat → List Char → Prop) (t : List Char) (b : Nat) :
    Option Nat → Nat → List Char → Prop
  /-- enough replaced -/
  | enough (p : Nat) : Translated mapping K t b (some 0) p (slice t p b)
  /-- there is nothing to replace -/
  | nothing {n : Option Nat} {p : Nat} : (∀ i w, p ≤ i → ¬ K i w) → Translated mapping K t b n p (slice t p b)
  /-- the longest of the leftmost keys is replaced, and it goes on after it -/
  | next {n : Option Nat} {p i : Nat} {w v z : List Char} : n ≠ some 0 → p ≤ i → (∀ j u, p ≤ j → j < i → ¬ K j u) →
      K i w → (∀ u, K i u → u.length ≤ w.length) → mapping.lookup w = some v →
      Translated mapping K t b (n.map (· - 1)) (i + w.length) z → Translated mapping K t b n p (slice t p i ++ v ++ z)

/-- The edges of the words in the region are those of the words in the text: the region does not begin
    or end inside a word (that is: a word character before the region, or after it). -/
def CleanEdges (isWord : Char → Bool) (t : List Char) (a b : Nat) : Prop :=
  (∀ i c, i + 1 = a → t[i]? = some c → isWord c = false) ∧ ∀ c, t[b]? = some c → isWord c = false

end Parce

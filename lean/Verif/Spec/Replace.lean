import Verif.Spec.Edit
import Verif.Spec.Block
import Verif.Spec.Re
import Verif.Model.Replace
/-!
# What replacing in a region should do
-/
namespace Parce
variable {α : Type}

/-- `old` occurs in `r` at position `i`. -/
def OccursAt (old r : List α) (i : Nat) : Prop := old <+: r.drop i ∧ i ≤ r.length

/-- What a text `r` becomes by replacing the occurrences of `old` by `new`, from left to right, at
    most so many as given: like `str.replace` in Python. -/
inductive Replaced (old new : List α) : Option Nat → List α → List α → Prop
  /-- enough replaced -/
  | enough (r : List α) : Replaced old new (some 0) r r
  /-- there is nothing to replace -/
  | nothing {n : Option Nat} {r : List α} : (∀ i, ¬ OccursAt old r i) → Replaced old new n r r
  /-- the leftmost occurrence is replaced, and it goes on after it -/
  | next {n : Option Nat} {x y z : List α} : n ≠ some 0 → (∀ i, i < x.length → ¬ OccursAt old (x ++ old ++ y) i) →
      Replaced old new (n.map (· - 1)) y z → Replaced old new n (x ++ old ++ y) (x ++ new ++ z)

/-- The argument `count`: a maximum if it is positive. -/
def maxCount (count : Int) : Option Nat := if 0 < count then some count.toNat else none

/-- The region is from `a` to `b`, and it is given in a way that adding to its start does not change
    the meaning: either the start is not negative, or it is within the text and the region does not
    reach the end of the text. -/
def RegionOK (n : Nat) (start : Int) (stop : Option Int) (a b : Nat) : Prop :=
  keyRegion n (.range (some start) stop) = some (a, b) ∧ (0 ≤ start ∨ (-(n : Int) ≤ start ∧ b < n))

/-- An empty match at `p` directly after an empty match at `p`. -/
def Again (must : Bool) (p i q : Nat) : Prop := must = true ∧ i = p ∧ q = p

/-- The match that comes next from `p`: the leftmost one, and there the preferred one. It is not
    an empty one at `p` if `must`. -/
structure NextMatch (a : Pat α) (r : List α) (p : Nat) (must : Bool) (m : Mtch RM) : Prop where
  ge : p ≤ m.start
  inside : m.start ≤ r.length
  leftmost : ∀ i q, p ≤ i → i < m.start → a.mat r i q → Again must p i q
  first : ∃ c, a.First r (fun q => ¬ Again must p m.start q) m.start m.stop c ∧ m.rest = ⟨0, c.rel m.start⟩

/-- The matches from `p` on, one after the other. -/
inductive FoundAll (a : Pat α) (r : List α) : Nat → Bool → List (Mtch RM) → Prop
  | done {p : Nat} {must : Bool} : (∀ i q, p ≤ i → i ≤ r.length → a.mat r i q → Again must p i q) → FoundAll a r p must []
  | next {p : Nat} {must : Bool} {m : Mtch RM} {ms : List (Mtch RM)} : NextMatch a r p must m →
      FoundAll a r m.stop (decide (m.start = m.stop)) ms → FoundAll a r p must (m :: ms)

/-- A blank that is followed only by blanks up to the end of its line. -/
def TrailingBlank (t : List Char) (i : Nat) : Prop :=
  ∃ e, i < e ∧ (∀ j, i ≤ j → j < e → t[j]? = some ' ' ∨ t[j]? = some '\t') ∧ (e = t.length ∨ t[e]? = some '\n')

end Parce

import Verif.Model.Registry

/-
What is meant by the lookups in the registry.
-/

namespace Parce.Reg

/-- `l` has the elements of `cands`, heaviest first; elements that weigh the same keep their order. -/
def Ranking (weight : Str → Nat) (cands l : List Str) : Prop :=
  l.Pairwise (fun a b => weight b ≤ weight a) ∧ ∀ k, l.filter (fun a => weight a == k) = cands.filter (fun a => weight a == k)

/-- The qualified name has at least two dots; the class is the part before the last dot. -/
def HasClass (q c : Str) : Prop := ∃ m l, '.' ∉ c ∧ '.' ∉ l ∧ q = m ++ '.' :: c ++ '.' :: l

/-- `x` is the largest of the weights in `l` that match, zero if there is none. -/
def Largest (m : Str → Bool) (l : List (Str × Nat)) (x : Nat) : Prop :=
  (x = 0 ∨ ∃ p, (p, x) ∈ l ∧ m p = true) ∧ ∀ p y, (p, y) ∈ l → m p = true → y ≤ x

/-- One candidate weighs more than all the others. -/
def Unique (weight : Str → Nat) (cands : List Str) : Prop := ∃ a ∈ cands, ∀ b ∈ cands, b ≠ a → weight b < weight a

end Parce.Reg

import Verif.Model.StandardAction

/-
What is meant by the hierarchy of the standard actions.
-/

namespace Parce.SA

/-- `b` is `a` itself or one of the parents above it. -/
inductive Anc (s : St) : Nat → Nat → Prop
  | refl (a : Nat) : Anc s a a
  | up {a p b : Nat} : s.dict (some a) "_parent" = some (.act p) → Anc s p b → Anc s a b

/-- The action was found by this path of names, starting with a toplevel action. -/
inductive HasPath (s : St) : Nat → List String → Prop
  | top {n : String} {i : Nat} : s.dict none n = some (.act i) → HasPath s i [n]
  | sub {p i : Nat} {path : List String} {n : String} : HasPath s p path → n ≠ "_name" → n ≠ "_parent" →
      s.dict (some p) n = some (.act i) → HasPath s i (path ++ [n])

/-- Some thread is still making the action. -/
def Busy (s : St) (i : Nat) : Prop := ∃ t p n, s.pc t = .made p n i ∨ s.pc t = .named p n i

end Parce.SA

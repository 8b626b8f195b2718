import Verif.Model.FileCache
/-!
# A file that changes, and what is asked of the cache
-/
namespace Parce.FileC
variable {V : Type}

/-- The file has versions, which are numbered: the time of each (none if the file is not there), and what the function makes of it. -/
structure File (V : Type) where
  mtime : Nat → Option Int
  result : Nat → Option V

/-- A program that uses the cache: in each call the time of the file is read at version `a`, and the function may be called at version `b`. The file
    may change at any time in between. The number is the present version. -/
inductive Run (F : File V) : Nat → Option (Int × V) → List (Nat × Nat × Out V) → Prop
  | start : Run F 0 none []
  | call {n a b : Nat} {c : Option (Int × V)} {l : List (Nat × Nat × Out V)} : Run F n c l → n ≤ a → a ≤ b →
      Run F b (getitem c (F.mtime a) (F.result b)).1 (l ++ [(a, b, (getitem c (F.mtime a) (F.result b)).2)])

/-- Each version has its own time. -/
def File.Distinct (F : File V) : Prop := ∀ v w t, F.mtime v = some t → F.mtime w = some t → v = w

/-- The call gave what the function makes of a version that the file had during the call. -/
def Right (F : File V) (e : Nat × Nat × Out V) : Prop :=
  ∃ w, e.1 ≤ w ∧ w ≤ e.2.1 ∧ ((∃ v, e.2.2 = .value v ∧ F.result w = some v) ∨ (e.2.2 = .raised ∧ F.result w = none))

end Parce.FileC

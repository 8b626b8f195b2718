import Verif.Model.Changes
/-!
# Independent specification for merged changes
-/
namespace Parce
variable {α L : Type}

/-- The change `start, removed, added` is accurate: before `start`, and after the removed and
    added characters, the old and the new text are the same. -/
def Covers (old new : List α) (start : Nat) (removed added : Int) : Prop :=
  0 ≤ removed ∧ 0 ≤ added ∧ start + removed ≤ old.length ∧ start + added ≤ new.length ∧
  old.take start = new.take start ∧ old.drop (start + removed.toNat) = new.drop (start + added.toNat)

instance [DecidableEq α] (old new : List α) (s : Nat) (r a : Int) : Decidable (Covers old new s r a) := by
  unfold Covers; infer_instance

/-- Each request is accurate for the text of the one before. When the numbers are not given, all
    text after `start` is replaced. -/
def Chained : List α → List (ChReq α L) → Prop
  | _, [] => True
  | t, r :: rs =>
    Covers t r.text r.start (r.removed.getD ((t.length : Int) - r.start)) (r.added.getD ((r.text.length : Int) - r.start)) ∧
    Chained r.text rs

/-- The last root lexicon asked for. -/
def lastRoot (reqs : List (ChReq α L)) : Option L := (reqs.reverse.findSome? (·.root))

end Parce

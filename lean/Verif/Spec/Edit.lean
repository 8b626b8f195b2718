import Verif.Model.MutableString
/-!
# Independent specification of text editing

Small definitions that say what an edit should do, without referring to how
`mutablestring.py` does it.
-/
namespace Parce
variable {α : Type}

/-- The text after replacing all requested regions at once, written position by position:
    at position `i` first come the texts of the requests that start at `i`, in request
    order, then the original character at `i`, unless some request covers it. -/
def splice (t : List α) (reqs : List (Change α)) : List α :=
  (List.range (t.length + 1)).flatMap fun i =>
    (reqs.filter (fun r => r.start == i)).flatMap (fun r => r.text) ++
      (if reqs.any (fun r => decide (r.start ≤ i ∧ i < r.stop)) then [] else t[i]?.toList)

/-- A request lies within the text. -/
def ValidReq (n : Nat) (r : Change α) : Prop := r.start ≤ r.stop ∧ r.stop ≤ n

/-- No request reaches beyond the start of a request further on. -/
def NonOverlapping (reqs : List (Change α)) : Prop :=
  ∀ r ∈ reqs, ∀ r' ∈ reqs, r.start < r'.start → r.stop ≤ r'.start

/-- The region really changes. -/
def Effective (t : List α) (r : Change α) : Prop := slice t r.start r.stop ≠ r.text

/-- `(pos, removed, added)` describes how `old` became `new`. -/
def Describes (old new : List α) (c : Nat × Nat × Nat) : Prop :=
  c.1 + c.2.1 ≤ old.length ∧ c.1 + c.2.2 ≤ new.length ∧
  old.take c.1 = new.take c.1 ∧
  old.drop (c.1 + c.2.1) = new.drop (c.1 + c.2.2)

/-- Python's meaning of a (possibly negative) bound in a text of length `n`. -/
def pyBound (n : Nat) (i : Int) : Int := if i < 0 then i + n else i

/-- The positions selected by a Python slice `[a:b]`: those not before `a` and before `b`. -/
def inSlice (n : Nat) (a b : Option Int) (i : Nat) : Bool :=
  (match a with | none => true | some a => decide (pyBound n a ≤ i)) &&
  (match b with | none => true | some b => decide ((i : Int) < pyBound n b))

/-- The elements at the positions satisfying `p`, in order. -/
def selectPos (t : List α) (p : Nat → Bool) : List α :=
  (List.range t.length).flatMap fun i => if p i then t[i]?.toList else []

end Parce

namespace Parce
variable {α : Type}

/-- The region a key denotes, as Python defines it for sequences. -/
def keyRegion (n : Nat) : Key → Option (Nat × Nat)
  | .index i => if 0 ≤ pyBound n i ∧ pyBound n i < n then some ((pyBound n i).toNat, (pyBound n i).toNat + 1)
      else none
  | .range a b =>
    let lo := match a with | none => 0 | some a => min (pyBound n a).toNat n
    let hi := match b with | none => n | some b => min (pyBound n b).toNat n
    some (lo, max lo hi)

/-- The requests made by a list of statements (`none` when a key is out of range or an
    exception is raised explicitly). Nesting is ignored. -/
def requests (n : Nat) : List (Op α) → Option (List (Change α))
  | [] => some []
  | .set k new :: os => do
    let r ← keyRegion n k
    let rest ← requests n os
    pure (⟨r.1, r.2, new⟩ :: rest)
  | .enter :: os => requests n os
  | .leave :: os => requests n os
  | .raise :: _ => none

/-- The statements are properly nested: starting at depth `d`, nested blocks never close
    the outermost one, and all blocks opened are closed. -/
def Nested : Nat → List (Op α) → Prop
  | d, [] => d = 1
  | d, .enter :: os => Nested (d + 1) os
  | d, .leave :: os => 1 < d ∧ Nested (d - 1) os
  | d, .set _ _ :: os => Nested d os
  | d, .raise :: os => Nested d os

end Parce

import Verif.Model.Util
/-!
# Independent specifications for the list helpers
-/
namespace Parce
variable {R β : Type}

/-- Ranges one after the other, the first not before `a`. -/
def Asc (a : Nat) : List (Rg R) → Prop
  | [] => True
  | r :: rs => a ≤ r.pos ∧ r.pos ≤ r.stop ∧ Asc r.stop rs

/-- Position `p` is in a range with value `v`. -/
def InRg (rs : List (Rg R)) (p : Nat) (v : R) : Prop := ∃ r ∈ rs, r.pos ≤ p ∧ p < r.stop ∧ r.rest = v

/-- No two consecutive ranges could be merged. -/
def Merged : List (Rg R) → Prop
  | r :: s :: rs => ¬ (r.stop = s.pos ∧ r.rest = s.rest) ∧ Merged (s :: rs)
  | _ => True

/-- The pieces, joined with the separator. -/
def joinSep (sep : β) : List (List β) → List β
  | [] => []
  | [p] => p
  | p :: q :: ps => p ++ sep :: joinSep sep (q :: ps)

mutual
/-- The members, recursively. -/
def Obj.leaves : Obj β → List β
  | .leaf b => [b]
  | .seq os => leavesObjs os
def leavesObjs : List (Obj β) → List β
  | [] => []
  | o :: os => o.leaves ++ leavesObjs os
end

end Parce

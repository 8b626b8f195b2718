import Verif.Model.Caching
/-!
# What is asked of the caches
-/
namespace Parce.Cache
variable {O K : Type}

/-- Each object is used with one key, and the function raises no exceptions. -/
def Single (key : O → K) : Act O K → Prop
  | .ask o k => k = key o
  | .raise => False
  | .other => True

/-- Everything is allowed. -/
def Free : Act O K → Prop := fun _ => True

/-- Nothing is raised. -/
def Quiet : Act O K → Prop
  | .raise => False
  | _ => True

/-- Two values were returned for the same object and the same key. -/
def Differ (s : MState O K) : Prop := ∃ o k m n, m ≠ n ∧ (o, k, Res.val m) ∈ s.returned ∧ (o, k, Res.val n) ∈ s.returned

end Parce.Cache

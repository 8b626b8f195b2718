import Verif.Model.RuleItem
import Mathlib.Data.List.Forall2
/-!
# Independent specifications for rule items
-/
namespace Parce.RI
variable {V : Type}

mutual
/-- Nothing is left to be evaluated. -/
def Itm.Done : Itm V → Prop
  | .val _ => True
  | .tup os => DoneL os
  | .var _ => False
  | .call _ _ => False
  | .select _ _ => False
  | .target _ _ => False
  | .pattern v => v.Done
  | .subgroup as => DoneL as
  | .delegate l => l.Done
  | .skip => True
def DoneL : List (Itm V) → Prop
  | [] => True
  | o :: os => o.Done ∧ DoneL os
end

mutual
/-- The actions of every `SubgroupAction` are constant. -/
def Itm.SubOk : Itm V → Prop
  | .val _ => True
  | .tup os => SubOkL os
  | .var _ => True
  | .call p args => p.SubOk ∧ SubOkL args
  | .select i items => i.SubOk ∧ SubOkL items
  | .target v lexs => v.SubOk ∧ SubOkL lexs
  | .pattern v => v.SubOk
  | .subgroup as => DoneL as
  | .delegate l => l.SubOk
  | .skip => True
def SubOkL : List (Itm V) → Prop
  | [] => True
  | o :: os => o.SubOk ∧ SubOkL os
end

mutual
/-- The variables are defined. -/
def Itm.Bound (ns : NS V) : Itm V → Prop
  | .val _ => True
  | .tup os => BoundL ns os
  | .var n => ns n ≠ none
  | .call p args => p.Bound ns ∧ BoundL ns args
  | .select i items => i.Bound ns ∧ BoundL ns items
  | .target v lexs => v.Bound ns ∧ BoundL ns lexs
  | .pattern v => v.Bound ns
  | .subgroup as => BoundL ns as
  | .delegate l => l.Bound ns
  | .skip => True
def BoundL (ns : NS V) : List (Itm V) → Prop
  | [] => True
  | o :: os => o.Bound ns ∧ BoundL ns os
end

mutual
/-- No variable or call where only rule items are allowed ("can't be used directly in a rule"). -/
def Itm.RuleOk : Itm V → Prop
  | .val _ => True
  | .tup os => RuleOkL os
  | .var _ => False
  | .call _ _ => False
  | .select _ items => RuleOkL items
  | .target _ _ => True
  | .pattern _ => True
  | .subgroup _ => True
  | .delegate _ => True
  | .skip => True
def RuleOkL : List (Itm V) → Prop
  | [] => True
  | o :: os => o.RuleOk ∧ RuleOkL os
end

mutual
/-- The same, and the value of a pattern and the lexicon of a delegate action are no variable or
    call either. -/
def Itm.NoBare : Itm V → Prop
  | .val _ => True
  | .tup os => NoBareL os
  | .var _ => False
  | .call _ _ => False
  | .select _ _ => True
  | .target _ _ => True
  | .pattern v => v.NoBare
  | .subgroup as => DoneL as
  | .delegate l => l.NoBare
  | .skip => True
def NoBareL : List (Itm V) → Prop
  | [] => True
  | o :: os => o.NoBare ∧ NoBareL os
end

/-- Both namespaces together. -/
def NS.union (a b : NS V) : NS V := fun n => (a n).or (b n)

/-- Calls and variables give constant values, and `zero` is 0. -/
structure Py.Ok (py : Py V) : Prop where
  zero : py.asInt py.zero = some 0
  app : ∀ f args r, py.app f args = some r → r.Done

def NS.Ok (ns : NS V) : Prop := ∀ n v, ns n = some v → v.Done

mutual
/-- What an evaluated rule item finally comes to: the pattern, the lexicon, or the outcome of one
    of the actions of a `SubgroupAction` (they are evaluated later, with the same variables
    known). -/
inductive Expand (py : Py V) (ns : NS V) : Itm V → List (Itm V) → Prop
  | val (v : V) : Expand py ns (.val v) [.val v]
  | pattern (v : V) : Expand py ns (.pattern (.val v)) [.val v]
  | delegate (v : V) : Expand py ns (.delegate (.val v)) [.val v]
  | subgroup (as : List (Itm V)) (a a' : Itm V) (os : List (Itm V)) : a ∈ as → evaluate py ns a = .ok a' →
      ExpandL py ns (unrollI a') os → Expand py ns (.subgroup as) os
  | skip : Expand py ns .skip [.skip]
inductive ExpandL (py : Py V) (ns : NS V) : List (Itm V) → List (Itm V) → Prop
  | nil : ExpandL py ns [] []
  | cons (r : Itm V) (rs os os' : List (Itm V)) : Expand py ns r os → ExpandL py ns rs os' →
      ExpandL py ns (r :: rs) (os ++ os')
end

/-- The reported value `w` stands for the outcome: it is the same, or it is `a_number` and the
    outcome is a number, or it is `a_string` and the outcome is not `None`, or the outcome is a
    lexicon derived from it. -/
inductive Covers (py : Py V) (mk : Marks V) : Itm V → Itm V → Prop
  | same (o : Itm V) : Covers py mk o o
  | number (o : Itm V) : (o.int? py).isSome → Covers py mk (.val mk.number) o
  | string (v : V) : py.isNone v = false → Covers py mk (.val mk.string) (.val v)
  | derived (w o arg r : Itm V) : Covers py mk w o → py.app o [arg] = some r → Covers py mk w r

/-- Member by member. -/
def CoversL (py : Py V) (mk : Marks V) (ws os : List (Itm V)) : Prop :=
  List.Forall₂ (Covers py mk) ws os

mutual
/-- There is no `skip`, and a delegated lexicon has no `SubgroupAction` with dynamic actions. -/
def Itm.VarOk : Itm V → Prop
  | .val _ => True
  | .tup os => VarOkL os
  | .var _ => True
  | .call _ _ => True
  | .select _ items => VarOkL items
  | .target _ lexs => VarOkL lexs
  | .pattern _ => True
  | .subgroup as => VarOkL as
  | .delegate l => l.VarOk ∧ l.SubOk
  | .skip => False
def VarOkL : List (Itm V) → Prop
  | [] => True
  | o :: os => o.VarOk ∧ VarOkL os
end

/-- Only plain values can be called, with a plain value as result; numbers and `None` are no
    lexicons; there is only one `None`. -/
structure Py.Plain (py : Py V) (mk : Marks V) : Prop where
  app : ∀ f args r, py.app f args = some r → (∃ v, f = .val v) ∧ ∃ v, r = .val v
  none : ∀ v, py.isNone v = true → v = mk.none

mutual
/-- All choices in a tree. -/
def VT.all : VT V → List (List (Itm V))
  | .leaf o => [[o]]
  | .seq ts => VT.allSeq ts
  | .choice ts => VT.allChoice ts
def VT.allSeq : List (VT V) → List (List (Itm V))
  | [] => [[]]
  | t :: ts => t.all.flatMap (fun a => (VT.allSeq ts).map (fun b => a ++ b))
def VT.allChoice : List (VT V) → List (List (Itm V))
  | [] => []
  | t :: ts => t.all ++ VT.allChoice ts
end

mutual
/-- There is no `skip`, and every `select` and `SubgroupAction` has something to choose from. -/
def Itm.TreeOk : Itm V → Prop
  | .val _ => True
  | .tup os => TreeOkL os
  | .var _ => True
  | .call _ _ => True
  | .select _ items => items ≠ [] ∧ TreeOkL items
  | .target _ lexs => TreeOkL lexs
  | .pattern v => v.TreeOk
  | .subgroup as => as ≠ [] ∧ TreeOkL as
  | .delegate l => l.TreeOk
  | .skip => False
def TreeOkL : List (Itm V) → Prop
  | [] => True
  | o :: os => o.TreeOk ∧ TreeOkL os
end

/-- No member is a list or tuple. -/
def Flat (os : List (Itm V)) : Prop := ∀ o ∈ os, ∀ l, o ≠ .tup l

end Parce.RI

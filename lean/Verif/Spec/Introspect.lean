import Verif.Model.Introspect
import Verif.Spec.RuleItem
/-!
# Independent specifications for introspection
-/
namespace Parce.Isp
open Parce.RI
variable {V D A : Type}

mutual
/-- A delegated lexicon has no `SubgroupAction` with dynamic actions. -/
def DelOk : Itm V → Prop
  | .val _ => True
  | .tup os => DelOkL os
  | .var _ => True
  | .call _ _ => True
  | .select _ items => DelOkL items
  | .target _ lexs => DelOkL lexs
  | .pattern _ => True
  | .subgroup as => DelOkL as
  | .delegate l => DelOk l ∧ l.SubOk
  | .skip => True
def DelOkL : List (Itm V) → Prop
  | [] => True
  | o :: os => DelOk o ∧ DelOkL os
end

/-- What is a lexicon in one of the classes is not replaced with something else. -/
def NoOverride (mro : List (Cls D A)) : Prop :=
  ∀ k d c, c ∈ mro → (k, .lexicon d) ∈ c.dict → ∃ d', getattr mro k = some (.lexicon d')

/-- `Language`, and the classes after it, have no lexicons. -/
def LanguageLast (mro : List (Cls D A)) : Prop :=
  ∀ c ∈ mro.dropWhile (fun c => !c.isLanguage), ∀ k d, (k, Attr.lexicon d) ∉ c.dict

end Parce.Isp

import Verif.Model.RuleHelpers

/-! What the functions that make rule items stand for, as their documentation says. -/
namespace Parce.RH

open RI

/-- `ifgroup(i, r₁, ifgroup(i + 1, r₂, … default))`, where None is skipped (the documentation of
    `gselect`). -/
def nested : List (Option (Itm Val)) → Int → Itm Val → Itm Val
  | [], _, default => default
  | none :: rs, i, default => nested rs (i + 1) default
  | some r :: rs, i, default => ifgroup i r (nested rs (i + 1) default)

end Parce.RH

import Verif.Model.SwitchTransformer
import Verif.Spec.Transform
/-!
# Histories of a worker: edits and new transformers
-/
namespace Parce.Sw
variable {α L A R G N I T : Type} [DecidableEq G] [DecidableEq I] [DecidableEq T]

/-- The tree builder does its part: every context of the new tree that is known to the cache is invalidated, or was in the old tree
    with the same contents. -/
def Announced (s : State α L A R I T) (ids : List I) (kids : List (Node α L A)) (ident : List Nat → I) : Prop :=
  Distinct ident (.ctx s.lex kids) ∧
  ∀ p l cs, p ≠ [] → (Node.ctx s.lex kids).at p = some (.ctx l cs) → ident p ∈ ids ∨ (∀ t, s.cache t (ident p) = none) ∨
    ∃ q, q ≠ [] ∧ (Node.ctx s.lex s.kids).at q = some (.ctx l cs) ∧ s.ident q = ident p

/-- A worker with a new transformer that starts with a tree. -/
def start (env : T → TrEnv α L A R G N) (l : L) (cs : List (Node α L A)) (ident : List Nat → I) (t : T) : State α L A R I T :=
  runT env ⟨l, cs, ident, t, fun _ _ => none, fun _ => none⟩

/-- All histories. -/
inductive Hist (env : T → TrEnv α L A R G N) : State α L A R I T → Prop where
  | start (l : L) (cs : List (Node α L A)) (ident : List Nat → I) (t : T) (hd : Distinct ident (.ctx l cs)) : Hist env (start env l cs ident t)
  | setT (s : State α L A R I T) (t : T) : Hist env s → Hist env (setT env t s)
  | edit (s s' : State α L A R I T) (ids : List I) (kids : List (Node α L A)) (ident : List Nat → I) : Hist env s →
      Announced s ids kids ident → edit env ids kids ident s = some s' → Hist env s'

/-- Histories in which no transformer comes back after an edit that it missed. `now` are the transformers that were set since the last
    edit, `old` those that were set before. -/
inductive Fair (env : T → TrEnv α L A R G N) : List T → List T → State α L A R I T → Prop where
  | start (l : L) (cs : List (Node α L A)) (ident : List Nat → I) (t : T) (hd : Distinct ident (.ctx l cs)) :
      Fair env [] [t] (start env l cs ident t)
  | setT (old now : List T) (s : State α L A R I T) (t : T) : Fair env old now s → (t ∈ now ∨ t ∉ old) →
      Fair env old (t :: now) (setT env t s)
  | edit (old now : List T) (s s' : State α L A R I T) (ids : List I) (kids : List (Node α L A)) (ident : List Nat → I) :
      Fair env old now s → Announced s ids kids ident → edit env ids kids ident s = some s' → Fair env (now ++ old) [s.cur] s'

end Parce.Sw

import Verif.Model.Action
import Verif.Spec.Lexer
import Verif.Spec.Rebuild
import Verif.Spec.Re
/-!
# Patterns whose groups follow each other, and the actions for them
-/
namespace Parce
variable {α L A : Type}

/-- There are no groups in the expression. -/
def Pat.NoGroups : Pat α → Prop
  | .cat a b | .alt a b => a.NoGroups ∧ b.NoGroups
  | .star a | .lazy a | .look _ a => a.NoGroups
  | .grp _ _ => False
  | _ => True

/-- No group is inside another one, in a repetition, or in a look-ahead. -/
def Pat.Chain : Pat α → Prop
  | .cat a b | .alt a b => a.Chain ∧ b.Chain
  | .star a | .lazy a | .look _ a => a.NoGroups
  | .grp _ a => a.NoGroups
  | _ => True

/-- The numbers of the groups, from left to right. -/
def Pat.groupNos : Pat α → List Nat
  | .cat a b | .alt a b => a.groupNos ++ b.groupNos
  | .star a | .lazy a | .look _ a => a.groupNos
  | .grp i a => i :: a.groupNos
  | _ => []

/-- The group takes part in every match. -/
def Pat.Takes (i : Nat) : Pat α → Prop
  | .cat a b => a.Takes i ∨ b.Takes i
  | .alt a b => a.Takes i ∧ b.Takes i
  | .grp j a => i = j ∨ a.Takes i
  | _ => False

/-- An action that stands for one action at most, and does not look at groups by itself. -/
inductive Act.One : Act α L A → Prop
  | plain (a : A) : One (.plain a)
  | skip : One .skip
  | lexicon (l : L) : One (.lexicon l)
  | dyn (f : Option (List α) → List (Nat × List α) → List (Act α L A)) :
      (∀ w g, (f w g).length ≤ 1) → (∀ w g a, a ∈ f w g → One a) → One (.dyn f)

/-- The action suits the pattern: the groups for which there are actions follow each other. (They are numbered from left to
    right; in Python that is always so.) -/
def Act.Suits (p : Pat α) : Act α L A → Prop
  | .groups as => p.Chain ∧ p.groupNos = List.range' 1 p.groupNos.length ∧ ∀ a ∈ as, a.One
  | a => a.One

/-- All actions of a language suit the patterns. -/
structure ActDef.Suits (D : ActDef α L A) : Prop where
  rules : ∀ l, ∀ r ∈ D.rules l, ∀ w g, (r.out w g).1.Suits r.pat
  dflt : ∀ l f, D.dflt l = .action f → ∀ w, (f w).One

/-- The action does not start another lexer, whatever the text. -/
inductive Act.NoLexer : Act α L A → Prop
  | plain (a : A) : NoLexer (.plain a)
  | skip : NoLexer .skip
  | dyn (f : Option (List α) → List (Nat × List α) → List (Act α L A)) : (∀ w g a, a ∈ f w g → NoLexer a) → NoLexer (.dyn f)

/-- The first of the actions for the groups gives a token at the start of the match. -/
def Act.Begins (p : Pat α) : Act α L A → Prop
  | .plain _ | .skip => True
  | .groups (.plain _ :: _) => ∃ a b, p = .cat (.grp 1 a) b ∧ a.Consumes
  | _ => False

/-- Groups with numbers from `i` on, one immediately after the other. -/
def Pat.groupRow (i : Nat) : List (Pat α) → Pat α
  | [] => .eps
  | a :: as => .cat (.grp i a) (Pat.groupRow (i + 1) as)

end Parce

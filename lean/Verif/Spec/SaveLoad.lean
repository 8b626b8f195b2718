import Verif.Model.SaveLoad
/-!
# Independent specification for local files
-/
namespace Parce.SL

/-- The url is a scheme, a colon and the rest. -/
def HasScheme (u s rest : Url) : Prop :=
  u = s ++ ':' :: rest ∧ (∃ c t, s = c :: t ∧ c.isAlpha = true) ∧ ∀ c ∈ s, isSchemeChar c = true

/-- There is no host: two slashes are not followed by a name. -/
def NoHost (u : Url) : Prop := ∀ c t, u = '/' :: '/' :: c :: t → c = '/' ∨ c = '?' ∨ c = '#'

/-- The file that a url names for the code. -/
inductive Names : Url → Url → Prop
  /-- A name without a scheme. -/
  | plain (u : Url) : (∀ s r, ¬ HasScheme u s r) → NoHost u → Names u u
  /-- `file:path?query` -/
  | file (u s p : Url) (q : Url) : HasScheme u s (p ++ q) → s.map Char.toLower = "file".toList → (∀ t, p ++ q ≠ '/' :: '/' :: t) →
      '?' ∉ p → (q = [] ∨ ∃ t, q = '?' :: t) → Names u p
  /-- `file://path?query` -/
  | file2 (u s p : Url) (q : Url) : HasScheme u s ('/' :: '/' :: (p ++ q)) → s.map Char.toLower = "file".toList → NoHost ('/' :: '/' :: (p ++ q)) →
      '?' ∉ p → (q = [] ∨ ∃ t, q = '?' :: t) → Names u p

end Parce.SL

import Verif.Model.ThemeElement
/-!
# What is meant by the names of actions, and by rules that use classes
-/
namespace Parce.Css
variable {α : Type}

/-- Lower case is made per character; the dot stays as it is; and the names of actions are not empty, and have no white space and no dot, also in lower case. -/
structure NamesOk (env : Env α) (low : α → List α) (dot blank : α) (names : List (List α)) : Prop where
  lower : ∀ s, env.lower s = s.flatMap low
  dotSame : low dot = [dot]
  blankSpace : env.space blank = true
  filled : ∀ n ∈ names, env.lower n ≠ []
  plain : ∀ n ∈ names, ∀ c ∈ env.lower n, c ≠ dot ∧ env.space c = false

/-- The selector does not look at the text of the attribute `class`. -/
def NoClassText (env : Env α) (c : Compound α) : Prop := ∀ s ∈ c.attrs, s.attr ≠ env.classAttr

end Parce.Css

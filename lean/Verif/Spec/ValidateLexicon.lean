import Verif.Model.ValidateLexicon
import Verif.Spec.RuleItem

/-!
# What a valid set of rules is
-/
namespace Parce.VL

open Parce.RI

variable {V : Type}

/-- A number or a lexicon. -/
def IsTarget (env : Env V) (t : Itm V) : Prop := ∃ v, t = .val v ∧ ((env.py.asInt v).isSome ∨ env.isLex v = true)

/-- The rule is one for the default action, for the default target, or one with a pattern. -/
def IsAct (env : Env V) (r : List (Itm V)) : Prop := ∃ ts, r = .val env.defAct :: ts
def IsTgt (env : Env V) (r : List (Itm V)) : Prop := ∃ ts, r = .val env.defTgt :: ts

/-- The rules are good: all have a pattern and an action; there is at most one default action or target; the default target
    is checked without an error; every pattern is `None` or a regular expression; and all targets are
    numbers or lexicons. -/
structure Good (env : Env V) (rules : List (List (Itm V))) : Prop where
  two : ∀ r ∈ rules, 2 ≤ r.length
  one : ∀ (i j : Nat) r s, i < j → rules[i]? = some r → rules[j]? = some s → (IsAct env r ∨ IsTgt env r) → ¬ (IsAct env s ∨ IsTgt env s)
  deflt : ∀ ts, .val env.defTgt :: ts ∈ rules → env.check ts ≠ .badItem ∧ env.check ts ≠ .invalid ∧ env.check ts ≠ .circularError
  pattern : ∀ p ts, p :: ts ∈ rules → p ≠ .val env.defAct → p ≠ .val env.defTgt →
    ∃ v, p = .val v ∧ (env.py.isNone v = true ∨ ∃ b, env.compile v = some b)
  target : ∀ p a ts, p :: a :: ts ∈ rules → p ≠ .val env.defAct → p ≠ .val env.defTgt → ∀ t ∈ ts, IsTarget env t

/-- Rules without anything that is evaluated later (and without the private marker `a_number`). -/
def Static (env : Env V) (rules : List (List (Itm V))) : Prop := ∀ r ∈ rules, ∀ t ∈ r, ∃ v, t = .val v ∧ v ≠ env.marks.number

/-- The values behave like those of Python: only lexicons can be called to get a lexicon, with a lexicon as
    the result; numbers and `a_number` can not be called, and there are no lexicons that are numbers or markers. -/
structure World (env : Env V) : Prop where
  plain : env.py.Plain env.marks
  app : ∀ v args r, env.isLex v = true → env.py.app (.val v) args = some r → ∃ r', r = .val r' ∧ env.isLex r' = true
  num : ∀ v args, (env.py.asInt v).isSome → env.py.app (.val v) args = none
  number : ∀ args, env.py.app (.val env.marks.number) args = none
  string : env.py.asInt env.marks.string = none ∧ env.isLex env.marks.string = false ∧ env.marks.string ≠ env.marks.number

/-- An evaluated action that is not empty: a value, a lexicon that is used, or an action for groups, with one for a group. -/
def IsAction (py : Py V) (ns : NS V) (a : Itm V) : Prop := ∃ os, Expand py ns a os ∧ os ≠ []

end Parce.VL

import Verif.Spec.Indenter
/-!
# Levels of brackets in lines with other tokens

A line is a list of tokens: `some true` is an opening bracket, `some false` a closing one, `none` is another token.
-/
namespace Parce.Ind
variable {α T G : Type}

/-- The number of closing brackets that a line begins with. -/
def closingFirst : List (Option Bool) → Nat
  | some false :: ps => closingFirst ps + 1
  | _ => 0

/-- The level of a line: that of the brackets in the lines before, without the closing brackets that it begins with. -/
def tokenLevel (P : Nat → List (Option Bool)) (n : Nat) : Nat := levelBefore (fun k => (P k).filterMap id) n - closingFirst (P n)

/-- A token: the opening brackets are `{` and `<<`, the closing ones are `}` and `>>`, if they are delimiters of LilyPond. -/
def bracketOf [DecidableEq G] (lang : T → G) (lily : G) (delim : T → Bool) (text : T → List Char) (t : T) : Option Bool :=
  if lang t = lily ∧ delim t = true then
    (if text t = "{".toList ∨ text t = "<<".toList then some true else if text t = "}".toList ∨ text t = ">>".toList then some false else none)
  else none

/-- The line begins in LilyPond: after the closing brackets that it begins with is no token of another language. -/
def BeginsWith [DecidableEq G] (lang : T → G) (lily : G) (f : T → Option Bool) : List T → Prop
  | [] => True
  | t :: ts => lang t = lily ∧ (f t = some false → BeginsWith lang lily f ts)

end Parce.Ind

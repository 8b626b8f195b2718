import Verif.Model.LexiconStore
/-!
# What is asked of the lexicons
-/
namespace Parce.Lex
variable {D C A : Type}

/-- Python's equality is an equivalence. -/
structure IsEqv (eqv : A → A → Bool) : Prop where
  refl : ∀ a, eqv a a = true
  symm : ∀ a b, eqv a b = true → eqv b a = true
  trans : ∀ a b c, eqv a b = true → eqv b c = true → eqv a c = true

/-- Values that Python compares: numbers, which are equal to truth values, and texts. -/
inductive Val where
  | num (n : Int)
  | bool (b : Bool)
  | str (s : String)
deriving DecidableEq, Repr

/-- Python's `==` of these values. -/
def Val.eqv : Val → Val → Bool
  | .num m, .num n => m = n
  | .bool a, .bool b => a = b
  | .str s, .str t => s = t
  | .num m, .bool b => m = if b then 1 else 0
  | .bool b, .num m => m = if b then 1 else 0
  | _, _ => false

end Parce.Lex

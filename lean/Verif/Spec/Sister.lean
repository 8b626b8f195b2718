import Verif.Model.Sister
/-!
# Classes in Python, and the sister of a language
-/
namespace Parce.Sis
variable {C M : Type} [DecidableEq C]

/-- What Python ensures for the order of the base classes (https://docs.python.org/3/howto/mro.html): a class is the first and `object` the last of its
    bases, none occurs twice, and the bases of a base come in the same order. -/
structure Classes.Ok (k : Classes C M) (object : C) : Prop where
  first : ∀ c, (k.mro c).head? = some c
  last : ∀ c, (k.mro c).getLast? = some object
  once : ∀ c, (k.mro c).Nodup
  order : ∀ c, ∀ d ∈ k.mro c, (k.mro d).Sublist (k.mro c)

/-- `s` is the sister of the class `c`: it is in the same module, has the name that belongs to it, and is a subclass of `base`. -/
def IsSister (k : Classes C M) (template : List Nat → List Nat) (base c s : C) : Prop :=
  k.attr (k.modOf c) (template (k.name c)) = some s ∧ base ∈ k.mro s

/-- The class is a language, other than `Language` itself. -/
def IsLanguage (k : Classes C M) (language c : C) : Prop := language ∈ k.mro c ∧ c ≠ language

end Parce.Sis

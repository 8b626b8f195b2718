import Verif.Model.TextFormat

/-! What must hold for a text format to be kept when it is written and read again. -/

namespace Parce.TF

variable {N C : Type}

/-- The attributes of the format that writing and reading keeps. `plain` are the names that are
written without quotes, `zero` the numbers that are false, `color` what becomes of a colour. -/
structure Written (plain : String → Bool) (zero : N → Bool) (color : C → C) (f : Fmt N C) : Prop where
  /-- All colours can be read again. -/
  colors : ∀ c, some c ∈ [f.color, f.background, f.caret, f.decoColor] → color c = c
  /-- The lines of text decoration are set exactly when there is something to write. -/
  deco : f.decoLine.isSome ↔ f.decoLine.getD [] ≠ [] ∨ f.decoStyle.isSome ∨ f.decoColor.isSome
  /-- There is at least one family, and those without quotes are generic ones. -/
  family : ∀ fs, f.family = some fs → fs ≠ [] ∧ ∀ s ∈ fs, plain s = true → s ∈ families
  /-- The size is not zero, and has no unit if it is a word. -/
  size : ∀ n, f.size = some (.num n) → zero n = false
  sizeUnit : ∀ w, f.size = some (.word w) → f.sizeUnit = none
  /-- The stretch is no number. -/
  stretch : ∀ n, f.stretch ≠ some (.num n)
  /-- Only `oblique` has an angle, and that is not zero. -/
  angle : ∀ a, f.angle = some a → f.style = some "oblique" ∧ zero a = false
  /-- The weight is not zero. -/
  weight : ∀ n, f.weight = some (.num n) → zero n = false

end Parce.TF

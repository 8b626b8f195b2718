import Verif.Model.Themes

/-! What is known of the formatters after some calls. -/

namespace Parce.Thm

variable {T X F G A R : Type}

/-- What a formatter shows for a language: the theme, and the formats. -/
structure Shows (T F A R : Type) where
  theme : Option T
  textformat : A → Option F
  baseformat : R → Option F

/-- What formatter `i` shows for the language. -/
def shows [DecidableEq G] (i : Nat) (lang : Option G) (s : State T X F G A R) : Shows T F A R :=
  ⟨getTheme i lang s, fun a => textformat i lang a s, fun r => baseformat i lang r s⟩

/-- No language is twice in a dictionary. -/
def Once (d : Caches T F G A R) : Prop := (d.map (·.1)).Nodup

/-- The calls that change the themes of formatters. -/
inductive Reach [DecidableEq G] (th : Themes T X A R) (factory : Nat → X → Option F) : State T X F G A R → Prop
  | start : Reach th factory ⟨factory, fun _ => []⟩
  | add {s} (i t lang addBase) : Reach th factory s → Reach th factory (addTheme th i t lang addBase s)
  | remove {s s'} (i lang) : Reach th factory s → removeTheme i lang s = some s' → Reach th factory s'
  | copy {s} (i j) : Reach th factory s → Reach th factory (copyThemes th i j s).1

end Parce.Thm

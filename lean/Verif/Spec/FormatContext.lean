import Verif.Model.FormatContext

/-! What a format context and the user of the ranges see. -/

namespace Parce.FC

variable {α L A F G : Type}

/-- The ranges among the events. -/
def ranges : List (Ev F G) → List (Rg F)
  | [] => []
  | .switch _ :: s => ranges s
  | .range r :: s => r :: ranges s

/-- The calls of `switch` among the events. -/
def switches : List (Ev F G) → List (Option G)
  | [] => []
  | .switch k :: s => k :: switches s
  | .range _ :: s => switches s

/-- The events of a trace. -/
def evs : List (Out F G) → List (Ev F G)
  | [] => []
  | .ev e :: s => e :: evs s
  | _ :: s => evs s

/-- The theme to be used for text in a language: its own if it has one, else the default. -/
def themeOf (c : FCaches A F G) (g : G) : Option G → Prop
  | some g' => g' = g ∧ ∃ q ∈ c.others, q.1 = g
  | none => ∀ q ∈ c.others, q.1 ≠ g

/-- The elements that differ from the one before; `k` is the one before the first. -/
def changes [DecidableEq G] : Option G → List (Option G) → List (Option G)
  | _, [] => []
  | k, x :: xs => if x = k then changes k xs else x :: changes x xs

/-- The lexicons of the contexts that are visited. -/
def langs : List (FEv α L A) → List L
  | [] => []
  | .lang l :: s => l :: langs s
  | .tok _ :: s => langs s

/-- The switches among steps. -/
def stepSwitches : List (Step α A F G) → List (Option G)
  | [] => []
  | .switch k :: s => k :: stepSwitches s
  | .tok _ _ :: s => stepSwitches s

/-- The tokens among steps, with the cache that is used and the theme that was last announced. -/
def stepToks : Option G → List (Step α A F G) → List (TokN α A × FCache A F × Option G)
  | _, [] => []
  | _, .switch k :: s => stepToks k s
  | k, .tok t fc :: s => (t, fc, k) :: stepToks k s

/-- The tokens with the lexicon of the context that was visited last; `l` is the one before. -/
def tokLangs : Option L → List (FEv α L A) → List (TokN α A × Option L)
  | _, [] => []
  | _, .lang l :: s => tokLangs (some l) s
  | l, .tok t :: s => (t, l) :: tokLangs l s

end Parce.FC

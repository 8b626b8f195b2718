import Verif.Model.Css
/-!
# Model of the elements that a theme looks up, parce/theme.py:149-188, 531-544

An action is given by its names, from the first ancestor to itself. The properties that the style has for an element are those of C53.
-/
namespace Parce.Css
variable {α : Type}

/-- `repr(action)`, `standardaction.py:122-123`. -/
def reprText (dot : α) : List (List α) → List α
  | [] => []
  | [n] => n
  | n :: m :: ns => n ++ dot :: reprText dot (m :: ns)

/-- `css_class`, `theme.py:531-544`. -/
def cssClass [DecidableEq α] (env : Env α) (dot blank : α) (names : List (List α)) : List α :=
  (env.lower (reprText dot names)).map fun c => if c = dot then blank else c

/-- An element with a class attribute, `css.py:675-688`. -/
def clsEl (env : Env α) (cls : List α) (pclasses pelems : List (List α)) (kids : List (El α)) : El α := .mk [] [(env.classAttr, cls)] pclasses pelems kids

/-- The element of `textformat` is the child of an element with the class `parce`, `theme.py:184-187`; the path of the child is `[0]`. -/
def textEl [DecidableEq α] (env : Env α) (dot blank : α) (parce : List α) (names : List (List α)) : El α :=
  clsEl env parce [] [] [clsEl env (cssClass env dot blank names) [] [] []]

/-- The roles, `theme.py:173-178`. -/
inductive Role (α : Type)
  | window
  | selection
  | other (name : List α)

/-- The element of `baseformat`, `theme.py:173-181`; `state` is `focus` or `disabled`, and `none` for any other state. -/
def baseEl (env : Env α) (blank : α) (parce selection : List α) (role : Role α) (state : Option (List α)) : El α :=
  match role with
  | .window => clsEl env parce state.toList [] []
  | .selection => clsEl env parce state.toList [selection] []
  | .other r => clsEl env (parce ++ blank :: r) state.toList [] []

end Parce.Css

import Verif.Model.StyleSheet
/-!
# Model of `StyleSheet.__add__`, parce/css.py:277-281, and of `Theme._stylesheet`, parce/theme.py:129-144
-/
namespace Parce.Sheet
variable {F R : Type} [DecidableEq F]

/-- `__add__`, `css.py:277-281`; `uniq` is `list(set(...))`, which has the names in any order. -/
def StyleSheet.add (uniq : List F → List F) (s o : StyleSheet F R) : StyleSheet F R :=
  ⟨none, uniq (s.filenames ++ o.filenames), s.rules ++ o.rules⟩

/-- `sum(sheets[1:], sheets[0])`, `theme.py:135`; `none` is the IndexError. -/
def sumSheets (uniq : List F → List F) : List (StyleSheet F R) → Option (StyleSheet F R)
  | [] => none
  | s :: ss => some (ss.foldl (StyleSheet.add uniq) s)

/-- `_stylesheet`, `theme.py:129-135`, for the style sheets that are read from the files and from the text; `hasText` is whether the text is not
    empty. -/
def themeSheet (uniq : List F → List F) (files : List (StyleSheet F R)) (hasText : Bool) (text : StyleSheet F R) : Option (StyleSheet F R) :=
  sumSheets uniq (if hasText || files.isEmpty then files ++ [text] else files)

end Parce.Sheet

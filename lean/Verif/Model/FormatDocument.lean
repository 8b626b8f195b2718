import Verif.Model.Formatter
import Verif.Model.Replace
/-!
# Model of `AbstractFormatter.format_document`, parce/formatter.py:282-310
-/
namespace Parce
variable {α L A F G : Type}

/-- `format_document`, `formatter.py:307-310`, for a document with the text and the tree; the format context is left out, as in `formatText`. -/
def formatDocument [DecidableEq G] [DecidableEq F] (c : FCaches A F G) (langOf : L → G) (text : List α) (l : L) (cs : List (Node α L A)) (cur : Cursor) :
    List (List α × Option F) :=
  if cur.hasSelection text then formatText c langOf text l cs cur.pos cur.stop else []

end Parce

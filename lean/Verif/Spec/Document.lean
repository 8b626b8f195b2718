import Verif.Spec.Edit
import Verif.Model.Document
/-!
# Independent specification of document histories and cursors
-/
namespace Parce
variable {α : Type}

/-- Some `text_change` event is in the list. -/
def textChanged (evs : List Ev) : Prop := ∃ p r a, Ev.textChange p r a ∈ evs

/-- `History init tip saved d`: the document `d` is reached from a fresh document by edit
    blocks (none rejected because of overlap), undo, redo, setting `modified` and clearing
    the history.
    * `init` is the text before the first recorded edit,
    * `tip` is the text after the last edit block that changed the text,
    * `saved` is the text when `modified` was last set to False by the user. -/
inductive History [DecidableEq α] : List α → List α → List α → Doc α → Prop
  | new (t : List α) : History t t t (Doc.new t)
  | edit {init tip saved : List α} {d : Doc α} (body : List (Op α)) :
      History init tip saved d → Nested 1 body →
      (d.withBlock .normal body).error ≠ some .overlap →
      textChanged (d.withBlock .normal body).events →
      History init (d.withBlock .normal body).doc.ms.text saved (d.withBlock .normal body).doc
  | noEdit {init tip saved : List α} {d : Doc α} (body : List (Op α)) :
      History init tip saved d → Nested 1 body →
      (d.withBlock .normal body).error ≠ some .overlap →
      ¬ textChanged (d.withBlock .normal body).events →
      History init tip saved (d.withBlock .normal body).doc
  | undo {init tip saved : List α} {d : Doc α} : History init tip saved d →
      History init tip saved d.doUndo.doc
  | redo {init tip saved : List α} {d : Doc α} : History init tip saved d →
      History init tip saved d.doRedo.doc
  | save {init tip saved : List α} {d : Doc α} : History init tip saved d →
      History init tip d.ms.text (d.setModified .normal false).1
  | touch {init tip saved : List α} {d : Doc α} : History init tip saved d →
      History init tip saved (d.setModified .normal true).1
  | clear {init tip saved : List α} {d : Doc α} : History init tip saved d →
      History d.ms.text d.ms.text saved d.clearUndoRedo.doc

/-- `undo()` (or `redo()`) called `n` times. -/
def Doc.undoN [DecidableEq α] : Nat → Doc α → Doc α
  | 0, d => d
  | n + 1, d => Doc.undoN n d.doUndo.doc
def Doc.redoN [DecidableEq α] : Nat → Doc α → Doc α
  | 0, d => d
  | n + 1, d => Doc.redoN n d.doRedo.doc

/-- What must happen to a cursor when one region is replaced: positions up to the start stay,
    positions in the replaced region go to its start (the end of a selection goes behind the
    new text), positions after it keep the text that follows them. -/
structure Follows (t : List α) (ch : Change α) (c c' : Cursor) : Prop where
  before : c.pos ≤ ch.start → c'.pos = c.pos
  inside : ch.start < c.pos → c.pos ≤ ch.stop → c'.pos = ch.start
  after : ch.stop < c.pos → c'.pos + (ch.stop - ch.start) = c.pos + ch.text.length ∧
    (splice t [ch]).drop c'.pos = t.drop c.pos
  noEnd : c.stop = none → c'.stop = none
  endBefore : ∀ e, c.stop = some e → e < ch.start → c'.stop = some e
  endInside : ∀ e, c.stop = some e → ch.start ≤ e → e ≤ ch.stop →
    c'.stop = some (ch.start + ch.text.length)
  endAfter : ∀ e, c.stop = some e → ch.stop < e →
    ∃ e', c'.stop = some e' ∧ e' + (ch.stop - ch.start) = e + ch.text.length ∧
      (splice t [ch]).drop e' = t.drop e

end Parce

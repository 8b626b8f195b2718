import Verif.Model.MutableString
/-!
# Model of parce/document.py: cursors, undo/redo, modified state, events

The block functions are in `Verif/Model/Block.lean`.
-/
namespace Parce
variable {α : Type}

/-! ### Cursors -/

/-- A `Cursor` (`document.py:539-578`): `pos` and `end`, where `end` may be None. -/
structure Cursor where
  pos : Nat
  stop : Option Nat
deriving DecidableEq, Repr

/-- The new `pos` for one change, `document.py:88-93`. -/
def movePos (start stop len pos : Nat) : Nat :=
  if pos > start then
    if stop ≥ pos then start else pos + (start + len) - stop
  else pos

/-- Body of the inner loop of `_update_cursors`, `document.py:88-100`. The second component
    tells whether `i` is incremented. -/
def updOne (ch : Change α) (c : Cursor) : Cursor × Bool :=
  let ahead := decide (c.pos > ch.start)
  let pos := movePos ch.start ch.stop ch.text.length c.pos
  match c.stop with
  | some e =>
    if e ≥ ch.start then
      (⟨pos, some (if ch.stop ≥ e then ch.start + ch.text.length
                   else e + (ch.start + ch.text.length) - ch.stop)⟩, false)
    else (⟨pos, some e⟩, !ahead)
  | none => (⟨pos, none⟩, !ahead)

/-- The loops of `_update_cursors`, `document.py:86-100`. `cursors[i:]` is a copy made when
    the inner loop starts, so a changing `i` only matters for the next change. -/
def updLoop : Nat → List (Change α) → List Cursor → List Cursor
  | _, [], cs => cs
  | i, ch :: chs, cs =>
    let upd := (cs.drop i).map (updOne ch)
    updLoop (i + (upd.filter (·.2)).length) chs (cs.take i ++ upd.map (·.1))

/-- Stable insertion by `pos`. -/
def insertCursor (c : Cursor) : List Cursor → List Cursor
  | [] => [c]
  | d :: ds => if c.pos ≤ d.pos then c :: d :: ds else d :: insertCursor c ds

/-- `sorted(self._cursors, key=lambda c: c.pos)`, `document.py:85`. -/
def sortCursors : List Cursor → List Cursor
  | [] => []
  | c :: cs => insertCursor c (sortCursors cs)

/-- `_update_cursors`, `document.py:82-100`. The weak set of cursors is a list in an
    arbitrary order; the result is in sorted order. -/
def updateCursors (changes : List (Change α)) (cs : List Cursor) : List Cursor :=
  updLoop 0 changes (sortCursors cs)

/-! ### Documents -/

/-- The events emitted by `Document` (`document.py:283-310`). `text_changed` always follows
    `text_change` and is not modelled separately. -/
inductive Ev where
  | undoAvailable (b : Bool)
  | redoAvailable (b : Bool)
  | modificationChanged (b : Bool)
  | textChange (position removed added : Nat)
deriving DecidableEq, Repr

/-- Whether the switches `_in_undo` or `_in_redo` are on (`document.py:311-312`). They are
    never on both. -/
inductive Mode where
  | normal
  | undo
  | redo
deriving DecidableEq, Repr

/-- An element of the undo or redo stack: `[changes, modified]` (`document.py:360`). -/
structure Entry (α : Type) where
  changes : List (Change α)
  modified : Bool
deriving DecidableEq, Repr

/-- The state of a `Document` (`document.py:67-74`, `316-322`). The head of a list is the top
    of the stack. -/
structure Doc (α : Type) where
  ms : MS α
  cursors : List Cursor
  revision : Nat
  modified : Bool
  undo : List (Entry α)
  redo : List (Entry α)
  enabled : Bool

/-- `Document(text)`, `document.py:316-322`. -/
def Doc.new (text : List α) : Doc α := ⟨⟨text, 0, []⟩, [], 0, false, [], [], true⟩

structure DRes (α : Type) where
  doc : Doc α
  error : Option Err
  events : List Ev

/-- `_set_all_undo_redo_modified`, `document.py:402-405`. -/
def Doc.setAllModified (d : Doc α) : Doc α :=
  { d with undo := d.undo.map (fun e => { e with modified := true }),
           redo := d.redo.map (fun e => { e with modified := true }) }

/-- The setter of `modified`, `document.py:329-337`. -/
def Doc.setModified (mode : Mode) (d : Doc α) (m : Bool) : Doc α × List Ev :=
  if mode = .normal then
    let d' := { d with modified := m }
    let d'' := if m then d' else d'.setAllModified
    (d'', if m ≠ d.modified then [.modificationChanged m] else [])
  else (d, [])

/-- `_reverse_changes`, `document.py:347-356`. `head` may be decreased below the sum of the
    additions only together with a later start, so it is kept as an integer. -/
def reverseFrom (t : List α) : Int → List (Change α) → List (Change α)
  | _, [] => []
  | head, c :: cs =>
    let h := head + c.start
    ⟨h.toNat, h.toNat + c.text.length, slice t c.start c.stop⟩ ::
      reverseFrom t (h + c.text.length - c.stop) cs

def reverseChanges (t : List α) (cs : List (Change α)) : List (Change α) := reverseFrom t 0 cs

/-- `_store_undo`, `document.py:358-366`. -/
def Doc.storeUndo (mode : Mode) (d : Doc α) (changes : List (Change α)) : Doc α :=
  match mode with
  | .undo => { d with redo := ⟨changes, d.modified⟩ :: d.redo }
  | .redo => { d with undo := ⟨changes, d.modified⟩ :: d.undo }
  | .normal => { d with undo := ⟨changes, d.modified⟩ :: d.undo, redo := [] }

def Doc.canUndo (d : Doc α) : Bool := !d.undo.isEmpty
def Doc.canRedo (d : Doc α) : Bool := !d.redo.isEmpty

/-- The events of the `_check_undo_state` context manager, `document.py:383-400`. -/
def undoStateEvents (before after : Doc α) : List Ev :=
  (if after.canUndo ≠ before.canUndo then [.undoAvailable after.canUndo] else []) ++
  (if after.canRedo ≠ before.canRedo then [.redoAvailable after.canRedo] else [])

/-- `Document._update_text`, `document.py:339-345`, with `AbstractDocument._update_text`
    (102-106) and `MutableString._update_text`. -/
def Doc.updateText (mode : Mode) (d : Doc α) (changes : List (Change α)) : Doc α × List Ev :=
  let d1 := if d.enabled then d.storeUndo mode (reverseChanges d.ms.text changes) else d
  let d2 := { d1 with cursors := updateCursors changes d1.cursors, revision := d1.revision + 1 }
  let (d3, ev) := d2.setModified mode true
  let d4 := { d3 with ms := { d3.ms with text := Parce.updateText d3.ms.text changes } }
  (d4, ev ++ undoStateEvents d d4)

/-- `_apply_changes` of a Document, `mutablestring.py:166-177` and `document.py:429-437`. -/
def Doc.applyChanges (mode : Mode) (d : Doc α) : DRes α :=
  if d.ms.pending.isEmpty then ⟨d, none, []⟩
  else
    match getChanges d.ms.pending with
    | none => ⟨d, some .overlap, []⟩
    | some cs =>
      let (d', ev) := d.updateText mode cs
      let r := reportOf cs
      ⟨{ d' with ms := { d'.ms with pending := [] } }, none, ev ++ [.textChange r.1 r.2.1 r.2.2]⟩

/-- `__setitem__` of a Document, `mutablestring.py:120-127`. -/
def Doc.setItem [DecidableEq α] (mode : Mode) (d : Doc α) (k : Key) (new : List α) : DRes α :=
  match parseKey d.ms.text.length k with
  | .error e => ⟨d, some e, []⟩
  | .ok (a, b) =>
    if (new ≠ [] ∨ a ≠ b) ∧ (b - a ≠ new.length ∨ slice d.ms.text a b ≠ new) then
      let d' := { d with ms := { d.ms with pending := d.ms.pending ++ [⟨a, b, new⟩] } }
      if d.ms.ctx = 0 then d'.applyChanges mode else ⟨d', none, []⟩
    else ⟨d, none, []⟩

/-- `__exit__` of a Document, `mutablestring.py:95-105`. -/
def Doc.exit (mode : Mode) (d : Doc α) (exc : Bool) : DRes α :=
  if exc then ⟨{ d with ms := { d.ms with ctx := 0, pending := [] } }, none, []⟩
  else if d.ms.ctx > 1 then ⟨{ d with ms := { d.ms with ctx := d.ms.ctx - 1 } }, none, []⟩
  else Doc.applyChanges mode { d with ms := { d.ms with ctx := 0 } }

/-- Effect of a statement on a document. -/
def Op.stepD [DecidableEq α] (mode : Mode) (d : Doc α) : Op α → DRes α
  | .set k new => d.setItem mode k new
  | .enter => ⟨{ d with ms := Parce.enter d.ms }, none, []⟩
  | .leave => d.exit mode false
  | .raise => ⟨d, some .user, []⟩

def runOpsD [DecidableEq α] (mode : Mode) (d : Doc α) : List (Op α) → DRes α
  | [] => ⟨d, none, []⟩
  | o :: os =>
    let r := o.stepD mode d
    match r.error with
    | some _ => r
    | none =>
      let r2 := runOpsD mode r.doc os
      { r2 with events := r.events ++ r2.events }

def unwindD (mode : Mode) (r : DRes α) : DRes α :=
  if r.error.isSome ∧ r.doc.ms.ctx > 0 then { r with doc := (r.doc.exit mode true).doc } else r

/-- `with d: body`. -/
def Doc.withBlock [DecidableEq α] (mode : Mode) (d : Doc α) (body : List (Op α)) : DRes α :=
  unwindD mode (runOpsD mode d (.enter :: body ++ [.leave]))

/-- The assignments made by `_apply_undo_redo`, `document.py:379-380`. -/
def replay (changes : List (Change α)) : List (Op α) :=
  changes.map (fun c => .set (.range (some (c.start : Int)) (some (c.stop : Int))) c.text)

/-- `_apply_undo_redo` after the entry was popped, `document.py:378-381`. -/
def Doc.applyEntry [DecidableEq α] (mode : Mode) (d : Doc α) (e : Entry α) : DRes α :=
  let r := d.withBlock mode (replay e.changes)
  match r.error with
  | some _ => r
  | none =>
    let (d', ev) := r.doc.setModified .normal e.modified
    ⟨d', none, r.events ++ ev⟩

/-- `undo`, `document.py:407-409` with 368-381. -/
def Doc.doUndo [DecidableEq α] (d : Doc α) : DRes α :=
  if d.ms.ctx > 0 then ⟨d, some .inContext, []⟩
  else match d.undo with
    | [] => ⟨d, none, []⟩
    | e :: es => Doc.applyEntry .undo { d with undo := es } e

/-- `redo`, `document.py:411-413` with 368-381. -/
def Doc.doRedo [DecidableEq α] (d : Doc α) : DRes α :=
  if d.ms.ctx > 0 then ⟨d, some .inContext, []⟩
  else match d.redo with
    | [] => ⟨d, none, []⟩
    | e :: es => Doc.applyEntry .redo { d with redo := es } e

/-- `clear_undo_redo`, `document.py:415-419`. -/
def Doc.clearUndoRedo (d : Doc α) : DRes α :=
  let d' := { d with undo := [], redo := [] }
  ⟨d', none, undoStateEvents d d'⟩

/-- What a user can do to a document between contexts. -/
inductive Action (α : Type) where
  | edit (body : List (Op α))
  | undo
  | redo
  | setModified (m : Bool)
  | clear

def Action.run [DecidableEq α] (d : Doc α) : Action α → DRes α
  | .edit body => d.withBlock .normal body
  | .undo => d.doUndo
  | .redo => d.doRedo
  | .setModified m => let r := d.setModified .normal m; ⟨r.1, none, r.2⟩
  | .clear => d.clearUndoRedo

end Parce

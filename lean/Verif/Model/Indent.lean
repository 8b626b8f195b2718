import Verif.Model.Block
/-!
# Model of parce/indent.py

The events of the language-specific indenters are a parameter: for a text, the number of a line and the
current stack of indents they give a list of events. `space` is the parameter for what `str.lstrip()` and
`str.rstrip()` strip. The document is the mutable string of `Verif/Model/MutableString.lean`; the edits are
made in a `with` block, so all positions refer to the text before the edit.
-/
namespace Parce.Ind
variable {α : Type}

/-- The events, `indent.py:87-100`. -/
inductive Ev (α : Type) where
  | indent
  | dedent
  | noDedent
  | preferIndent (s : List α)
  | currentIndent (s : List α)
  | align (s : List α)
  | blank
  | noStrip
  | noIndent
deriving DecidableEq

/-- `IndentInfo`, `indent.py:104-135`. -/
structure Info (α : Type) where
  indents : List (Option (List α))
  dedentsStart : Nat
  dedentsEnd : Nat
  indent : Option (List α)
  prefer : Option (List α)
  blank : Bool
  noStrip : Bool
  noIndent : Bool
deriving DecidableEq

def Info.init : Info α := ⟨[], 0, 0, none, none, false, false, false⟩

/-- Set the last of the indents, if that has no string yet, `indent.py:282-283`. -/
def alignLast (s : List α) : List (Option (List α)) → List (Option (List α))
  | [] => []
  | [none] => [some s]
  | [some x] => [some x]
  | i :: is => i :: alignLast s is

/-- The loop of `indent_info`, `indent.py:276-299`; the flag is `find_dedents`. -/
def infoLoop : List (Ev α) → Bool → Info α → Info α
  | [], _, i => i
  | .currentIndent s :: es, f, i => infoLoop es f { i with indent := some s }
  | .align s :: es, f, i => infoLoop es f { i with indents := alignLast s i.indents }
  | .preferIndent s :: es, f, i => infoLoop es f { i with prefer := some s }
  | .indent :: es, _, i => infoLoop es false { i with indents := i.indents ++ [none] }
  | .dedent :: es, f, i =>
    if f then infoLoop es f { i with dedentsStart := i.dedentsStart + 1 }
    else if i.indents ≠ [] then infoLoop es f { i with indents := i.indents.dropLast }
    else infoLoop es f { i with dedentsEnd := i.dedentsEnd + 1 }
  | .noDedent :: es, _, i => infoLoop es false i
  | .blank :: es, f, i => infoLoop es f { i with blank := true }
  | .noStrip :: es, f, i => infoLoop es f { i with noStrip := true }
  | .noIndent :: es, f, i => infoLoop es f { i with noIndent := true }

/-- `text[:-len(text.lstrip())]`, `indent.py:305`. Python's `text[:-0]` is the empty string. -/
def ownIndent (space : α → Bool) (text : List α) : List α :=
  let n := (text.dropWhile space).length
  if n = 0 then [] else text.take (text.length - n)

/-- `indent_info`, `indent.py:269-308`. Line 307 (`info.indent == ""`) compares and has no effect. -/
def indentInfo (space : α → Bool) (evs : List (Ev α)) (text : List α) : Info α :=
  let i := infoLoop evs true Info.init
  if i.indent = none ∧ i.noIndent = false then { i with indent := some (ownIndent space text) } else i

/-- The attributes of an indenter, `indent.py:146-149`. -/
structure Cfg (α : Type) where
  indentString : List α
  indentBlank : Bool

/-- The indents that the previous line asked for, `indent.py:168-172`. The stack has the last indent at the
    front. `none` would be the error for taking the last item of an empty list. -/
def pushIndents (c : Cfg α) : List (Option (List α)) → List (List α) → Option (List (List α))
  | [], st => some st
  | _ :: _, [] => none
  | i :: is, top :: st =>
    let add := match i with
      | some s => if s = [] then c.indentString else s
      | none => c.indentString
    pushIndents c is ((top ++ add) :: top :: st)

/-- `del indents[max(1, len(indents) - n):]`, `indent.py:175` and `194`. -/
def popIndents (n : Nat) (st : List (List α)) : List (List α) := st.drop (st.length - max 1 (st.length - n))

/-- `if info.allow_indent and (...)`, `indent.py:178-191`: the new stack and the new indent of the line, if it
    changes. -/
def applyIndent [DecidableEq α] (c : Cfg α) (inside : Bool) (i : Info α) (st : List (List α)) :
    Option (List (List α) × Option (List α)) :=
  if i.noIndent = false ∧ (c.indentBlank = true ∨ i.blank = false) then
    if inside = false then
      match i.prefer with
      | some _ => some (st, none)
      | none => match st with
        | [] => none
        | _ :: st => some (i.indent.getD [] :: st, none)
    else
      match i.prefer with
      | some p => some (st, if some p ≠ i.indent then some p else none)
      | none => match st with
        | [] => none
        | top :: st => some (top :: st, if some top ≠ i.indent then some top else none)
  else some (st, none)

/-- One round of the loop in `indent`, `indent.py:165-194`. -/
def lineStep [DecidableEq α] (c : Cfg α) (inside : Bool) (i : Info α) (prev : List (Option (List α))) (st : List (List α)) :
    Option (List (List α) × Option (List α)) := do
  let st ← pushIndents c prev st
  let r ← applyIndent c inside i (popIndents i.dedentsStart st)
  pure (popIndents i.dedentsEnd r.1, r.2)

/-- What the indenters report: the text, the number of the line, the stack of indents. -/
abbrev Events (α : Type) := List α → Nat → List (List α) → List (Ev α)

/-- The loop of `indent`, `indent.py:164-200`; gives the edits. The cursor is `pos`, `stop`. -/
def indentLoop [DecidableEq α] (space : α → Bool) (c : Cfg α) (E : Events α) (t : List α) (pos : Nat) (stop : Option Nat) :
    List Blk → Nat → List (Option (List α)) → List (List α) → Option (List (Change α))
  | [], _, _, _ => some []
  | b :: bs, n, prev, st => do
    let i := indentInfo space (E t n st) (slice t b.pos b.stop)
    let r ← lineStep c (decide (pos ≤ b.pos)) i prev st
    let rest ← match stop with
      | some e => if e ≤ b.stop then some [] else indentLoop space c E t pos stop bs (n + 1) i.indents r.1
      | none => indentLoop space c E t pos stop bs (n + 1) i.indents r.1
    pure ((r.2.map (fun new => ⟨b.pos, b.pos + (i.indent.getD []).length, new⟩)).toList ++ rest)

/-- The statement `d[start:end] = text`. -/
def setOp (c : Change α) : Op α := .set (.range (some c.start) (some c.stop)) c.text

/-- Making the edits in a `with` block: the text afterwards. -/
def edited [DecidableEq α] (t : List α) (cs : List (Change α)) : List α := (withBlock ⟨t, 0, []⟩ (cs.map setOp)).state.text

/-- `indent`, `indent.py:151-200`: the edits. -/
def indentEdits [DecidableEq α] (space : α → Bool) (sep : α) (c : Cfg α) (E : Events α) (t : List α) (pos : Nat) (stop : Option Nat) :
    Option (List (Change α)) :=
  indentLoop space c E t pos stop (blocks t sep) 0 [] [[]]

/-- `indent`: the text afterwards; `none` would be an error. -/
def indentText [DecidableEq α] (space : α → Bool) (sep : α) (c : Cfg α) (E : Events α) (t : List α) (pos : Nat) (stop : Option Nat) :
    Option (List α) :=
  (indentEdits space sep c E t pos stop).map (edited t)

/-- `increase_indent`, `indent.py:233-239`: the edits for one block. -/
def increaseBlock (space : α → Bool) (c : Cfg α) (E : Events α) (t : List α) (n : Nat) (b : Blk) : Option (Change α) :=
  let i := indentInfo space (E t n []) (slice t b.pos b.stop)
  if i.noIndent then none else some ⟨b.pos, b.pos, c.indentString⟩

/-- `decrease_indent`, `indent.py:241-252`: the edits for one block. -/
def decreaseBlock [DecidableEq α] (space : α → Bool) (c : Cfg α) (E : Events α) (t : List α) (n : Nat) (b : Blk) : Option (Change α) :=
  let i := indentInfo space (E t n []) (slice t b.pos b.stop)
  let ind := i.indent.getD []
  if i.noIndent = false ∧ ind ≠ [] then
    let remove := if c.indentString.isPrefixOf ind then c.indentString else ind
    some ⟨b.pos, b.pos + remove.length, []⟩
  else none

/-- `strip_trailing_blanks`, `indent.py:254-267`: the edits for one block. -/
def stripBlock (space : α → Bool) (E : Events α) (t : List α) (n : Nat) (b : Blk) : Option (Change α) :=
  let i := indentInfo space (E t n []) (slice t b.pos b.stop)
  if i.noStrip then none
  else
    let text := slice t b.pos b.stop
    let new := (text.reverse.dropWhile space).reverse
    if new.length ≠ b.stop - b.pos then some ⟨b.pos + new.length, b.stop, []⟩ else none

/-- The loop `for b in cursor.blocks()` of these three functions: the blocks with their line numbers. -/
def blockEdits (f : Nat → Blk → Option (Change α)) (bs : List (Nat × Blk)) : List (Change α) := bs.filterMap (fun x => f x.1 x.2)

/-- `cursor.blocks()` with the numbers of the lines, `document.py:584-586`. -/
def cursorBlocks [DecidableEq α] (t : List α) (sep : α) (pos : Nat) (stop : Option Nat) : List (Nat × Blk) :=
  (blocks t sep pos stop).map (fun b => ((t.take b.pos).count sep, b))

def increaseIndent [DecidableEq α] (space : α → Bool) (sep : α) (c : Cfg α) (E : Events α) (t : List α) (pos : Nat) (stop : Option Nat) : List α :=
  edited t (blockEdits (increaseBlock space c E t) (cursorBlocks t sep pos stop))

def decreaseIndent [DecidableEq α] (space : α → Bool) (sep : α) (c : Cfg α) (E : Events α) (t : List α) (pos : Nat) (stop : Option Nat) : List α :=
  edited t (blockEdits (decreaseBlock space c E t) (cursorBlocks t sep pos stop))

def stripTrailing [DecidableEq α] (space : α → Bool) (sep : α) (E : Events α) (t : List α) (pos : Nat) (stop : Option Nat) : List α :=
  edited t (blockEdits (stripBlock space E t) (cursorBlocks t sep pos stop))

/-- The backward search of `auto_indent`, `indent.py:213-228`: the infos of the previous lines, nearest first. `none`
    if the first line is reached. `info.indents[index] or self.indent_string` is as in `pushIndents`. -/
def autoSearch (c : Cfg α) : List (Info α) → Int → Option (List α)
  | [], _ => none
  | i :: is, depth =>
    if i.noIndent then autoSearch c is depth
    else if 0 ≤ depth ∧ depth < i.indents.length then
      let add := match (i.indents[i.indents.length - depth.toNat - 1]?).join with
        | some s => if s = [] then c.indentString else s
        | none => c.indentString
      some (i.indent.getD [] ++ add)
    else
      let depth := depth - i.indents.length + i.dedentsEnd
      if depth = 0 then some (i.indent.getD [])
      else autoSearch c is (depth + i.dedentsStart)

/-- The new indent of `auto_indent`, `indent.py:206-228`; `none` if the indent may not be changed. -/
def autoNew (c : Cfg α) (before : List (Info α)) (i : Info α) : Option (List α) :=
  if i.noIndent then none
  else match i.prefer with
    | some p => some p
    | none => some ((autoSearch c before i.dedentsStart).getD (i.indent.getD []))

/-- `auto_indent`, `indent.py:202-231`: the edit for the block at the cursor. -/
def autoEdit [DecidableEq α] (space : α → Bool) (sep : α) (c : Cfg α) (E : Events α) (t : List α) (pos : Nat) : List (Change α) :=
  let b := findBlock t sep pos
  let n := (t.take b.pos).count sep
  let info := fun k (b : Blk) => indentInfo space (E t k []) (slice t b.pos b.stop)
  let before := (((blocks t sep).take n).mapIdx info).reverse
  let i := info n b
  match autoNew c before i with
  | some new => if some new ≠ i.indent then [⟨b.pos, b.pos + (i.indent.getD []).length, new⟩] else []
  | none => []

/-- The text after `auto_indent`. -/
def autoIndent [DecidableEq α] (space : α → Bool) (sep : α) (c : Cfg α) (E : Events α) (t : List α) (pos : Nat) : List α :=
  edited t (autoEdit space sep c E t pos)

end Parce.Ind

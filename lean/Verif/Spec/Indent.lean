import Verif.Model.Indent
import Verif.Spec.Block
/-!
# Specification of indenting
-/
namespace Parce.Ind
variable {α : Type}

/-- The string has only white space, and no line separator. -/
def White (space : α → Bool) (sep : α) (s : List α) : Prop := ∀ a ∈ s, space a = true ∧ a ≠ sep

/-- An event of an indenter that only knows about white space and leaves it to the indenter to find out the
    current indent. -/
def Ev.Plain (space : α → Bool) (sep : α) : Ev α → Prop
  | .preferIndent s => White space sep s
  | .align s => White space sep s
  | .currentIndent _ => False
  | _ => True

/-- All events and the indent string are such. -/
def PlainIndenter (space : α → Bool) (sep : α) (c : Cfg α) (E : Events α) (t : List α) : Prop :=
  White space sep c.indentString ∧ ∀ n st, ∀ e ∈ E t n st, e.Plain space sep

/-- The events say that the indent of the line may be changed. -/
def Movable (c : Cfg α) (evs : List (Ev α)) : Prop := Ev.noIndent ∉ evs ∧ (c.indentBlank = true ∨ Ev.blank ∉ evs)

/-- The line has more than white space. -/
def Filled (space : α → Bool) (l : List α) : Prop := ∃ a ∈ l, space a = false

/-- The line `i` is one of the lines of the cursor: the line of the start of the cursor, or a later line that
    starts before the end. -/
def touched [DecidableEq α] (t : List α) (sep : α) (pos : Nat) (stop : Option Nat) (i : Nat) : Bool :=
  match (blocks t sep)[i]? with
  | some b => decide (min pos t.length ≤ b.stop) && (decide (b.pos ≤ pos) || stop.all (fun k => decide (b.pos < k)))
  | none => false

/-- The lines of the cursor are changed with `f`, that also gets the number of the line. -/
def changeLines [DecidableEq α] (t : List α) (sep : α) (pos : Nat) (stop : Option Nat) (f : Nat → List α → List α) : List (List α) :=
  (linesOf sep t).mapIdx (fun i l => if touched t sep pos stop i then f i l else l)

/-- A line with less indent: without the indent string, or without any indent if that does not start with the
    indent string. A line with only white space remains. -/
def lessIndent [DecidableEq α] (space : α → Bool) (s l : List α) : List α :=
  if l.all space then l
  else if s.isPrefixOf (l.takeWhile space) then l.drop s.length
  else l.dropWhile space

/-- A line without trailing white space. -/
def stripEnd (space : α → Bool) : List α → List α
  | [] => []
  | a :: l => if (a :: l).all space then [] else a :: stripEnd space l

/-- The lines are indented the way `indent` does it, and are simple: their indent may be changed and has no preference,
    they have no more than one indent, and not both an indent and dedents at the end, and never close more levels than
    are open (the number is the number of levels). -/
def Simple : List (Info α) → Nat → Prop
  | [], _ => True
  | i :: is, levels => i.noIndent = false ∧ i.blank = false ∧ i.prefer = none ∧ i.indent ≠ none ∧ i.indents.length ≤ 1 ∧
    (i.indents = [] ∨ i.dedentsEnd = 0) ∧ i.dedentsStart + i.dedentsEnd < levels ∧
    Simple is (levels - i.dedentsStart - i.dedentsEnd + i.indents.length)

/-- The levels that are open after the lines. -/
def levelsAfter : List (Info α) → Nat → Nat
  | [], levels => levels
  | i :: is, levels => levelsAfter is (levels - i.dedentsStart - i.dedentsEnd + i.indents.length)

/-- `indent` goes over the lines and changes none of them; the indents of the last line and the stack. -/
def Unchanged [DecidableEq α] (c : Cfg α) : List (Info α) → List (Option (List α)) × List (List α) → List (Option (List α)) × List (List α) → Prop
  | [], s, s' => s = s'
  | i :: is, s, s' => ∃ st, lineStep c true i s.1 s.2 = some (st, none) ∧ Unchanged c is (i.indents, st) s'

end Parce.Ind

import Verif.Model.Document
import Verif.Model.Block
import Verif.Model.Re
/-!
# Model of the replace functions and of the cursor methods of `document.py`

`replace`, `re_sub`, `trim` (210-259) and the methods of `Cursor` (588-683). `translate` (261-272) is in
`Verif/Model/Translate.lean`.
-/
namespace Parce
variable {α : Type}

/-! ### replace -/

/-- `str.find(old)`, where the first character of the list has index `i`. -/
def strFindIn [DecidableEq α] (old : List α) : List α → Nat → Option Nat
  | [], i => if old.isPrefixOf [] then some i else none
  | c :: l, i => if old.isPrefixOf (c :: l) then some i else strFindIn old l (i + 1)

/-- `text.find(old, pos)`, `-1` is `none`. -/
def strFind [DecidableEq α] (t old : List α) (pos : Nat) : Option Nat :=
  if pos ≤ t.length then strFindIn old (t.drop pos) pos else none

/-- `self[start:end]`, `document.py:219` and `250`. A slice never raises. -/
def region (t : List α) (start : Int) (stop : Option Int) : List α :=
  match getItem t (.range (some start) stop) with
  | .ok r => r
  | .error _ => []

/-- The loop of `replace`, `document.py:223-228`; gives the positions in the region where something is
    replaced. `none` if the loop did not end in `fuel` rounds. -/
def replaceLoop [DecidableEq α] (r old : List α) : (fuel : Nat) → (pos : Option Nat) → (count : Int) → Option (List Nat)
  | _, none, _ => some []
  | 0, some _, _ => none
  | fuel + 1, some pos, count =>
    let next := strFind r old (pos + old.length)
    if count - 1 = 0 then some [pos] else (replaceLoop r old fuel next (count - 1)).map (pos :: ·)

/-- The assignments made by `replace`, `document.py:216-228`. -/
def replaceOps [DecidableEq α] (fuel : Nat) (t old new : List α) (start : Int) (stop : Option Int) (count : Int) :
    Option (List (Op α)) :=
  if old = new then some []
  else
    let r := region t start stop
    (replaceLoop r old fuel (strFind r old 0) count).map fun ps =>
      ps.map fun (pos : Nat) => .set (.range (some (start + pos)) (some (start + pos + old.length))) new

/-- `replace`, `document.py:210-228`. Entering and leaving the context without a change has no
    effect, so the early return is a block without statements. `none` if it does not end. -/
def Doc.replace [DecidableEq α] (fuel : Nat) (d : Doc α) (old new : List α) (start : Int := 0) (stop : Option Int := none)
    (count : Int := 0) : Option (DRes α) :=
  (replaceOps fuel d.ms.text old new start stop count).map (d.withBlock .normal)

/-! ### re_sub and trim -/

/-- `pattern.finditer(text)`, from `p` on. Every match is further on than the match before, or it is
    the one after an empty match; `fuel` is enough if it is more than twice the length. -/
def findIter (a : Pat α) (t : List α) : (fuel : Nat) → (p : Nat) → (must : Bool) → List (Mtch RM)
  | 0, _, _ => []
  | fuel + 1, p, must => match rxSearch [a] t p must with
    | none => []
    | some m => m :: findIter a t fuel m.stop (m.start == m.stop)

/-- The matches for which the loop of `re_sub` is executed, `document.py:252-255`. -/
def upTo {β : Type} (count : Int) (l : List β) : List β := if 0 < count then l.take count.toNat else l

/-- The assignments made by `re_sub`, `document.py:250-255`. `repl` is the replacement function, which
    gets the text and the match; a template is a function too (`m.expand`). -/
def reSubOps (t : List α) (a : Pat α) (repl : List α → Mtch RM → List α) (start : Int) (stop : Option Int) (count : Int) :
    List (Op α) :=
  let r := region t start stop
  (upTo count (findIter a r (2 * r.length + 2) 0 false)).map fun m =>
    .set (.range (some (start + m.start)) (some (start + m.stop))) (repl r m)

/-- `re_sub`, `document.py:230-255`. An exception in the replacement function is not modelled. -/
def Doc.reSub [DecidableEq α] (d : Doc α) (a : Pat α) (repl : List α → Mtch RM → List α) (start : Int := 0)
    (stop : Option Int := none) (count : Int := 0) : DRes α :=
  d.withBlock .normal (reSubOps d.ms.text a repl start stop count)

/-- `[ \t]+$` with `re.MULTILINE`, `document.py:259`. -/
def trimPat : Pat Char :=
  .cat (.plus (.set (fun c => c == ' ' || c == '\t'))) (.test (fun t p => p == t.length || t[p]? == some '\n'))

/-- `trim`, `document.py:257-259`. -/
def Doc.trim (d : Doc Char) (start : Int := 0) (stop : Option Int := none) : DRes Char :=
  d.reSub trimPat (fun _ _ => []) start stop 0

/-! ### Methods of a cursor -/

/-- The text of a range, `document.py:470-472`; a range is a key with its `pos` and `end`
    (`document.py:76-80`). -/
def Cursor.text (t : List α) (c : Cursor) : List α := region t c.pos (c.stop.map Int.ofNat)

/-- `select(pos, end)`, `document.py:598-602`; without an end (`-1`) it is `pos`. -/
def Cursor.select (_ : Cursor) (pos : Nat) (stop : Option (Option Nat) := none) : Cursor :=
  ⟨pos, stop.getD (some pos)⟩

/-- `select_all`, `document.py:604-608`. -/
def Cursor.selectAll (_ : Cursor) : Cursor := ⟨0, none⟩

/-- `select_none`, `document.py:610-613`. -/
def Cursor.selectNone (c : Cursor) : Cursor := ⟨c.pos, some c.pos⟩

/-- `selection`, `document.py:615-623`. -/
def Cursor.selection (t : List α) (c : Cursor) : Nat × Nat :=
  (c.pos, match c.stop with | none => t.length | some e => e)

/-- `has_selection`, `document.py:625-628`. -/
def Cursor.hasSelection (t : List α) (c : Cursor) : Bool := decide ((c.selection t).1 < (c.selection t).2)

/-- `move_start_of_block`, `document.py:588-591`. -/
def Cursor.moveStartOfBlock [DecidableEq α] (t : List α) (sep : α) (c : Cursor) : Cursor :=
  let p := findStartOfBlock t sep c.pos
  ⟨p, some p⟩

/-- `move_end_of_block`, `document.py:593-596`. -/
def Cursor.moveEndOfBlock [DecidableEq α] (t : List α) (sep : α) (c : Cursor) : Cursor :=
  let p := findEndOfBlock t sep c.pos
  ⟨p, some p⟩

/-- `select_start_of_block`, `document.py:630-637`. -/
def Cursor.selectStartOfBlock [DecidableEq α] (t : List α) (sep : α) (c : Cursor) : Cursor :=
  ⟨findStartOfBlock t sep c.pos, c.stop⟩

/-- `select_end_of_block`, `document.py:639-647`. -/
def Cursor.selectEndOfBlock [DecidableEq α] (t : List α) (sep : α) (c : Cursor) : Cursor :=
  ⟨c.pos, c.stop.map (findEndOfBlock t sep)⟩

/-- `str.lstrip`, where `f` tells which characters are stripped. -/
def pyLstrip (f : α → Bool) (t : List α) : List α := t.dropWhile f

/-- `str.rstrip`. -/
def pyRstrip (f : α → Bool) (t : List α) : List α := (t.reverse.dropWhile f).reverse

/-- `lstrip`, `document.py:649-660`. -/
def Cursor.lstrip (t : List α) (f : α → Bool) (c : Cursor) : Cursor :=
  let x := c.text t
  if x.isEmpty then c else { c with pos := c.pos + (x.length - (pyLstrip f x).length) }

/-- `rstrip`, `document.py:662-677`. The subtraction never goes below zero: the stripped text is
    before the end. -/
def Cursor.rstrip (t : List α) (f : α → Bool) (c : Cursor) : Cursor :=
  let x := c.text t
  if x.isEmpty then c
  else
    let offset := x.length - (pyRstrip f x).length
    if offset = 0 then c
    else
      let e := match c.stop with
        | none => t.length
        | some e => if e > t.length then t.length else e
      { c with stop := some (e - offset) }

/-- `strip`, `document.py:679-683`. -/
def Cursor.strip (t : List α) (f : α → Bool) (c : Cursor) : Cursor := (c.rstrip t f).lstrip t f

end Parce

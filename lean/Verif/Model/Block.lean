import Verif.Model.MutableString
/-!
# Model of the block (line) functions of parce/document.py

The block separator is a single character (the default is a newline). Positions are natural
numbers (the Python functions are called with positions, not with negative indices).
-/
namespace Parce
variable {α : Type} [DecidableEq α]

/-- `str.find(sep, ...)` on a one-character separator: index of the first occurrence, where
    the first character of the list has index `i`. -/
def findIn (sep : α) : List α → Nat → Option Nat
  | [], _ => none
  | c :: cs, i => if c = sep then some i else findIn sep cs (i + 1)

/-- `text.find(sep, pos)`, `-1` is `none`. -/
def find (t : List α) (sep : α) (pos : Nat) : Option Nat := findIn sep (t.drop pos) pos

/-- Index of the last occurrence. -/
def rfindIn (sep : α) : List α → Nat → Option Nat
  | [], _ => none
  | c :: cs, i =>
    match rfindIn sep cs (i + 1) with
    | some j => some j
    | none => if c = sep then some i else none

/-- `text.rfind(sep, 0, end)`, `-1` is `none`. -/
def rfind (t : List α) (sep : α) (stop : Nat) : Option Nat := rfindIn sep (t.take stop) 0

/-- A `Block` (`document.py:686-707`): range and the cached block number. -/
structure Blk where
  pos : Nat
  stop : Nat
  num : Option Int
deriving DecidableEq, Repr

/-- `Block.__init__`, `document.py:704-707`. -/
def Blk.mk' (pos stop : Nat) : Blk := ⟨pos, stop, if pos = 0 then some 0 else none⟩

/-- `find_start_of_block`, `document.py:116-120`. -/
def findStartOfBlock (t : List α) (sep : α) (p : Nat) : Nat :=
  match rfind t sep p with
  | none => 0
  | some i => i + 1

/-- `find_end_of_block`, `document.py:122-125`. -/
def findEndOfBlock (t : List α) (sep : α) (p : Nat) : Nat :=
  match find t sep p with
  | none => t.length
  | some i => i

/-- `find_block`, `document.py:127-137`. -/
def findBlock (t : List α) (sep : α) (p : Nat) : Blk :=
  let pos := findStartOfBlock t sep p
  Blk.mk' pos (findEndOfBlock t sep pos)

/-- Set the number of a new block from the number of its neighbour: the `try ... except
    AttributeError` of `document.py:740-743` and `752-755`. -/
def Blk.withNum (b : Blk) (n : Option Int) : Blk :=
  match n with
  | some n => { b with num := some n }
  | none => b

/-- `Block.next_block`, `document.py:734-744` (`is_last` at 716-718). -/
def nextBlock (t : List α) (sep : α) (b : Blk) : Option Blk :=
  if b.stop ≥ t.length then none
  else
    let pos := b.stop + 1
    some ((Blk.mk' pos (findEndOfBlock t sep pos)).withNum (b.num.map (· + 1)))

/-- `Block.previous_block`, `document.py:746-756`. -/
def previousBlock (t : List α) (sep : α) (b : Blk) : Option Blk :=
  if b.pos > 0 then
    let stop := b.pos - 1
    some ((Blk.mk' (findStartOfBlock t sep stop) stop).withNum (b.num.map (· - 1)))
  else none

/-- `Block.block_number`, `document.py:720-732`. -/
def blockNumber (t : List α) (sep : α) (b : Blk) : Int :=
  match b.num with
  | some n => n
  | none => (t.take b.pos).count sep

/-- `block_count`, `document.py:177-190`. -/
def blockCount (t : List α) (sep : α) : Nat := t.count sep + 1

theorem findIn_ge (sep : α) : ∀ (l : List α) (i j : Nat), findIn sep l i = some j → i ≤ j
  | [], _, _, h => by simp [findIn] at h
  | c :: cs, i, j, h => by
    simp only [findIn] at h
    split at h
    · simp at h; omega
    · have := findIn_ge sep cs _ _ h; omega

theorem nextBlock_stop {t : List α} {sep : α} {b b' : Blk} (h : nextBlock t sep b = some b') :
    b.stop < b'.stop ∧ b.stop < t.length := by
  unfold nextBlock at h
  split at h
  · simp at h
  · simp only [Option.some.injEq] at h
    subst h
    have : ∀ (x : Blk) n, (x.withNum n).stop = x.stop := by
      intro x n; unfold Blk.withNum; split <;> rfl
    rw [this]
    simp only [Blk.mk', findEndOfBlock]
    split
    · omega
    · rename_i i hi
      have := findIn_ge sep _ _ _ hi
      omega

/-- The generator loop of `blocks`, `document.py:199-202` (a Block is always true). -/
def blocksFrom (t : List α) (sep : α) (b : Blk) : List Blk :=
  b :: (match h : nextBlock t sep b with
    | none => []
    | some b' => blocksFrom t sep b')
termination_by t.length - b.stop
decreasing_by
  have := nextBlock_stop h
  omega

/-- The loop for a given end, `document.py:203-208`. -/
def blocksUntil (t : List α) (sep : α) (stop : Nat) (b : Blk) : List Blk :=
  b :: (match h : nextBlock t sep b with
    | none => []
    | some b' => if b'.pos ≥ stop then [] else blocksUntil t sep stop b')
termination_by t.length - b.stop
decreasing_by
  have := nextBlock_stop h
  omega

/-- `blocks(start, end)`, `document.py:192-208`. -/
def blocks (t : List α) (sep : α) (start : Nat := 0) (stop : Option Nat := none) : List Blk :=
  let b := findBlock t sep start
  match stop with
  | none => blocksFrom t sep b
  | some e => blocksUntil t sep e b

/-- The loop of `find_block_by_number` for numbers `>= 0`, `document.py:156-163`; `prev` is
    `none` before the first round (`end = -l`), `left` is the number of rounds to go. -/
def byNumberLoop (t : List α) (sep : α) : Nat → Option (Nat × Nat) → Option (Nat × Nat)
  | 0, r => r
  | left + 1, none => byNumberLoop t sep left (some (0, findEndOfBlock t sep 0))
  | left + 1, some (_, stop) =>
    if stop = t.length then none
    else byNumberLoop t sep left (some (stop + 1, findEndOfBlock t sep (stop + 1)))

/-- The loop for negative numbers, `document.py:167-173`; the state is `(pos, end)`. The
    first `pos` is one behind the text. -/
def byNumberBack (t : List α) (sep : α) : Nat → Nat × Nat → Option (Nat × Nat)
  | 0, r => some r
  | left + 1, (pos, _) =>
    if pos = 0 then none
    else byNumberBack t sep left (findStartOfBlock t sep (pos - 1), pos - 1)

/-- `find_block_by_number`, `document.py:139-175`. -/
def findBlockByNumber (t : List α) (sep : α) (number : Int) : Option Blk :=
  if 0 ≤ number then
    (byNumberLoop t sep (number.toNat + 1) none).map
      (fun r => { Blk.mk' r.1 r.2 with num := some number })
  else
    (byNumberBack t sep (-number).toNat (t.length + 1, 0)).map (fun r => Blk.mk' r.1 r.2)

end Parce

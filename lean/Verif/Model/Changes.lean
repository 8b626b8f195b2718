import Verif.Model.MutableString
/-!
# Model of `Changes` in parce/treebuilderutil.py
-/
namespace Parce
variable {α L : Type}

/-- A stored change request `(text, root_lexicon, start, removed, added)`,
    `treebuilder.py:207-216`, `treebuilderutil.py:70`. `root = none` is False (no change of the
    root lexicon); `removed` and `added` may be None. -/
structure ChReq (α L : Type) where
  text : List α
  root : Option L
  start : Nat
  removed : Option Int
  added : Option Int

/-- `Changes`, `treebuilderutil.py:43-58`; `start = none` is -1. `removed` and `added` are
    integers because Python does not keep them from becoming negative. -/
structure Chg (α L : Type) where
  text : List α
  root : Option L
  start : Option Nat
  removed : Int
  added : Int

/-- `Changes()`. -/
def Chg.init : Chg α L := ⟨[], none, none, 0, 0⟩

/-- The offset of `Changes.add`, `treebuilderutil.py:90-100`, for an existing change
    `s, a` (start, added) and a new one `n, m` (start, removed). -/
def mergeOffset (s a n m : Int) : Int :=
  (if n + m < s then s - n - m else if n > s + a then n - s - a else 0)
    - max 0 (min (max n s + m) (s + a) - max n s)

/-- `Changes.add`, `treebuilderutil.py:70-104`. In line 98 `start` is overwritten, so line 102
    takes the minimum of `self.start` and `max(start, self.start)`. -/
def Chg.add (c : Chg α L) (r : ChReq α L) : Chg α L :=
  let root := match r.root with
    | some l => some l
    | none => c.root
  let removed := r.removed.getD ((c.text.length : Int) - r.start)
  let added := r.added.getD ((r.text.length : Int) - r.start)
  match c.start with
  | none => ⟨r.text, root, some r.start, removed, added⟩
  | some s =>
    let offset := mergeOffset s c.added r.start removed
    ⟨r.text, root, some (min s (max r.start s)), c.removed + (removed + offset), c.added + (added + offset)⟩

/-- `has_changes`, `treebuilderutil.py:106-108`. -/
def Chg.hasChanges (c : Chg α L) : Bool := c.start.isSome || c.root.isSome

/-- `new_position`, `treebuilderutil.py:110-116`. (With start -1 the first test fails.) -/
def Chg.newPosition (c : Chg α L) (pos : Nat) : Int :=
  let s : Int := match c.start with
    | some s => s
    | none => -1
  if (pos : Int) < s then pos
  else if (pos : Int) < s + c.removed then s + c.added
  else pos - c.removed + c.added

/-- `TreeBuilder.get_changes`, `treebuilder.py:518-528`: all stored requests, oldest first. -/
def mergeAll (reqs : List (ChReq α L)) : Chg α L := reqs.foldl Chg.add Chg.init

end Parce

import Verif.Model.Block

/-!
# Comparing text ranges (parce/document.py:440-513 and 709-718)
-/
namespace Parce.TR

/-- The types of ranges. -/
inductive Kind where
  | cursor
  | block
deriving DecidableEq, Repr

/-- A text range (document.py:453-456). `obj` is the identity of the object and `doc` that of its
document. -/
structure Rng where
  obj : Nat
  kind : Kind
  doc : Nat
  pos : Nat
  stop : Option Nat
deriving DecidableEq, Repr

/-- `__eq__` (document.py:477-482). -/
def eq (a b : Rng) : Bool := a.kind == b.kind && b.doc == a.doc && b.pos == a.pos && b.stop == a.stop

/-- `__ne__` (document.py:484-489). -/
def ne (a b : Rng) : Bool := a.kind != b.kind || b.doc != a.doc || b.pos != a.pos || b.stop != a.stop

/-- `__gt__` (document.py:491-495). -/
def gt (a b : Rng) : Bool := a.pos > b.pos

/-- `__lt__` (document.py:497-501). -/
def lt (a b : Rng) : Bool := a.pos < b.pos

/-- `__ge__` (document.py:503-507). -/
def ge (a b : Rng) : Bool := a.pos ≥ b.pos

/-- `__le__` (document.py:509-513). -/
def le (a b : Rng) : Bool := a.pos ≤ b.pos

/-- `__hash__ = object.__hash__` (document.py:451): the hash of an object depends on its identity. -/
def hash (h : Nat → Nat) (a : Rng) : Nat := h a.obj

/-- `Block.__len__` (document.py:709-710). -/
def len (b : Blk) : Nat := b.stop - b.pos

/-- `is_first` (document.py:712-714). -/
def isFirst (b : Blk) : Bool := b.pos == 0

/-- `is_last` (document.py:716-718). -/
def isLast {α : Type} (t : List α) (b : Blk) : Bool := b.stop ≥ t.length

/-- A block as a text range of a document. -/
def ofBlk (obj doc : Nat) (b : Blk) : Rng := ⟨obj, .block, doc, b.pos, some b.stop⟩

end Parce.TR

/-!
# Model of the list helpers in parce/util.py
-/
namespace Parce

/-- A tuple `(pos, end, *rest)`. -/
structure Rg (R : Type) where
  pos : Nat
  stop : Nat
  rest : R
deriving DecidableEq, Repr

variable {R β : Type}

/-- The inner loop of `merge_adjacent`, `util.py:684-692`: the current `pos, end, rest` and the
    stream. -/
def mergeLoop [DecidableEq R] (pos stop : Nat) (rest : R) : List (Rg R) → List (Rg R)
  | [] => [⟨pos, stop, rest⟩]
  | n :: s =>
    if n.rest ≠ rest ∨ n.pos > stop then ⟨pos, stop, rest⟩ :: mergeLoop n.pos n.stop n.rest s
    else mergeLoop pos n.stop rest s

/-- The tuples `merge_adjacent` calls the factory with, `util.py:674-692`. -/
def mergeAdjacent [DecidableEq R] : List (Rg R) → List (Rg R)
  | [] => []
  | r :: s => mergeLoop r.pos r.stop r.rest s

/-- Calling the factory for each; `none` is an exception, which ends the generator. The second
    component tells whether all went well. -/
def runFactory (factory : Rg R → Option β) : List (Rg R) → List β × Bool
  | [] => ([], true)
  | r :: rs =>
    match factory r with
    | none => ([], false)
    | some b => (b :: (runFactory factory rs).1, (runFactory factory rs).2)

/-- The default factory is `tuple`: `tuple(pos, end, *rest)` is a TypeError, `util.py:674`. -/
def tupleFactory (_ : Rg R) : Option (Rg R) := none

/-- The loops of `fix_boundaries` after the first item was adjusted, `util.py:666-671`. -/
def fixTail (stop : Option Nat) (i : Rg R) : List (Rg R) → List (Rg R)
  | j :: s => i :: fixTail stop j s
  | [] =>
    match stop with
    | some e => if i.stop > e then [⟨i.pos, e, i.rest⟩] else [i]
    | none => [i]

/-- `fix_boundaries`, `util.py:646-671`, for plain tuples (`type(i)((…))` fails for named
    tuples). -/
def fixBoundaries (start : Nat) (stop : Option Nat) (stream : List (Rg R)) : List (Rg R) :=
  if start = 0 ∧ stop = none then stream
  else
    match stream with
    | [] => []
    | i :: s => fixTail stop (if i.pos < start then ⟨start, i.stop, i.rest⟩ else i) s

/-- The names `get_bom_encoding` returns. -/
inductive Enc where
  | utf8 | utf16le | utf16be | utf32le | utf32be
deriving DecidableEq, Repr

/-- The `codecs.BOM_…` constants. -/
def Enc.bom : Enc → List UInt8
  | .utf8 => [0xEF, 0xBB, 0xBF]
  | .utf16le => [0xFF, 0xFE]
  | .utf16be => [0xFE, 0xFF]
  | .utf32le => [0xFF, 0xFE, 0, 0]
  | .utf32be => [0, 0, 0xFE, 0xFF]

/-- The loop of `get_bom_encoding`, `util.py:725-734`. -/
def bomLoop (data : List UInt8) : List Enc → Option Enc × List UInt8
  | [] => (none, data)
  | e :: es => if e.bom.isPrefixOf data then (some e, data.drop e.bom.length) else bomLoop data es

/-- `get_bom_encoding`, `util.py:716-734`, with the order of the source. -/
def getBomEncoding (data : List UInt8) : Option Enc × List UInt8 :=
  bomLoop data [.utf8, .utf16le, .utf16be, .utf32le, .utf32be]

/-- `l.index(separator, i)`; `none` is ValueError. -/
def indexFrom [DecidableEq β] (l : List β) (sep : β) (i : Nat) : Option Nat :=
  ((List.range l.length).drop i).find? (fun j => decide (l[j]? = some sep))

/-- The loop of `split_list`, `util.py:743-750`. `l[i:j]` is `(l.take j).drop i`. -/
def splitLoop [DecidableEq β] (l : List β) (sep : β) : (fuel i : Nat) → List (List β)
  | 0, _ => []
  | fuel + 1, i =>
    match indexFrom l sep i with
    | some j => (l.take j).drop i :: splitLoop l sep fuel (j + 1)
    | none => [l.drop i]

/-- `split_list`, `util.py:737-750`. -/
def splitList [DecidableEq β] (l : List β) (sep : β) : List (List β) := splitLoop l sep (l.length + 1) 0

/-- A Python object that may be a tuple or list. -/
inductive Obj (β : Type) where
  | leaf (b : β)
  | seq (os : List (Obj β))

mutual
def Obj.size : Obj β → Nat
  | .leaf _ => 1
  | .seq os => sizeObjs os + 1
def sizeObjs : List (Obj β) → Nat
  | [] => 0
  | o :: os => o.size + sizeObjs os
end

/-- The loop of `unroll`, `util.py:760-775`: `gen` is the rest of the current generator. -/
def unrollLoop : (fuel : Nat) → (gen : List (Obj β)) → (stack : List (List (Obj β))) → List β
  | 0, _, _ => []
  | fuel + 1, .leaf b :: gen, stack => b :: unrollLoop fuel gen stack
  | fuel + 1, .seq os :: gen, stack => unrollLoop fuel os (gen :: stack)
  | fuel + 1, [], gen :: stack => unrollLoop fuel gen stack
  | _ + 1, [], [] => []

/-- `unroll`, `util.py:753-777`. -/
def unroll : Obj β → List β
  | .seq os => unrollLoop (2 * sizeObjs os + 1) os []
  | .leaf b => [b]

end Parce

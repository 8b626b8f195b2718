import Verif.Model.Formatter

/-!
# Formatting with a format context (parce/formatter.py:158-261 and 453-470)

What the generator `format_ranges` does in order: calls of the format context, and ranges that are
yielded. A format cache is denoted by its key in `format_caches()`, `none` is the default. (A format
cache is not used for two languages.)
-/
namespace Parce.FC

variable {α L A F G : Type}

/-- What is done in `stream()` and the generators around it: a call of `switch`, or a range yielded. -/
inductive Ev (F G : Type) where
  | switch (k : Option G)
  | range (r : Rg F)
deriving DecidableEq

/-- What is done in `tokens()`: a call of `switch`, or a token yielded, with the value of `fc`. -/
inductive Step (α A F G : Type) where
  | switch (k : Option G)
  | tok (t : TokN α A) (fc : FCache A F)

/-- The key of the cache that `cache(lang, default_fcache)` finds (formatter.py:199). -/
def keyOf [DecidableEq G] (c : FCaches A F G) (lang : G) : Option G :=
  if c.others.any (fun q => decide (q.1 = lang)) then some lang else none

/-- The cache with the key. -/
def cacheAt [DecidableEq G] (c : FCaches A F G) (d : FCache A F) : Option G → FCache A F
  | none => d
  | some g => c.get d g

/-- `tokens()` with the calls of `switch` in `check_lang` (formatter.py:193-201); `k` is the key of
`fc`. -/
def steps [DecidableEq G] (c : FCaches A F G) (langOf : L → G) (d : FCache A F) :
    (k : Option G) → List (FEv α L A) → List (Step α A F G)
  | _, [] => []
  | k, .lang l :: evs =>
    if keyOf c (langOf l) = k then steps c langOf d k evs
    else .switch (keyOf c (langOf l)) :: steps c langOf d (keyOf c (langOf l)) evs
  | k, .tok t :: evs => .tok t (cacheAt c d k) :: steps c langOf d k evs

/-- `stream()` with a format for unparsed text (formatter.py:228-242). -/
def traceU (stop : Option Nat) (unparsed : F) : (prev : Nat) → List (Step α A F G) → List (Ev F G)
  | prev, [] => (streamU (α := α) (A := A) stop unparsed prev []).map .range
  | prev, .switch k :: s => .switch k :: traceU stop unparsed prev s
  | prev, .tok t fc :: s =>
    List.map .range ((if t.pos > prev then [⟨prev, t.pos, unparsed⟩] else []) ++
      yieldTok t (orBase (fc.textformat t.act) fc.base) : List (Rg F)) ++ traceU stop unparsed t.stop s

/-- `stream()` without a format for unparsed text (formatter.py:244-256); `last` is `fc` at the end. -/
def traceB (stop : Option Nat) (last : FCache A F) : (prev : Nat) → List (Step α A F G) → List (Ev F G)
  | prev, [] => (streamB (α := α) stop last prev []).map .range
  | prev, .switch k :: s => .switch k :: traceB stop last prev s
  | prev, .tok t fc :: s =>
    List.map .range (match fc.textformat t.act with
      | some f =>
        (match fc.base with
          | some b => if t.pos > prev then [⟨prev, t.pos, b⟩] else []
          | none => []) ++ [⟨t.pos, t.stop, f⟩]
      | none => [] : List (Rg F)) ++ traceB stop last t.stop s

/-- The loop of `fix_boundaries` while `i` is the item that is not yet yielded (util.py:666-671). -/
def fixTailT (stop : Option Nat) : (i : Rg F) → List (Ev F G) → List (Ev F G)
  | i, [] => (fixTail stop i []).map .range
  | i, .switch k :: s => .switch k :: fixTailT stop i s
  | i, .range j :: s => .range i :: fixTailT stop j s

/-- `fix_boundaries` until the first item (util.py:662-665). -/
def fixFirstT (start : Nat) (stop : Option Nat) : List (Ev F G) → List (Ev F G)
  | [] => []
  | .switch k :: s => .switch k :: fixFirstT start stop s
  | .range i :: s => fixTailT stop (if i.pos < start then ⟨start, i.stop, i.rest⟩ else i) s

/-- `fix_boundaries` (util.py:646-671). -/
def fixT (start : Nat) (stop : Option Nat) (s : List (Ev F G)) : List (Ev F G) :=
  if start = 0 ∧ stop = none then s else fixFirstT start stop s

/-- The inner loop of `merge_adjacent` (util.py:687-692). -/
def mergeTailT [DecidableEq F] : (pos stop : Nat) → (rest : F) → List (Ev F G) → List (Ev F G)
  | pos, stop, rest, [] => [.range ⟨pos, stop, rest⟩]
  | pos, stop, rest, .switch k :: s => .switch k :: mergeTailT pos stop rest s
  | pos, stop, rest, .range n :: s =>
    if n.rest ≠ rest ∨ n.pos > stop then .range ⟨pos, stop, rest⟩ :: mergeTailT n.pos n.stop n.rest s
    else mergeTailT pos n.stop rest s

/-- `merge_adjacent` (util.py:685-692). -/
def mergeT [DecidableEq F] : List (Ev F G) → List (Ev F G)
  | [] => []
  | .switch k :: s => .switch k :: mergeT s
  | .range r :: s => mergeTailT r.pos r.stop r.rest s

/-- What a format context gets, and the ranges that are yielded. -/
inductive Out (F G : Type) where
  | start (k : Option G)
  | ev (e : Ev F G)
  | done
deriving DecidableEq

/-- `stream()` (formatter.py:226-256). -/
def traceOf (unparsed : Option F) (last : FCache A F) (start : Nat) (stop : Option Nat) (s : List (Step α A F G)) :
    List (Ev F G) :=
  match unparsed with
  | some u => traceU stop u start s
  | none => traceB stop last start s

/-- `stream()` for a tree. -/
def streamTrace [DecidableEq G] (c : FCaches A F G) (langOf : L → G) (root : Node α L A) (r : Rng) (start : Nat)
    (stop : Option Nat) : List (Ev F G) :=
  let d := c.default.getD FCache.none
  let evs := fmtEvents c root r
  traceOf d.unparsed (withFc c langOf d d evs).2 start stop (steps c langOf d none evs)

/-- `format_ranges` (formatter.py:158-261) with a format context. -/
def formatTrace [DecidableEq G] [DecidableEq F] (c : FCaches A F G) (langOf : L → G) (l : L) (cs : List (Node α L A))
    (start : Nat) (stop : Option Nat) : List (Out F G) :=
  match Rng.fromTree l cs start stop with
  | none => []
  | some r =>
    .start none :: ((mergeT (fixT start stop (streamTrace c langOf (.ctx l cs) r start stop))).map .ev ++ [.done])

end Parce.FC

/-!
# Model of parce/mutablestring.py

The mutable string with its edit context. Text is a list over an arbitrary
character type. Everything in this file is a definition, properties are in
`Verif/Props/Edit.lean`.
-/
namespace Parce

/-- A replacement request or change `(start, end, text)`; `mutablestring.py:41-45`, `179-194`.
    All positions refer to the text before the edit. -/
structure Change (α : Type) where
  start : Nat
  stop : Nat
  text : List α
deriving DecidableEq, Repr

/-- Python `text[a:b]` for non-negative, possibly too large bounds. -/
def slice {α : Type} (t : List α) (a b : Nat) : List α := (t.take b).drop a

/-- A subscript: an integer or a slice without step (`mutablestring.py:142-156`).
    The step is ignored by the code (`start, end, _ = key.indices(total)`) except that a
    negative step changes the defaults; only step-less slices are modelled. -/
inductive Key where
  | index (i : Int)
  | range (a b : Option Int)
deriving DecidableEq, Repr

inductive Err where
  | indexError
  | overlap
  | inContext
  | user
deriving DecidableEq, Repr

/-- One bound of Python's `slice.indices(total)` for step `None`/1:
    negative bounds count from the end, then the bound is clamped to `0..total`. -/
def clampBound (total : Nat) (default : Nat) : Option Int → Nat
  | none => default
  | some i => (max 0 (min (total : Int) (if i < 0 then i + total else i))).toNat

/-- `AbstractMutableString._parse_key`, `mutablestring.py:142-156`. -/
def parseKey (total : Nat) : Key → Except Err (Nat × Nat)
  | .index i =>
    let key := if i < 0 then i + total else i
    if 0 ≤ key ∧ key < total then .ok (key.toNat, key.toNat + 1) else .error .indexError
  | .range a b =>
    let start := clampBound total 0 a
    let stop := clampBound total total b
    .ok (start, if stop < start then start else stop)

/-- The state of a mutable string: `_text`, `_edit_context` and `_changes`
    (`mutablestring.py:63-65`, `214-217`). The defaultdict `_changes` maps a start to the
    list of `(end, text)`; it is modelled by the list of all requests in the order they
    were made, from which the dictionary can be read off. -/
structure MS (α : Type) where
  text : List α
  ctx : Nat
  pending : List (Change α)

/-- Result of a method call: new state, raised exception if any, and the
    `text_changed(position, removed, added)` calls made. -/
structure Res (α : Type) where
  state : MS α
  error : Option Err
  notified : List (Nat × Nat × Nat)

variable {α : Type}

/-- `__getitem__`, `mutablestring.py:133-140` (`_get_text` at 158-164). -/
def getItem (t : List α) (k : Key) : Except Err (List α) :=
  match parseKey t.length k with
  | .error e => .error e
  | .ok (s, e) =>
    if s = e then .ok []
    else if s = 0 ∧ e = t.length then .ok t
    else .ok (slice t s e)

/-- Insert into a strictly sorted list, dropping duplicates. -/
def insertKey (n : Nat) : List Nat → List Nat
  | [] => [n]
  | m :: ms => if n < m then n :: m :: ms else if n = m then m :: ms else m :: insertKey n ms

/-- `sorted(self._changes)`: the distinct start positions in increasing order
    (`mutablestring.py:186`). -/
def sortedKeys : List Nat → List Nat
  | [] => []
  | n :: ns => insertKey n (sortedKeys ns)

/-- `max(end for end, text in c)`, `mutablestring.py:193`. Empty lists do not occur. -/
def maxStop : List (Change α) → Nat
  | [] => 0
  | c :: cs => max c.stop (maxStop cs)

/-- The loop of `_get_changes`, `mutablestring.py:188-194`; `none` is the RuntimeError
    about overlapping changes. -/
def getChangesLoop (p : List (Change α)) : Nat → List Nat → Option (List (Change α))
  | _, [] => some []
  | prevEnd, s :: ss =>
    let c := p.filter (fun r => r.start == s)
    let text := c.flatMap (fun r => r.text)
    if s < prevEnd then none
    else
      let e := maxStop c
      (getChangesLoop p e ss).map (fun rest => ⟨s, e, text⟩ :: rest)

/-- `_get_changes`, `mutablestring.py:179-194`. The initial `end` is the first position. -/
def getChanges (p : List (Change α)) : Option (List (Change α)) :=
  let ps := sortedKeys (p.map (·.start))
  getChangesLoop p (ps.headD 0) ps

/-- `MutableString._update_text`, `mutablestring.py:227-238`: the text generator with its
    running `tail`. -/
def updateFrom (t : List α) : Nat → List (Change α) → List α
  | tail, [] => t.drop tail
  | tail, c :: cs =>
    (if c.start > tail then slice t tail c.start else []) ++ c.text ++ updateFrom t c.stop cs

def updateText (t : List α) (cs : List (Change α)) : List α := updateFrom t 0 cs

/-- The `added`/`end` computation of `_apply_changes`, `mutablestring.py:170-174`.
    Returns `(end, added)`; `added += start - old + len(text)`. -/
def sumChanges : Nat → Nat → List (Change α) → Nat × Nat
  | old, added, [] => (old, added)
  | old, added, c :: cs => sumChanges c.stop (added + (c.start - old) + c.text.length) cs

/-- The `text_changed` arguments: `(head, end - head, added)`, `mutablestring.py:169-177`. -/
def reportOf (cs : List (Change α)) : Nat × Nat × Nat :=
  let head := (cs.head?.map (·.start)).getD 0
  let r := sumChanges head 0 cs
  (head, r.1 - head, r.2)

/-- `_apply_changes`, `mutablestring.py:166-177`. When `_get_changes` raises, neither the
    text nor `_changes` has been touched. -/
def applyChanges (s : MS α) : Res α :=
  if s.pending.isEmpty then ⟨s, none, []⟩
  else
    match getChanges s.pending with
    | none => ⟨s, some .overlap, []⟩
    | some cs => ⟨{ s with text := updateText s.text cs, pending := [] }, none, [reportOf cs]⟩

/-- `__setitem__`, `mutablestring.py:120-127`. -/
def setItem [DecidableEq α] (s : MS α) (k : Key) (new : List α) : Res α :=
  match parseKey s.text.length k with
  | .error e => ⟨s, some e, []⟩
  | .ok (a, b) =>
    if (new ≠ [] ∨ a ≠ b) ∧ (b - a ≠ new.length ∨ slice s.text a b ≠ new) then
      let s' := { s with pending := s.pending ++ [⟨a, b, new⟩] }
      if s.ctx = 0 then applyChanges s' else ⟨s', none, []⟩
    else ⟨s, none, []⟩

/-- `__delitem__`, `mutablestring.py:129-131`. -/
def delItem [DecidableEq α] (s : MS α) (k : Key) : Res α := setItem s k []

/-- `insert`, `mutablestring.py:208-210`. -/
def insertText [DecidableEq α] (s : MS α) (pos : Int) (new : List α) : Res α :=
  setItem s (.range (some pos) (some pos)) new

/-- `append`, `mutablestring.py:204-206`. -/
def appendText [DecidableEq α] (s : MS α) (new : List α) : Res α :=
  insertText s s.text.length new

/-- `set_text`, `mutablestring.py:72-76`. -/
def setText [DecidableEq α] (s : MS α) (new : List α) : Res α :=
  if s.ctx ≠ 0 then ⟨s, some .inContext, []⟩ else setItem s (.range none none) new

/-- `__enter__`, `mutablestring.py:90-93`. -/
def enter (s : MS α) : MS α := { s with ctx := s.ctx + 1 }

/-- `__exit__`, `mutablestring.py:95-105`; `exc` tells whether an exception leaves the
    context. -/
def exit (s : MS α) (exc : Bool) : Res α :=
  if exc then ⟨{ s with ctx := 0, pending := [] }, none, []⟩
  else if s.ctx > 1 then ⟨{ s with ctx := s.ctx - 1 }, none, []⟩
  else applyChanges { s with ctx := 0 }

/-- One statement of a program that edits a mutable string. `raise` stands for any
    exception raised by the user's code. -/
inductive Op (α : Type) where
  | set (k : Key) (new : List α)
  | enter
  | leave
  | raise

/-- Effect of a statement; `leave` is the normal exit of a `with` block. -/
def Op.step [DecidableEq α] (s : MS α) : Op α → Res α
  | .set k new => setItem s k new
  | .enter => ⟨Parce.enter s, none, []⟩
  | .leave => Parce.exit s false
  | .raise => ⟨s, some .user, []⟩

/-- Run statements one after the other, stopping at the first exception. -/
def runOps [DecidableEq α] (s : MS α) : List (Op α) → Res α
  | [] => ⟨s, none, []⟩
  | o :: os =>
    let r := o.step s
    match r.error with
    | some _ => r
    | none =>
      let r2 := runOps r.state os
      { r2 with notified := r.notified ++ r2.notified }

/-- Exception propagation: every `with` block that is still open gets its `__exit__`
    called with the exception. (`__exit__` returns None, so it never swallows it.) -/
def unwind (r : Res α) : Res α :=
  if r.error.isSome ∧ r.state.ctx > 0 then { r with state := (Parce.exit r.state true).state } else r

/-- `with s: body`. -/
def withBlock [DecidableEq α] (s : MS α) (body : List (Op α)) : Res α :=
  unwind (runOps s (.enter :: body ++ [.leave]))

end Parce

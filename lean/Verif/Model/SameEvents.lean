/-!
# Comparing events

`same_events`, `parce/treebuilderutil.py:341-356`, with the equality of
lexicons of `parce/lexicon.py:194-204` and the equality that Python gives
tuples and named tuples (`parce/target.py:43`, `parce/lexer.py:97`).
-/

namespace Parce
namespace Ev

/-- A lexicon.  Lean's equality is identity: `arg` is the argument of a derived
lexicon, `none` for a vanilla lexicon, and `copy` tells apart lexicons that were
made twice with the same argument. -/
structure Lexicon where
  descriptor : Nat
  language : Nat
  arg : Option Nat
  copy : Nat
deriving DecidableEq, Repr

/-- `Lexicon.__eq__`, `parce/lexicon.py:194-198`: derivates of one lexicon are equal. -/
def Lexicon.eq (a b : Lexicon) : Bool :=
  decide (a.descriptor = b.descriptor) && decide (a.language = b.language)

/-- `==` of two tuples: the same length, and each two items are the same object
or compare equal. -/
def tupleEq (a b : List Lexicon) : Bool :=
  match a, b with
  | [], [] => true
  | x :: xs, y :: ys => (decide (x = y) || x.eq y) && tupleEq xs ys
  | _, _ => false

/-- `Target`, `parce/target.py:43`. -/
structure Target where
  pop : Int
  push : List Lexicon
deriving DecidableEq, Repr

/-- `==` of two targets. -/
def Target.eq (a b : Target) : Bool := decide (a.pop = b.pop) && tupleEq a.push b.push

/-- `Event`, `parce/lexer.py:97`.  The lexemes (position, text, action) are
compared as values: an action that is itself a lexicon is not modelled. -/
structure Event (X : Type) where
  target : Option Target
  lexemes : List X
deriving DecidableEq, Repr

variable {X : Type} [DecidableEq X]

/-- `==` of two events. -/
def Event.eq (a b : Event X) : Bool :=
  (match a.target, b.target with
   | none, none => true
   | some s, some t => s.eq t
   | _, _ => false) && decide (a.lexemes = b.lexemes)

/-- `same_events`, `parce/treebuilderutil.py:341-356`.  In the last case both
targets are there, as the events compared equal. -/
def sameEvents (a b : Event X) : Bool :=
  if !a.eq b then false
  else match a.target, b.target with
    | none, _ => true
    | some s, t =>
      if s.push.isEmpty then true
      else match t with
        | none => true
        | some t => (s.push.zip t.push).all (fun p => decide (p.1 = p.2))

end Ev
end Parce

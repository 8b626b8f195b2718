/-!
# Model of how lexicons are made and kept, parce/lexicon.py

Lexicons are numbered in the order in which they are made; the same number means the same object. Equality of arguments is
Python's equality (`eqv`), because they are keys of a dictionary. One thread only; for more threads, see `Model/Caching.lean`.
-/
namespace Parce.Lex
variable {D C A : Type} [DecidableEq D] [DecidableEq C]

/-- A lexicon, `lexicon.py:125-152`: its descriptor, its language (a class), and its argument. -/
structure Lexicon (D C A : Type) where
  descriptor : D
  language : C
  arg : Option A
deriving DecidableEq, Repr

/-- The lexicons that were made, and the tables: `_lexicons` of the descriptors, `lexicon.py:100`, and the cache of `_derive`,
    `lexicon.py:189-192`. -/
structure Store (D C A : Type) where
  objs : List (Lexicon D C A) := []
  vanilla : D → C → Option Nat := fun _ _ => none
  derived : Nat → A → Option Nat := fun _ _ => none

/-- `LexiconDescriptor.__get__`, `lexicon.py:102-104`. -/
def Store.get (s : Store D C A) (d : D) (c : C) : Store D C A × Nat :=
  match s.vanilla d c with
  | some i => (s, i)
  | none =>
    ({ s with objs := s.objs ++ [⟨d, c, none⟩], vanilla := fun d' c' => if d' = d ∧ c' = c then some s.objs.length else s.vanilla d' c' },
      s.objs.length)

/-- `_derive`, `lexicon.py:189-192`; `o` is the lexicon with the number `l`. -/
def Store.derive (eqv : A → A → Bool) (s : Store D C A) (l : Nat) (o : Lexicon D C A) (a : A) : Store D C A × Nat :=
  match s.derived l a with
  | some i => (s, i)
  | none =>
    ({ s with
        objs := s.objs ++ [⟨o.descriptor, o.language, some a⟩],
        derived := fun l' a' => if l' = l ∧ eqv a a' = true then some s.objs.length else s.derived l' a' },
      s.objs.length)

/-- `Lexicon.__call__`, `lexicon.py:163-187`. The call of the vanilla lexicon is written out: it has no argument, so it derives. Numbers
    that are not in use stay as they are. -/
def Store.call (eqv : A → A → Bool) (s : Store D C A) (l : Nat) : Option A → Store D C A × Nat
  | none => (s, l)
  | some a =>
    match s.objs[l]? with
    | none => (s, l)
    | some o =>
      match o.arg with
      | none => s.derive eqv l o a
      | some _ => (s.get o.descriptor o.language).1.derive eqv (s.get o.descriptor o.language).2 o a

/-- `Lexicon.__eq__`, `lexicon.py:194-198`. -/
def Lexicon.eq (x y : Lexicon D C A) : Bool := x.descriptor = y.descriptor ∧ x.language = y.language

/-- `Lexicon.__ne__`, `lexicon.py:200-204`. -/
def Lexicon.ne (x y : Lexicon D C A) : Bool := x.descriptor ≠ y.descriptor ∨ x.language ≠ y.language

/-- What is done later: any number of accesses and calls. -/
inductive Later (eqv : A → A → Bool) : Store D C A → Store D C A → Prop
  | refl (s : Store D C A) : Later eqv s s
  | get {s s' : Store D C A} (d : D) (c : C) : Later eqv s s' → Later eqv s (s'.get d c).1
  | call {s s' : Store D C A} (l : Nat) (a : Option A) : Later eqv s s' → Later eqv s (s'.call eqv l a).1

/-- The states of a program. -/
abbrev Store.Ok (eqv : A → A → Bool) (s : Store D C A) : Prop := Later eqv {} s

end Parce.Lex

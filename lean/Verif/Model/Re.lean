import Verif.Model.Lexer
/-!
# Regular expressions, and the lexicons compiled from them

The module `re` is a part of Python, not of parce; this is a model of how it matches (by
backtracking, trying the alternatives in their order). `lexicon.py:369-401` joins the patterns of a
lexicon as alternatives, each in a named group; the last group that was closed tells the rule.

`α` is the type of characters. A regular expression is tried at a position and gives the list of
all ends, with the groups captured on the way, in the order in which backtracking finds them. The
first one is the match. Not modelled: backreferences, conditional groups, and possessive and atomic
groups.
-/
namespace Parce

/-- The captured groups, the last one first: the number, the start and the end. -/
abbrev Caps := List (Nat × Nat × Nat)

/-- A regular expression. -/
inductive Pat (α : Type) where
  /-- the empty expression -/
  | eps
  /-- a character, a character class, or a dot -/
  | set (f : α → Bool)
  /-- what is tested at a position: `^`, `$`, `\b`, a look-behind -/
  | test (f : List α → Nat → Bool)
  | cat (a b : Pat α)
  | alt (a b : Pat α)
  /-- `a*` -/
  | star (a : Pat α)
  /-- `a*?` -/
  | lazy (a : Pat α)
  /-- `(a)` -/
  | grp (i : Nat) (a : Pat α)
  /-- `(?=a)` and `(?!a)` -/
  | look (neg : Bool) (a : Pat α)

variable {α L A : Type}

/-- `a*`: another round first, then the end. A round that does not advance is not tried (in Python
    it is tried once, which can only change the captured groups). -/
def starRun (step : Nat → Caps → List (Nat × Caps)) : (fuel : Nat) → Nat → Caps → List (Nat × Caps)
  | 0, p, c => [(p, c)]
  | fuel + 1, p, c =>
    (step p c).flatMap (fun r => if p < r.1 then starRun step fuel r.1 r.2 else []) ++ [(p, c)]

/-- `a*?`: the end first. -/
def lazyRun (step : Nat → Caps → List (Nat × Caps)) : (fuel : Nat) → Nat → Caps → List (Nat × Caps)
  | 0, p, c => [(p, c)]
  | fuel + 1, p, c =>
    (p, c) :: (step p c).flatMap (fun r => if p < r.1 then lazyRun step fuel r.1 r.2 else [])

/-- The ends of the matches at a position, in the order in which they are found. -/
def Pat.run (t : List α) : Pat α → Nat → Caps → List (Nat × Caps)
  | .eps, p, c => [(p, c)]
  | .set f, p, c => match t[p]? with
    | some x => if f x then [(p + 1, c)] else []
    | none => []
  | .test f, p, c => if f t p then [(p, c)] else []
  | .cat a b, p, c => (a.run t p c).flatMap (fun r => b.run t r.1 r.2)
  | .alt a b, p, c => a.run t p c ++ b.run t p c
  | .star a, p, c => starRun (a.run t) (t.length - p) p c
  | .lazy a, p, c => lazyRun (a.run t) (t.length - p) p c
  | .grp i a, p, c => (a.run t p c).map (fun r => (r.1, (i, p, r.1) :: r.2))
  | .look neg a, p, c =>
    match a.run t p c, neg with
    | [], true => [(p, c)]
    | [], false => []
    | _ :: _, true => []
    | r :: _, false => [(p, r.2)]

/-! ### Short forms -/

/-- `a?` -/
def Pat.opt (a : Pat α) : Pat α := .alt a .eps

/-- `a+` -/
def Pat.plus (a : Pat α) : Pat α := .cat a (.star a)

/-- `a{n}` -/
def Pat.times (a : Pat α) : Nat → Pat α
  | 0 => .eps
  | n + 1 => .cat a (a.times n)

/-- A character. -/
def Pat.chr [DecidableEq α] (c : α) : Pat α := .set (fun x => x == c)

/-- The characters of a string. -/
def Pat.str [DecidableEq α] : List α → Pat α
  | [] => .eps
  | [c] => .chr c
  | c :: w => .cat (.chr c) (Pat.str w)

/-- Alternatives. -/
def Pat.alts : List (Pat α) → Pat α
  | [] => .set (fun _ => false)
  | [a] => a
  | a :: as => .alt a (Pat.alts as)

/-- `\b`, where `w` tells what `\w` matches. -/
def Pat.bound (w : α → Bool) : Pat α :=
  .test (fun t p => ((p != 0) && ((t[p - 1]?.map w).getD false)) != (t[p]?.map w).getD false)

/-! ### A lexicon -/

/-- What a match is: the number of the rule, and the groups, with positions relative to the start
    of the match. -/
structure RM where
  index : Nat
  caps : Caps
deriving DecidableEq, Repr

/-- The groups relative to the start `p` of the match. -/
def Caps.rel (p : Nat) (c : Caps) : Caps := c.map (fun x => (x.1, x.2.1 - p, x.2.2 - p))

/-- All matches at a position, those of the first pattern first, `lexicon.py:370-371`. -/
def allAt (t : List α) (p : Nat) : (i : Nat) → List (Pat α) → List (Mtch RM)
  | _, [] => []
  | i, a :: as => (a.run t p []).map (fun r => ⟨p, r.1, ⟨i, Caps.rel p r.2⟩⟩) ++ allAt t p (i + 1) as

/-- `rx.match(text, p)`. -/
def rxMatch (pats : List (Pat α)) (t : List α) (p : Nat) : Option (Mtch RM) :=
  if p ≤ t.length then (allAt t p 0 pats).head? else none

/-- The match at a position, when it may not be empty. -/
def rxNonempty (pats : List (Pat α)) (t : List α) (p : Nat) : Option (Mtch RM) :=
  (allAt t p 0 pats).find? (fun m => p < m.stop)

/-- From `p`, one position after the other. -/
def rxScan (pats : List (Pat α)) (t : List α) : (fuel : Nat) → Nat → Option (Mtch RM)
  | 0, _ => none
  | fuel + 1, p => match rxMatch pats t p with
    | some m => some m
    | none => rxScan pats t fuel (p + 1)

/-- A step of `rx.finditer`: the next match from `p`; with `must` it may not be empty when it is at
    `p` itself. -/
def rxSearch (pats : List (Pat α)) (t : List α) (p : Nat) (must : Bool) : Option (Mtch RM) :=
  if must then
    match rxNonempty pats t p with
    | some m => some m
    | none => rxScan pats t (t.length - p) (p + 1)
  else rxScan pats t (t.length + 1 - p) p

/-- A rule of a lexicon: the pattern, and the action and target as a function of the matched text
    and the groups with their text (a constant function, if there is nothing dynamic in the rule). -/
structure PRule (α L A : Type) where
  pat : Pat α
  out : List α → List (Nat × List α) → A × Option (Target L)

/-- The text of the groups of a match. (A group inside a look-ahead that is not in the matched text
    is cut off here.) -/
def groupTexts (t : List α) (m : Mtch RM) : List (Nat × List α) :=
  m.rest.caps.map (fun c => (c.1, slice (slice t m.start m.stop) c.2.1 c.2.2))

/-- `token(m)`, `lexicon.py:385-396`; `noAct` for a number that is not there (which does not
    happen). -/
def ruleOut (noAct : A) (rules : List (PRule α L A)) (t : List α) (m : Mtch RM) : A × Option (Target L) :=
  match rules[m.rest.index]? with
  | some r => r.out (slice t m.start m.stop) (groupTexts t m)
  | none => (noAct, none)

/-- `_get_parse_function`, `lexicon.py:259-437`, for rules that are not all one literal text. -/
def compile (noAct : A) (rules : List (PRule α L A)) (d : Dflt α L A) : LexDef α L A RM :=
  match rules with
  | [] => .empty d
  | rules => .regex (rxSearch (rules.map (·.pat))) (rxMatch (rules.map (·.pat))) (ruleOut noAct rules) d

/-- A language of such lexicons, with actions that are not dynamic: the lexeme is the matched text;
    tokens with the action `skip` are left out (`standardaction.py`, `SkipAction` in `lexer.py:174-183`). -/
def patLang (noAct : A) (skip : A → Bool) (consume : L → Bool) (rules : L → List (PRule α L A)) (d : L → Dflt α L A) :
    Lang α L A RM where
  ld l := compile noAct (rules l) (d l)
  consume := consume
  expand tok := if skip tok.act then [] else [⟨tok.pos, tok.text, tok.act⟩]
  noAct := noAct

end Parce

import Verif.Model.MutableString
/-!
# Model of parce/target.py, parce/lexer.py and the parse functions of parce/lexicon.py

`α` is the type of characters, `L` of lexicons, `A` of actions and `ρ` of match objects.
Lexicon stacks are lists with the current lexicon at the *head* (in Python at the end); the
`push` of a target is in Python's order (the last one becomes the current lexicon).
-/
namespace Parce

/-! ### Targets -/

/-- `Target`, `target.py:43`. `pop` is the number of lexicons to leave (in Python the
    negative of it). -/
structure Target (L : Type) where
  pop : Nat
  push : List L
deriving DecidableEq, Repr

/-- A `TargetFactory`, `target.py:57-59`. -/
structure Factory (L : Type) where
  fpop : Nat
  fpush : List L
deriving DecidableEq, Repr

variable {L : Type}

def Factory.init : Factory L := ⟨0, []⟩

/-- `TargetFactory.add`, `target.py:61-70` (for a target that is not None). -/
def Factory.add (f : Factory L) (t : Target L) : Factory L :=
  if t.pop = 0 then { f with fpush := f.fpush ++ t.push }
  else if t.pop ≤ f.fpush.length then
    { f with fpush := f.fpush.take (f.fpush.length - t.pop) ++ t.push }
  else ⟨f.fpop + (t.pop - f.fpush.length), t.push⟩

/-- `TargetFactory.get`, `target.py:72-83`. -/
def Factory.get (f : Factory L) : Option (Target L) × Factory L :=
  if f.fpop ≠ 0 ∨ f.fpush ≠ [] then (some ⟨f.fpop, f.fpush⟩, ⟨0, []⟩) else (none, f)

/-- `TargetFactory.push`, `target.py:85-87`. -/
def Factory.push (f : Factory L) (ls : List L) : Factory L := { f with fpush := f.fpush ++ ls }

/-- `TargetFactory.pop`, `target.py:89-96`; `n` is the number of lexicons to pop. -/
def Factory.pop (f : Factory L) (n : Nat) : Factory L :=
  if n ≠ 0 then
    if n ≤ f.fpush.length then { f with fpush := f.fpush.take (f.fpush.length - n) }
    else ⟨f.fpop + (n - f.fpush.length), []⟩
  else f

/-- An item of the target part of a rule. -/
inductive TItem (L : Type) where
  | int (i : Int)
  | lex (l : L)
deriving DecidableEq, Repr

/-- The loop body of `TargetFactory.make`, `target.py:103-110`. -/
def Factory.item (lexicon : L) (f : Factory L) : TItem L → Factory L
  | .int i => if i < 0 then f.pop (-i).toNat else f.push (List.replicate i.toNat lexicon)
  | .lex l => f.push [l]

/-- `TargetFactory.make`, `target.py:98-111`. -/
def makeTarget (lexicon : L) (rule : List (TItem L)) : Option (Target L) :=
  ((rule.foldl (Factory.item lexicon) Factory.init).get).1

/-- `del lexicons[target.pop:]; lexicons.extend(target.push)`, e.g. `lexer.py:142-144`. -/
def Target.apply (t : Target L) (stack : List L) : List L := t.push.reverse ++ stack.drop t.pop

/-! ### Lexicons -/

/-- A match object: start, end and the rest of it. -/
structure Mtch (ρ : Type) where
  start : Nat
  stop : Nat
  rest : ρ
deriving DecidableEq, Repr

variable {α A ρ : Type}

/-- The default action (as a function of the text, for dynamic default actions; constant
    otherwise), the default target, or neither, `lexicon.py:269-285`. A default action
    takes precedence over a default target. -/
inductive Dflt (α L A : Type) where
  | skip
  | action (f : List α → A)
  | target (t : Target L)

/-- A lexicon after collecting its rules, `lexicon.py:259-401`. The compiled regular
    expression is a black box: `search t p b` is what one step of `rx.finditer` finds from
    position `p` (`b`: an empty match at `p` is not allowed, because the previous match was
    empty and ended there); `matchAt` is `rx.match`; `rule` is the static or dynamic action
    and target of a match (`token(m)`, `lexicon.py:387-396`). -/
inductive LexDef (α L A ρ : Type) where
  /-- no patterns, `lexicon.py:287-311` -/
  | empty (d : Dflt α L A)
  /-- one literal pattern, `lexicon.py:313-367` -/
  | literal (needle : List α) (act : A) (tgt : Option (Target L)) (d : Dflt α L A)
  /-- the general case, `lexicon.py:369-437` -/
  | regex (search : List α → Nat → Bool → Option (Mtch ρ))
      (matchAt : List α → Nat → Option (Mtch ρ))
      (rule : List α → Mtch ρ → A × Option (Target L)) (d : Dflt α L A)

/-- The tuple yielded by `parse`: `(pos, text, match, action, target)`. -/
structure Tok (α L A ρ : Type) where
  pos : Nat
  text : List α
  mtch : Option (Mtch ρ)
  act : A
  tgt : Option (Target L)

/-- Position of a suspended `parse` generator. -/
inductive PS (ρ : Type) where
  /-- about to look for the next match from `pos` -/
  | at (pos : Nat) (must : Bool)
  /-- a gap was yielded with the default action, the match found is next -/
  | pend (m : Mtch ρ)
  /-- a gap was yielded with the default action, the literal at `i` is next -/
  | pendLit (i : Nat)
  /-- nothing left -/
  | stop

/-- `text.find(needle, pos)` (by searching each position). -/
def findSub [DecidableEq α] (needle t : List α) (pos : Nat) : Option Nat :=
  (List.range (t.length + 1)).find? (fun i => pos ≤ i && slice t i (i + needle.length) == needle)

/-- What is yielded by the default when no match is found any more. -/
def tailTok (noAct : A) (d : Dflt α L A) (t : List α) (pos : Nat) : Option (Tok α L A ρ × PS ρ) :=
  if pos < t.length then
    match d with
    | .skip => none
    | .action f => some (⟨pos, t.drop pos, none, f (t.drop pos), none⟩, .stop)
    | .target tg => some (⟨pos, [], none, noAct, some tg⟩, .stop)
  else none

/-- The tuple for a match, `token(m)`, `lexicon.py:387-391`. -/
def matchTok (rule : List α → Mtch ρ → A × Option (Target L)) (t : List α) (m : Mtch ρ) :
    Tok α L A ρ × PS ρ :=
  let r := rule t m
  (⟨m.start, slice t m.start m.stop, some m, r.1, r.2⟩, .at m.stop (m.start == m.stop))

/-- The tuple for the literal. -/
def litTok (needle : List α) (act : A) (tgt : Option (Target L)) (i : Nat) : Tok α L A ρ × PS ρ :=
  (⟨i, needle, none, act, tgt⟩, .at (i + needle.length) false)

/-- One `next()` of the generator `lexicon.parse(text, pos)`; `none` is StopIteration.
    `lexicon.py:288-310`, `322-366`, `398-437`. -/
def parseNext [DecidableEq α] (noAct : A) (ld : LexDef α L A ρ) (t : List α) :
    PS ρ → Option (Tok α L A ρ × PS ρ)
  | .stop => none
  | .pend m =>
    match ld with
    | .regex _ _ rule _ => some (matchTok rule t m)
    | _ => none
  | .pendLit i =>
    match ld with
    | .literal needle act tgt _ => some (litTok needle act tgt i)
    | _ => none
  | .at pos must =>
    match ld with
    | .empty d => tailTok noAct d t pos
    | .literal needle act tgt d =>
      match d with
      | .target _ =>
        if slice t pos (pos + needle.length) = needle then some (litTok needle act tgt pos)
        else tailTok noAct d t pos
      | .action f =>
        match findSub needle t pos with
        | some i =>
          if i > pos then some (⟨pos, slice t pos i, none, f (slice t pos i), none⟩, .pendLit i)
          else some (litTok needle act tgt i)
        | none => tailTok noAct d t pos
      | .skip =>
        match findSub needle t pos with
        | some i => some (litTok needle act tgt i)
        | none => none
    | .regex search matchAt rule d =>
      match d with
      | .target _ =>
        match matchAt t pos with
        | some m => some (matchTok rule t m)
        | none => tailTok noAct d t pos
      | .action f =>
        match search t pos must with
        | some m =>
          if m.start > pos then
            some (⟨pos, slice t pos m.start, none, f (slice t pos m.start), none⟩, .pend m)
          else some (matchTok rule t m)
        | none => tailTok noAct d t pos
      | .skip =>
        match search t pos must with
        | some m => some (matchTok rule t m)
        | none => none

/-! ### The lexer -/

/-- A lexeme `(pos, text, action)`. -/
structure Lexeme (α A : Type) where
  pos : Nat
  text : List α
  act : A
deriving DecidableEq, Repr

/-- `Event`, `lexer.py:94`. -/
structure Event (α L A : Type) where
  target : Option (Target L)
  lexemes : List (Lexeme α A)
deriving DecidableEq, Repr

/-- A language: the parse definition and the `consume` flag of every lexicon, and what
    becomes of an action. `expand` gives the lexemes of a token: just the token itself for a
    normal action, and `action.replace(...)` for an `ActionItem` (`lexer.py:126-133`).
    `noAct` stands for None. -/
structure Lang (α L A ρ : Type) where
  ld : L → LexDef α L A ρ
  consume : L → Bool
  expand : Tok α L A ρ → List (Lexeme α A)
  noAct : A

/-- The local variables of `Lexer.events`, `lexer.py:117-124`, together with the suspended
    generator of the current lexicon. -/
structure LState (L ρ : Type) where
  stack : List L
  fac : Factory L
  circ : List (Nat × Nat × Nat)
  ps : PS ρ

/-- `event()`, `lexer.py:126-133`. -/
def emit (lang : Lang α L A ρ) (fac : Factory L) (tok : Tok α L A ρ) :
    Factory L × List (Event α L A) :=
  match lang.expand tok with
  | [] => (fac, [])
  | l :: ls => (fac.get.2, [⟨fac.get.1, l :: ls⟩])

/-- Never pop off root, `lexer.py:138-140`. -/
def clampPop (stack : List L) (t : Target L) : Target L :=
  if t.pop ≠ 0 ∧ t.pop ≥ stack.length then ⟨stack.length - 1, t.push⟩ else t

/-- One round of the for loop in `Lexer.events`, `lexer.py:135-172`; `none` means the
    generator of the current lexicon is exhausted, so the lexer is done. -/
def lexStep [DecidableEq α] (lang : Lang α L A ρ) (t : List α) (s : LState L ρ) :
    Option (LState L ρ × List (Event α L A)) :=
  match s.stack with
  | [] => none
  | top :: _ =>
    match parseNext lang.noAct (lang.ld top) t s.ps with
    | none => none
    | some (tok, ps') =>
      match tok.tgt with
      | none =>
        if tok.text ≠ [] then
          let e := emit lang s.fac tok
          some ({ s with fac := e.1, ps := ps' }, e.2)
        else some ({ s with ps := ps' }, [])
      | some tg0 =>
        let tg := clampPop s.stack tg0
        if tok.text ≠ [] then
          let next := PS.at (tok.pos + tok.text.length) false
          if (tg.push.getLast?.map lang.consume).getD false then
            let e := emit lang (s.fac.add tg) tok
            some (⟨tg.apply s.stack, e.1, [], next⟩, e.2)
          else
            let e := emit lang s.fac tok
            some (⟨tg.apply s.stack, e.1.add tg, [], next⟩, e.2)
        else
          let st := (tok.pos, s.stack.length - tg.pop, tg.push.length)
          if st ∈ s.circ then
            let pos := if tg.push ≠ [] ∧ tok.pos < t.length then tok.pos + 1 else tok.pos
            some (⟨tg.apply s.stack, s.fac.add tg, [], .at pos false⟩, [])
          else some (⟨tg.apply s.stack, s.fac.add tg, st :: s.circ, .at tok.pos false⟩, [])

/-- `Lexer(lexicons).events(text, pos)` at the start. -/
def LState.start (stack : List L) (pos : Nat) : LState L ρ := ⟨stack, Factory.init, [], .at pos false⟩

/-- The first `n` rounds: the events yielded, and the state afterwards (`none` when the
    lexer has finished). -/
def lexRun [DecidableEq α] (lang : Lang α L A ρ) (t : List α) :
    Nat → LState L ρ → List (Event α L A) × Option (LState L ρ)
  | 0, s => ([], some s)
  | n + 1, s =>
    match lexStep lang t s with
    | none => ([], none)
    | some (s', ev) =>
      let r := lexRun lang t n s'
      (ev ++ r.1, r.2)

end Parce

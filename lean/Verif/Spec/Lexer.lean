import Verif.Model.Lexer
/-!
# Independent specifications for targets and the lexer
-/
namespace Parce
variable {α L A ρ : Type}

/-- A request to change a lexicon stack (current lexicon at the head). -/
inductive Req (L : Type) where
  | pop (n : Nat)
  | push (ls : List L)

/-- Its meaning. -/
def Req.run (stack : List L) : Req L → List L
  | .pop n => stack.drop n
  | .push ls => ls.reverse ++ stack

/-- Effect of an optional target on a stack. -/
def applyOpt (t : Option (Target L)) (stack : List L) : List L :=
  match t with
  | none => stack
  | some t => t.apply stack

/-- The requests a rule's target items stand for, in the lexicon `self`. -/
def TItem.req (self : L) : TItem L → Req L
  | .int i => if i < 0 then .pop (-i).toNat else .push (List.replicate i.toNat self)
  | .lex l => .push [l]

/-- Replaying the targets of the events never pops the last lexicon (the root). -/
def KeepsRoot : List L → List (Event α L A) → Prop
  | _, [] => True
  | stack, e :: es =>
    (∀ t, e.target = some t → t.pop < stack.length) ∧ KeepsRoot (applyOpt e.target stack) es

/-- The lexicon stack after replaying the events. -/
def replayStack : List L → List (Event α L A) → List L
  | stack, [] => stack
  | stack, e :: es => replayStack (applyOpt e.target stack) es

/-- The lexemes lie one after the other between `a` and `b`, are not empty, and have the
    text that is at their position. -/
def Within (t : List α) : Nat → Nat → List (Lexeme α A) → Prop
  | a, b, [] => a ≤ b
  | a, b, l :: ls =>
    a ≤ l.pos ∧ l.text ≠ [] ∧ l.text = slice t l.pos (l.pos + l.text.length) ∧
    l.pos + l.text.length ≤ t.length ∧ Within t (l.pos + l.text.length) b ls

/-- All lexemes of a list of events. -/
def lexemes (evs : List (Event α L A)) : List (Lexeme α A) := evs.flatMap (·.lexemes)

/-- What every regular expression does: a match lies between the start position and the end
    of the text; after an empty match the next one ends further on; `rx.match` matches at the
    position itself. A literal is not empty. -/
def LexOK : LexDef α L A ρ → Prop
  | .empty _ => True
  | .literal needle _ _ _ => needle ≠ []
  | .regex search matchAt _ _ =>
    (∀ t p b m, search t p b = some m → p ≤ m.start ∧ m.start ≤ m.stop ∧ m.stop ≤ t.length ∧
      (b = true → p < m.stop)) ∧
    (∀ t p m, matchAt t p = some m → m.start = p ∧ p ≤ m.stop ∧ m.stop ≤ t.length)

/-- A search looks at one start position after the other: a match found further on is found
    again when starting there, and when nothing is found, nothing is found from a later
    position either. -/
def Leftmost : LexDef α L A ρ → Prop
  | .regex search _ _ _ =>
    (∀ t p b m, search t p b = some m → p < m.start → search t m.start false = some m) ∧
    (∀ t p b q, search t p b = none → p < q → q ≤ t.length → search t q false = none)
  | _ => True

/-- All actions are plain (no `ActionItem`): a token is one lexeme. -/
def Plain (lang : Lang α L A ρ) : Prop :=
  ∀ tok, lang.expand tok = [⟨tok.pos, tok.text, tok.act⟩]

/-- The lexicon has a default action. -/
def HasDefaultAction : LexDef α L A ρ → Prop
  | .empty (.action _) => True
  | .literal _ _ _ (.action _) => True
  | .regex _ _ _ (.action _) => True
  | _ => False

/-- The match is one that the regular expression finds in the text. -/
def Finds (search : List α → Nat → Bool → Option (Mtch ρ)) (matchAt : List α → Nat → Option (Mtch ρ)) (t : List α) (m : Mtch ρ) : Prop :=
  (∃ p, matchAt t p = some m) ∨ ∃ p b, search t p b = some m

/-- The states of `lexicon.parse(text, pos)` between two tuples. -/
def PSOK (t : List α) (ld : LexDef α L A ρ) : PS ρ → Prop
  | .at p _ => p ≤ t.length
  | .pend m => m.start ≤ m.stop ∧ m.stop ≤ t.length ∧ ∃ s ma r f, ld = .regex s ma r (.action f) ∧ Finds s ma t m
  | .pendLit i => ∃ needle a tg f, ld = .literal needle a tg (.action f) ∧
      slice t i (i + needle.length) = needle ∧ i + needle.length ≤ t.length
  | .stop => True

/-- Actions expand a token that the lexer finds in the text to lexemes within the token. -/
def ExpandsWithin [DecidableEq α] (lang : Lang α L A ρ) (t : List α) : Prop :=
  ∀ (l : L) (ps ps' : PS ρ) (tok : Tok α L A ρ), PSOK t (lang.ld l) ps →
    parseNext lang.noAct (lang.ld l) t ps = some (tok, ps') →
    tok.text ≠ [] → tok.text = slice t tok.pos (tok.pos + tok.text.length) →
    tok.pos + tok.text.length ≤ t.length →
    Within t tok.pos (tok.pos + tok.text.length) (lang.expand tok)

/-- A match of the empty string does not enter another lexicon. -/
def NoEmptyPush : LexDef α L A ρ → Prop
  | .regex s ma rule _ => ∀ t m tg, Finds s ma t m → (rule t m).2 = some tg → m.start = m.stop → tg.push = []
  | _ => True

/-- In a lexicon with a default target, a match of the empty string has a target. (Otherwise
    the loop `lexicon.py:421-430` finds the same match again and again.) -/
def NoStuckMatch : LexDef α L A ρ → Prop
  | .regex _ ma rule (.target _) => ∀ t p m, ma t p = some m → m.start = m.stop → (rule t m).2 ≠ none
  | _ => True

/-- `μ`, that depends on the text, the position and the stack, decreases whenever the lexer, with the
    given root lexicon, follows a target without consuming text, so there is no endless chain of those. -/
def EmptyTargetsDecrease [DecidableEq α] (lang : Lang α L A ρ) (root : L) (μ : List α → Nat → List L → Nat) : Prop :=
  ∀ (t : List α) (top : L) (rest : List L) (ps ps' : PS ρ) (tok : Tok α L A ρ) (tg : Target L),
    (top :: rest).getLast? = some root → PSOK t (lang.ld top) ps →
    parseNext lang.noAct (lang.ld top) t ps = some (tok, ps') → tok.text = [] → tok.tgt = some tg →
    μ t tok.pos ((clampPop (top :: rest) tg).apply (top :: rest)) < μ t tok.pos (top :: rest)

/-- All targets the lexicon can follow without consuming text (its default target and the
    targets of empty matches) satisfy `P`. -/
def EmptyTgts (P : Target L → Prop) : LexDef α L A ρ → Prop
  | .empty d => ∀ tg, d = .target tg → P tg
  | .literal _ _ _ d => ∀ tg, d = .target tg → P tg
  | .regex s ma rule d => (∀ tg, d = .target tg → P tg) ∧
      ∀ t m tg, Finds s ma t m → slice t m.start m.stop = [] → (rule t m).2 = some tg → P tg

/-- The first `n` tuples yielded by `lexicon.parse(text, pos)`. -/
def parseTake [DecidableEq α] (noAct : A) (ld : LexDef α L A ρ) (t : List α) :
    Nat → PS ρ → List (Tok α L A ρ)
  | 0, _ => []
  | n + 1, ps =>
    match parseNext noAct ld t ps with
    | none => []
    | some (tok, ps') => tok :: parseTake noAct ld t n ps'

/-- The general path for a pattern that matches exactly the text `needle`: `search` finds the
    first occurrence, `match` tests at the position. -/
def literalAsRegex [DecidableEq α] (needle : List α) (act : A) (tgt : Option (Target L))
    (d : Dflt α L A) (r : ρ) : LexDef α L A ρ :=
  .regex (fun t p _ => (findSub needle t p).map (fun i => ⟨i, i + needle.length, r⟩))
    (fun t p => if slice t p (p + needle.length) = needle then some ⟨p, p + needle.length, r⟩ else none)
    (fun _ _ => (act, tgt)) d

/-- Two event lists that only differ in the target of the first event, where the first list
    starts at `base` and the second at `stack`. -/
def SameFrom (base stack : List L) : List (Event α L A) → List (Event α L A) → Prop
  | [], [] => True
  | e :: es, e' :: es' =>
    e.lexemes = e'.lexemes ∧ applyOpt e.target base = applyOpt e'.target stack ∧ es = es'
  | _, _ => False

end Parce

import Verif.Spec.Lexer
import Verif.Model.Rebuild
/-!
# What languages have to meet for a partial rebuild to be exact

The code assumes (and documents, as "at least 10 tokens") that a lexer can be restarted at a token,
and that text further on does not influence what was found before.
-/
namespace Parce.RB
variable {α L A ρ : Type}

/-- A match, moved by `a` positions. -/
def Mtch.move (a : Nat) (m : Mtch ρ) : Mtch ρ := ⟨m.start + a, m.stop + a, m.rest⟩

/-- A tuple yielded by `parse`, moved by `a` positions. -/
def Tok.move (a : Nat) (k : Tok α L A ρ) : Tok α L A ρ :=
  { k with pos := k.pos + a, mtch := k.mtch.map (Mtch.move a) }

/-- A lexeme, moved by `a` positions. -/
def Lexeme.move (a : Nat) (l : Lexeme α A) : Lexeme α A := { l with pos := l.pos + a }

/-- The patterns do not look at the text before the position they are tried at. -/
def NoLookbehind : LexDef α L A ρ → Prop
  | .regex search matchAt rule _ =>
    (∀ t p b, p ≤ t.length → search t p b = (search (t.drop p) 0 b).map (Mtch.move p)) ∧
    (∀ t p, p ≤ t.length → matchAt t p = (matchAt (t.drop p) 0).map (Mtch.move p)) ∧
    (∀ t p m, p ≤ t.length → rule t (Mtch.move p m) = rule (t.drop p) m)
  | _ => True

/-- The patterns look at no more than `j` characters before the position they are tried at. -/
def Behind (j : Nat) : LexDef α L A ρ → Prop
  | .regex search matchAt rule _ =>
    (∀ t a p b, j ≤ p → p + a ≤ t.length → search t (p + a) b = (search (t.drop a) p b).map (Mtch.move a)) ∧
    (∀ t a p, j ≤ p → p + a ≤ t.length → matchAt t (p + a) = (matchAt (t.drop a) p).map (Mtch.move a)) ∧
    (∀ t a m, j ≤ m.start → a ≤ t.length → rule t (Mtch.move a m) = rule (t.drop a) m)
  | _ => True

/-- Whether and how a pattern matches is known `k` characters after the end of the match (for a
    match of a lexicon with a default target: also that it does not match is known after `k`
    characters). -/
def Ahead (k : Nat) : LexDef α L A ρ → Prop
  | .regex search matchAt rule _ =>
    ∀ (t t' : List α) (q : Nat), t.take q = t'.take q → q ≤ t.length → q ≤ t'.length →
      (∀ p b m, search t p b = some m → m.stop + k ≤ q → search t' p b = some m) ∧
      (∀ p m, matchAt t p = some m → m.stop + k ≤ q → matchAt t' p = some m) ∧
      (∀ p, matchAt t p = none → p + k ≤ q → matchAt t' p = none) ∧
      (∀ m, m.stop + k ≤ q → rule t' m = rule t m)
  | .literal needle _ _ (.target _) => needle.length ≤ k
  | _ => True

/-- What a token expands to does not depend on its position. -/
def ExpandsMoved (lang : Lang α L A ρ) : Prop :=
  ∀ k a, lang.expand (Tok.move a k) = (lang.expand k).map (Lexeme.move a)

/-- The first lexeme of a token that the lexer finds is at the start of the token. -/
def ExpandsAtStart [DecidableEq α] (lang : Lang α L A ρ) : Prop :=
  ∀ (t : List α) (l : L) (ps ps' : PS ρ) (tok : Tok α L A ρ) (lx : Lexeme α A) (ls : List (Lexeme α A)), PSOK t (lang.ld l) ps →
    parseNext lang.noAct (lang.ld l) t ps = some (tok, ps') → tok.text ≠ [] → lang.expand tok = lx :: ls → lx.pos = tok.pos

/-- All of it: the regular expressions behave like regular expressions (`LexOK`, `Leftmost`), look
    only at the text from the position they are tried at to `k` characters after the match, and
    actions expand a match to lexemes inside it, the first at its start. -/
structure Restartable [DecidableEq α] (k : Nat) (lang : Lang α L A ρ) : Prop where
  ok : ∀ l, LexOK (lang.ld l)
  leftmost : ∀ l, Leftmost (lang.ld l)
  behind : ∀ l, NoLookbehind (lang.ld l)
  ahead : ∀ l, Ahead k (lang.ld l)
  within : ∀ t, ExpandsWithin lang t
  moved : ExpandsMoved lang
  atStart : ExpandsAtStart lang

/-- In a context, tokens that begin with the same lexeme (text and action) have the same target, and the
    same lexemes. -/
def Determined [DecidableEq α] (lang : Lang α L A ρ) : Prop :=
  ∀ (l : L) (t t' : List α) (p p' : Nat) (b b' : Bool) (tok tok' : Tok α L A ρ) (q q' : PS ρ) (lx lx' : Lexeme α A)
    (ls ls' : List (Lexeme α A)), p ≤ t.length → p' ≤ t'.length →
    parseNext lang.noAct (lang.ld l) t (.at p b) = some (tok, q) → parseNext lang.noAct (lang.ld l) t' (.at p' b') = some (tok', q') →
    tok.text ≠ [] → tok'.text ≠ [] → lang.expand tok = lx :: ls → lang.expand tok' = lx' :: ls' →
    lx.text = lx'.text → lx.act = lx'.act →
    tok.text.length = tok'.text.length ∧ tok.tgt = tok'.tgt ∧
    (lx' :: ls').map (Lexeme.move tok.pos) = (lx :: ls).map (Lexeme.move tok'.pos)

/-- As `Restartable`, but patterns may look at one character before the position (as in `\b` or `^`),
    if tokens that look the same have the same target. -/
structure Restartable1 [DecidableEq α] (k : Nat) (lang : Lang α L A ρ) : Prop where
  ok : ∀ l, LexOK (lang.ld l)
  leftmost : ∀ l, Leftmost (lang.ld l)
  behind : ∀ l, Behind 1 (lang.ld l)
  determined : Determined lang
  ahead : ∀ l, Ahead k (lang.ld l)
  within : ∀ t, ExpandsWithin lang t
  moved : ExpandsMoved lang
  atStart : ExpandsAtStart lang

/-- An edit: at `start`, `removed` characters are replaced with `ins`. -/
structure Edit (α : Type) where
  start : Nat
  removed : Nat
  ins : List α

/-- The text after the edit. -/
def Edit.run (t : List α) (e : Edit α) : List α := t.take e.start ++ e.ins ++ t.drop (e.start + e.removed)

/-- The edits lie inside the text they are applied to. -/
def Fits : List α → List (Edit α) → Prop
  | _, [] => True
  | t, e :: es => e.start + e.removed ≤ t.length ∧ Fits (Edit.run t e) es

/-- The lexer has reached the end of the text after `n` steps. -/
def Finished [DecidableEq α] (lang : Lang α L A ρ) (root : L) (t : List α) (n : Nat) : Prop :=
  (lexRun lang t n (LState.start [root] 0)).2.isNone = true

end Parce.RB

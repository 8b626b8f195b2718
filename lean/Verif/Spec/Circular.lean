import Verif.Spec.Lexer
/-!
# When a chain of targets that are followed without consuming text ends, or is broken
-/
namespace Parce
variable {α L A ρ : Type} [DecidableEq α]

/-- The target that the lexicon, when it is at the top at position `p`, follows there without consuming text. -/
def emptyTarget (lang : Lang α L A ρ) (t : List α) (p : Nat) (l : L) : Option (Target L) :=
  match parseNext lang.noAct (lang.ld l) t (.at p false) with
  | some (tok, _) => if tok.text = [] ∧ tok.pos = p then tok.tgt else none
  | none => none

/-- The stack after following such targets `n` times (none: there is no such target any more). The root is never left. -/
def follow (lang : Lang α L A ρ) (t : List α) (p : Nat) : Nat → List L → Option (List L)
  | 0, s => some s
  | _ + 1, [] => none
  | n + 1, top :: rest =>
    match emptyTarget lang t p top with
    | none => none
    | some tg => follow lang t p n ((clampPop (top :: rest) tg).apply (top :: rest))

/-- The chain ends by itself. -/
def Ends (lang : Lang α L A ρ) (t : List α) (p : Nat) (stack : List L) : Prop :=
  ∃ n, follow lang t p n stack = none

/-- The stack remains below some height in the chain. -/
def StaysLow (lang : Lang α L A ρ) (t : List α) (p : Nat) (stack : List L) : Prop :=
  ∃ B, ∀ n s, follow lang t p n stack = some s → s.length ≤ B

/-- All targets in the chain enter at most one lexicon, and do something. -/
def OneByOne (lang : Lang α L A ρ) (t : List α) (p : Nat) (stack : List L) : Prop :=
  ∀ n top rest tg, follow lang t p n stack = some (top :: rest) → emptyTarget lang t p top = some tg →
    tg.push.length ≤ 1 ∧ (tg.pop = 0 ∨ rest = [] → tg.push ≠ [])

/-- With the given root, all chains end by themselves, or remain below some height, do one thing at a time, and are not at
    the end of the text. -/
def EndsOrCircles (lang : Lang α L A ρ) (t : List α) (root : L) : Prop :=
  ∀ (p : Nat) (stack : List L), p ≤ t.length → stack.getLast? = some root →
    Ends lang t p stack ∨ (p < t.length ∧ StaysLow lang t p stack ∧ OneByOne lang t p stack)

/-- The default of a lexicon. -/
def LexDef.dflt : LexDef α L A ρ → Dflt α L A
  | .empty d => d
  | .literal _ _ _ d => d
  | .regex _ _ _ d => d

/-- Matches of the empty string have no target. -/
def NoEmptyMatchTarget : LexDef α L A ρ → Prop
  | .regex s ma rule _ => ∀ t m, Finds s ma t m → m.start = m.stop → (rule t m).2 = none
  | _ => True

end Parce

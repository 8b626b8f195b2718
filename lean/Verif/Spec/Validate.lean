import Verif.Model.Validate
/-!
# Specification: following default targets

The stack of lexicons, the current lexicon in front. The first lexicon is never removed, as in the lexer.
-/
namespace Parce.Val
variable {L : Type}

/-- The stack after the items of a target; `top` is the lexicon the target belongs to. A negative integer leaves that
    many lexicons, but never the first; a positive one enters the same lexicon again. -/
def enter (top : L) : List (Tgt L) → List L → List L
  | [], st => st
  | .int n :: ts, st =>
    if n < 0 then enter top ts (st.drop (min (-n).toNat (st.length - 1)))
    else enter top ts (List.replicate n.toNat top ++ st)
  | .lex l :: ts, st => enter top ts (l :: st)
  | .bad :: ts, st => enter top ts st

/-- One default target: the stack after it, or nothing if the current lexicon has no default target. -/
def next (dt : L → Option (List (Tgt L))) : List L → Option (List L)
  | [] => none
  | top :: st => (dt top).map (fun target => enter top target (top :: st))

/-- Following default targets from this stack ends. -/
inductive Ends (dt : L → Option (List (Tgt L))) : List L → Prop
  | here {st : List L} : next dt st = none → Ends dt st
  | step {st st' : List L} : next dt st = some st' → Ends dt st' → Ends dt st

end Parce.Val

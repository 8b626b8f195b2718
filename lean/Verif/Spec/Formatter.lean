import Verif.Model.Formatter
import Verif.Spec.Tree
import Verif.Spec.Util
/-!
# Independent specifications for formatting
-/
namespace Parce
variable {α L A F G : Type}

mutual
/-- The tokens of a node with the lexicon of the context they are in. -/
def Node.homes (l : L) : Node α L A → List (L × TokN α A)
  | .tok t => [(l, t)]
  | .ctx m cs => homesL m cs
def homesL (l : L) : List (Node α L A) → List (L × TokN α A)
  | [] => []
  | n :: ns => n.homes l ++ homesL l ns
end

/-- The format of a token: the one for its action; when unparsed text has a format, the base
    format otherwise. -/
def tokFormat (unparsed : Option F) (fc : FCache A F) (a : A) : Option F :=
  if unparsed.isSome then (fc.textformat a).or fc.base else fc.textformat a

/-- Position `p` is in the token. -/
def TokN.has (t : TokN α A) (p : Nat) : Prop := t.pos ≤ p ∧ p < t.stop

/-- `p` is in the range. -/
def inWindow (start : Nat) (stop : Option Nat) (p : Nat) : Prop := start ≤ p ∧ ∀ e, stop = some e → p < e

/-- The token is touched by the range. -/
def TokN.touched (start : Nat) (stop : Option Nat) (u : TokN α A) : Prop :=
  start < u.stop ∧ ∀ e, stop = some e → u.pos < e

/-- The cases for which formatting is right: one theme and a range that touches a token, or the
    whole tree. -/
def FmtOk (c : FCaches A F G) (l : L) (cs : List (Node α L A)) (start : Nat) (stop : Option Nat) : Prop :=
  (c.others = [] ∧ (∀ e, stop = some e → start < e) ∧ ∃ u ∈ toksL cs, u.touched start stop) ∨
  (cs ≠ [] ∧ start = 0 ∧ ∀ e, stop = some e → (Node.ctx l cs).stop ≤ e)

/-- The requested part of the text, `text[start:stop]`. -/
def textWindow (text : List α) (start : Nat) : Option Nat → List α
  | some e => slice text start e
  | none => text.drop start

/-- HTML unescaping. -/
def unescape : List Char → List Char
  | '&' :: 'a' :: 'm' :: 'p' :: ';' :: r => '&' :: unescape r
  | '&' :: 'l' :: 't' :: ';' :: r => '<' :: unescape r
  | '&' :: 'g' :: 't' :: ';' :: r => '>' :: unescape r
  | '&' :: 'q' :: 'u' :: 'o' :: 't' :: ';' :: r => '"' :: unescape r
  | c :: r => c :: unescape r
  | [] => []

/-- Every `&` begins an entity. -/
def AmpOk (entities : List (List Char)) (s : List Char) : Prop :=
  ∀ i, s[i]? = some '&' → ∃ e ∈ entities, e <+: s.drop i

/-- Removes everything from a `<` to the next `>`. -/
def stripTags : (inTag : Bool) → List Char → List Char
  | _, [] => []
  | false, c :: r => if c = '<' then stripTags true r else c :: stripTags false r
  | true, c :: r => if c = '>' then stripTags false r else stripTags true r

end Parce

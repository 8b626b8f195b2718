import Verif.Model.Re
/-!
# Actions for the groups of a match

Model of `SubgroupAction` (`bygroup`, `rule.py:423-441`), on top of the expressions of `Model/Re.lean`.
-/
namespace Parce
variable {α L A : Type} [DecidableEq α]

/-- `m.start(i)` and `m.end(i)`, relative to the start of the match: what the group captured last. `none` for
    a group that did not take part. -/
def groupOf (caps : Caps) (i : Nat) : Option (Nat × Nat) := (caps.find? (fun c => c.1 == i)).map (·.2)

/-- The lexeme of one group, `ruleitem.py:383`, `lexer.py:174-183`; `skip` tells which actions yield nothing. (Other
    dynamic actions for a group are not modelled.) -/
def groupLexeme (skip : A → Bool) (tok : Tok α L A RM) (caps : Caps) (i : Nat) (a : A) : List (Lexeme α A) :=
  match groupOf caps i with
  | none => []
  | some (s, e) =>
    if skip a then []
    else if slice tok.text s e = [] then []
    else [⟨tok.pos + s, slice tok.text s e, a⟩]

/-- `SubgroupAction.replace`, `ruleitem.py:381-383`. The numbers of the groups begin after the group of the rule
    itself (`match.lastindex`). (Without a match, in a default action, Python raises AttributeError; here there are no
    lexemes.) -/
def groupLexemes (skip : A → Bool) (tok : Tok α L A RM) (as : List A) : List (Lexeme α A) :=
  match tok.mtch with
  | none => []
  | some m => (as.zipIdx 1).flatMap (fun x => groupLexeme skip tok m.rest.caps x.2 x.1)

/-- A language of compiled lexicons, in which an action may stand for the actions of the groups of the match. -/
def grpLang (noAct : A) (skip : A → Bool) (groups : A → Option (List A)) (consume : L → Bool) (rules : L → List (PRule α L A))
    (d : L → Dflt α L A) : Lang α L A RM where
  ld l := compile noAct (rules l) (d l)
  consume := consume
  expand tok := match groups tok.act with
    | some as => groupLexemes skip tok as
    | none => if skip tok.act then [] else [⟨tok.pos, tok.text, tok.act⟩]
  noAct := noAct

end Parce

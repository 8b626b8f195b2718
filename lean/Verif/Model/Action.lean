import Verif.Model.ReGroup
/-!
# Dynamic actions

Model of `Lexer.filter_actions` (`lexer.py:174-183`), `SubgroupAction` and `DelegateAction`
(`ruleitem.py:359-425`) and `SkipAction`, on top of the expressions of `Model/Re.lean`.
-/
namespace Parce
variable {α L A : Type}

/-- An action. -/
inductive Act (α L A : Type) where
  /-- an action that is not dynamic -/
  | plain (a : A)
  /-- `skip` -/
  | skip
  /-- `bygroup(...)`, `rule.py:423-441` -/
  | groups (as : List (Act α L A))
  /-- `using(lexicon)`, `rule.py:444-456` -/
  | lexicon (l : L)
  /-- another rule item: evaluated with the text (None for a group that did not take part) and the match, it
      gives a list of actions -/
  | dyn (f : Option (List α) → List (Nat × List α) → List (Act α L A))

/-- The text of the groups of the match, the last one first. -/
def Tok.groupTexts (tok : Tok α L (Act α L A) RM) : List (Nat × List α) :=
  match tok.mtch with
  | none => []
  | some m => m.rest.caps.map (fun c => (c.1, slice tok.text c.2.1 c.2.2))

mutual

/-- `filter_actions(action, p, w, match)`, `lexer.py:174-183`. `none` is an exception: there is no match for `bygroup`,
    or the text for `using` is None. `sub` is what lexing a text with a lexicon gives. -/
def filterAct (sub : L → List α → List (Lexeme α (Act α L A))) (tok : Tok α L (Act α L A) RM) (p : Nat) (w : Option (List α)) :
    Act α L A → Option (List (Lexeme α (Act α L A)))
  | .plain a => match w with
    | some (c :: w) => some [⟨p, c :: w, .plain a⟩]
    | _ => some []
  | .skip => some []
  | .groups as => match tok.mtch with
    | some m => filterGroups sub tok m.rest.caps 1 as
    | none => none
  | .lexicon l => w.map (fun w => (sub l w).map (fun x => { x with pos := p + x.pos }))
  | .dyn f => filterAll sub tok p w (f w tok.groupTexts)

/-- The loop of `SubgroupAction.replace`, `ruleitem.py:381-383`, from group `i` on. (For a group that did not take part
    the position is -1; here it is 0, it is not used.) -/
def filterGroups (sub : L → List α → List (Lexeme α (Act α L A))) (tok : Tok α L (Act α L A) RM) (caps : Caps) (i : Nat) :
    List (Act α L A) → Option (List (Lexeme α (Act α L A)))
  | [] => some []
  | a :: as =>
    let x := match groupOf caps i with
      | some (s, e) => filterAct sub tok (tok.pos + s) (some (slice tok.text s e)) a
      | none => filterAct sub tok 0 none a
    match x, filterGroups sub tok caps (i + 1) as with
    | some x, some y => some (x ++ y)
    | _, _ => none

/-- The loop `lexer.py:180-181`. -/
def filterAll (sub : L → List α → List (Lexeme α (Act α L A))) (tok : Tok α L (Act α L A) RM) (p : Nat) (w : Option (List α)) :
    List (Act α L A) → Option (List (Lexeme α (Act α L A)))
  | [] => some []
  | a :: as => match filterAct sub tok p w a, filterAll sub tok p w as with
    | some x, some y => some (x ++ y)
    | _, _ => none

end

/-- `event()`, `lexer.py:126-133`, for a token with a text that is not empty; `none` is an exception. (A dynamic action that
    is not an `ActionItem` was evaluated before.) -/
def tokLexemes (sub : L → List α → List (Lexeme α (Act α L A))) (tok : Tok α L (Act α L A) RM) :
    Option (List (Lexeme α (Act α L A))) := filterAct sub tok tok.pos (some tok.text) tok.act

/-- The rules and the properties of the lexicons of a language. -/
structure ActDef (α L A : Type) where
  rules : L → List (PRule α L (Act α L A))
  dflt : L → Dflt α L (Act α L A)
  consume : L → Bool
  noAct : Act α L A

/-- A language with dynamic actions. For `using` another lexer is started (`ruleitem.py:416-419`), on the text alone, that
    makes up to `fuel` steps; such lexers may be nested `depth` times. A token for which an exception is raised has no
    lexemes here. -/
def actLang [DecidableEq α] (D : ActDef α L A) (fuel : List α → Nat) : (depth : Nat) → Lang α L (Act α L A) RM
  | 0 =>
    { ld := fun l => compile D.noAct (D.rules l) (D.dflt l)
      consume := D.consume
      expand := fun tok => (tokLexemes (fun _ _ => []) tok).getD []
      noAct := D.noAct }
  | depth + 1 =>
    { ld := fun l => compile D.noAct (D.rules l) (D.dflt l)
      consume := D.consume
      expand := fun tok => (tokLexemes (fun l w =>
        (lexRun (actLang D fuel depth) w (fuel w) (LState.start [l] 0)).1.flatMap (·.lexemes)) tok).getD []
      noAct := D.noAct }

end Parce

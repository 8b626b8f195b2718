import Verif.Model.RuleItem
import Verif.Model.Validate

/-!
# Model of `LexiconValidator`, parce/validate.py:31-113

The rules are those of `lexicon.rules` (`lexicon.py:219-227`), which are tuples always, as `pre_evaluate_rule` makes tuples; so the
first test in the loop of `validate`, whether a rule is a tuple or list, is left out. The messages are values here and no
texts. Regular expressions and lexicons are parameters.
-/
namespace Parce.VL

open Parce.RI

/-- What is used of the other parts: `isLex` is `isinstance(v, Lexicon)`, `defAct` and `defTgt` are
    `parce.default_action` and `parce.default_target`, `compile v` is `none` when `re.compile` raises, and otherwise
    whether the pattern matches the empty text; `truthy` is `bool(o)`; `check` is
    `check_default_target`, `validate.py:115-173` (Model/Validate). -/
structure Env (V : Type) where
  py : Py V
  marks : Marks V
  isLex : V → Bool
  defAct : V
  defTgt : V
  compile : V → Option Bool
  truthy : Itm V → Bool
  check : List (Itm V) → Val.Outcome

/-- The errors. -/
inductive Error (V : Type) where
  | short (n : Nat)
  | twoActions (n : Nat)
  | twoTargets (n : Nat)
  | pattern (n : Nat)
  | target (n : Nat) (t : Itm V)
  | default (o : Val.Outcome)
  | both

/-- The warnings. -/
inductive Warning where
  | isNone (n : Nat)
  | repeated (n : Nat)
  | emptyMatch (n : Nat)
  | circular
deriving DecidableEq

variable {V : Type}

/-- The state of `validate`: the lists stand for the sets. -/
structure St (V : Type) where
  act : Option (Itm V) := none
  tgt : Option (List (Itm V)) := none
  patterns : List V := []
  errors : List (Error V) := []
  warnings : List Warning := []

/-- `isinstance(target, (int, Lexicon))` -/
def Env.isTarget (env : Env V) : Itm V → Bool
  | .val v => (env.py.asInt v).isSome || env.isLex v
  | _ => false

variable [DecidableEq V]

/-- `target is a_number` -/
def Env.isNumber (env : Env V) : Itm V → Bool
  | .val v => decide (v = env.marks.number)
  | _ => false

/-- `validate_rule`, `validate.py:102-113`: the errors. `none` is an exception. -/
def validateRule (env : Env V) (n : Nat) (rule : List (Itm V)) : Option (List (Error V)) :=
  (variations env.py env.marks rule).map (fun paths => paths.flatMap (fun path =>
    (path.drop 1).filterMap (fun t => if !env.isNumber t && !env.isTarget t then some (Error.target n t) else none)))

/-- `validate_pattern`, `validate.py:92-100`: the errors and the warnings. Anything else than a text gives a `TypeError`. -/
def validatePattern (env : Env V) (n : Nat) : Itm V → List (Error V) × List Warning
  | .val v => match env.compile v with
    | none => ([.pattern n], [])
    | some true => ([], [.emptyMatch n])
    | some false => ([], [])
  | _ => ([.pattern n], [])

/-- `pattern is symbol` -/
def isSym (s : V) : Itm V → Bool
  | .val v => decide (v = s)
  | _ => false

/-- `pattern in patterns`: items are other objects always. -/
def seen (ps : List V) : Itm V → Bool
  | .val v => decide (v ∈ ps)
  | _ => false

/-- `patterns.add(pattern)` -/
def remember (ps : List V) : Itm V → List V
  | .val v => v :: ps
  | _ => ps

/-- The messages of `check_default_target`. -/
def defaultErrors : Val.Outcome → List (Error V)
  | .badItem => [.default .badItem]
  | .invalid => [.default .invalid]
  | .circularError => [.default .circularError]
  | _ => []

def defaultWarnings : Val.Outcome → List Warning
  | .circularWarning => [.circular]
  | _ => []

/-- A rule with a pattern and an action, `validate.py:66-86`. -/
def stepRule (env : Env V) (n : Nat) (st : St V) (p a : Itm V) (ts : List (Itm V)) : Option (St V) :=
  if isSym env.defAct p then
    if st.act.any env.truthy then some ⟨st.act, st.tgt, st.patterns, st.errors ++ [.twoActions n], st.warnings⟩
    else some ⟨some a, st.tgt, st.patterns, st.errors, st.warnings⟩
  else if isSym env.defTgt p then
    if st.tgt.isSome then some ⟨st.act, st.tgt, st.patterns, st.errors ++ [.twoTargets n], st.warnings⟩
    else some ⟨st.act, some (a :: ts), st.patterns, st.errors ++ defaultErrors (env.check (a :: ts)),
      st.warnings ++ defaultWarnings (env.check (a :: ts))⟩
  else
    match validateRule env n (a :: ts) with
    | none => none
    | some es =>
      if p.none? env.py then
        some ⟨st.act, st.tgt, st.patterns, st.errors ++ es, st.warnings ++ [.isNone n]⟩
      else
        some ⟨st.act, st.tgt, remember st.patterns p, st.errors ++ ((validatePattern env n p).1 ++ es),
          st.warnings ++ ((validatePattern env n p).2 ++ if seen st.patterns p then [.repeated n] else [])⟩

/-- One turn of the loop, `validate.py:60-86`. -/
def step (env : Env V) (n : Nat) (st : St V) : List (Itm V) → Option (St V)
  | [] => some ⟨st.act, st.tgt, st.patterns, st.errors ++ [.short n], st.warnings⟩
  | [_] => some ⟨st.act, st.tgt, st.patterns, st.errors ++ [.short n], st.warnings⟩
  | p :: a :: ts => stepRule env n st p a ts

/-- The loop, with the number of the next rule. -/
def run (env : Env V) : Nat → St V → List (List (Itm V)) → Option (St V)
  | _, st, [] => some st
  | n, st, r :: rs => match step env n st r with
    | none => none
    | some st' => run env (n + 1) st' rs

/-- The end of `validate`, `validate.py:88-89`. -/
def finish (env : Env V) (st : St V) : List (Error V) :=
  if st.act.any env.truthy && st.tgt.isSome then st.errors ++ [.both] else st.errors

/-- `validate`, `validate.py:48-90`: the errors and the warnings; it returns `True` if there are no errors. `none` is an
    exception. -/
def validate (env : Env V) (rules : List (List (Itm V))) : Option (List (Error V) × List Warning) :=
  (run env 1 {} rules).map (fun st => (finish env st, st.warnings))

/-- The loop of `Lexicon._get_parse_function`, `lexicon.py:269-283`: the numbers of the rules that are used when the pattern
    matches. (A rule without a pattern raises there; it is left out here, and an error for `validate`.) -/
def usedGo (env : Env V) : Nat → List V → List (List (Itm V)) → List Nat
  | _, _, [] => []
  | n, ps, r :: rs =>
    match r with
    | [] => usedGo env (n + 1) ps rs
    | p :: rule =>
      if isSym env.defAct p then usedGo env (n + 1) ps rs
      else if isSym env.defTgt p then usedGo env (n + 1) ps rs
      else if !rule.isEmpty && !p.none? env.py && !seen ps p then n :: usedGo env (n + 1) (remember ps p) rs
      else usedGo env (n + 1) ps rs

def used (env : Env V) (rules : List (List (Itm V))) : List Nat := usedGo env 1 [] rules

end Parce.VL

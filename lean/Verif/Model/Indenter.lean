import Verif.Model.Indent

/-!
# The indenter that uses the indenters of languages (parce/indent.py:316-372), and the one of CSS
(parce/lang/css.py:301-309)

`T` are tokens, `G` languages.
-/
namespace Parce.Ind

variable {α T G : Type}

/-- `indenter = self.get_indent(curlang)`, `if indenter: yield from indenter.events(...)`
(indent.py:341-343). -/
def runEvents (get : G → Option (List T → List (Ev α))) (l : G) (ts : List T) : List (Ev α) :=
  match get l with
  | some f => f ts
  | none => []

/-- The loop of `Indenter.indent_events` (indent.py:338-348); `run` is `tokens[i:j]`. -/
def runLoop [DecidableEq G] (lang : T → G) (get : G → Option (List T → List (Ev α))) : (cur : G) → (run : List T) → List T → List (Ev α)
  | cur, run, [] => runEvents get cur run
  | cur, run, t :: ts =>
    if lang t ≠ cur then runEvents get cur run ++ runLoop lang get (lang t) [t] ts
    else runLoop lang get cur (run ++ [t]) ts

/-- `Indenter.indent_events` (indent.py:332-348), for the tokens of the block. The indenters of languages
do not look at the block and the previous indents here. -/
def indentEvents [DecidableEq G] (lang : T → G) (get : G → Option (List T → List (Ev α))) : List T → List (Ev α)
  | [] => []
  | t :: ts => runLoop lang get (lang t) [t] ts

/-- `CssIndent.events` (lang/css.py:303-309); `bracket` is whether the action is Bracket. -/
def cssEvents (bracket : T → Bool) (text : T → List Char) : List T → List (Ev α)
  | [] => []
  | t :: ts =>
    (if bracket t then (if text t = ['{'] then [.indent] else if text t = ['}'] then [.dedent] else []) else []) ++
      cssEvents bracket text ts

end Parce.Ind

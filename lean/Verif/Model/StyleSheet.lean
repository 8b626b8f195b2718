/-
Style sheets that import others: `parce/css.py:117-360` (`StyleSheet`).

Names of files (`F`) and style rules (`R`) are of any type. What is in the files, and how the name of an imported file is
combined with the directory of the importing one, is a parameter (`Env`). `from_css` and what it calls has a depth, as Python
has a recursion limit. A file name that is the empty string is `none`. The keyword that is no string (None) is the empty string.
-/

namespace Parce.Sheet
variable {F R : Type}

/-- What can be in the contents of an at-rule, `css.py:1125-1164`: a `Value` with a text or a url (none: None, or the empty
    string), or a string (the text of a delimiter or keyword). -/
inductive Val (F : Type)
  | value (text url : Option F)
  | str
deriving DecidableEq

/-- What `CssTransform.root` yields, `css.py:843-855`: a `Rule`, an `Atrule` without block or with a block of declarations,
    or an `Atrule` that has rules nested. -/
inductive Node (F R : Type)
  | rule (r : R)
  | «at» (kw : String) (contents : List (Val F))
  | nested (kw : String) (contents : List (Val F)) (block : List (Node F R))

/-- What can be in `StyleSheet.rules`, `css.py:120-133`: a `Rule`, an `Atrule`, or a `Condition`, with its style sheet
    (its filename, its imported filenames and its rules, `css.py:148-152`). -/
inductive Entry (F R : Type)
  | rule (r : R)
  | «at» (kw : String) (contents : List (Val F))
  | cond (kw : String) (contents : List (Val F)) (filename : Option F) (imported : List F) (rules : List (Entry F R))

/-- A `StyleSheet`, `css.py:146-152`. -/
structure StyleSheet (F R : Type) where
  filename : Option F
  imported : List F
  rules : List (Entry F R)

/-- The exceptions. -/
inductive Err
  | nameError
  | attributeError
  | osError
  | recursionError
deriving DecidableEq

/-- The files that can be loaded, and `os.path.join(os.path.dirname(filename), fname)`. -/
structure Env (F R : Type) where
  fs : F → Option (List (Node F R))
  join : Option F → F → F

/-- `from_css` as it is called: file name, `allow_import`, structure. -/
abbrev From (F R : Type) := Option F → Bool → List (Node F R) → Except Err (StyleSheet F R)

variable [DecidableEq F]

/-- `get_import_rules`, `css.py:227-250`; gives the rules and the set `filenames`. There is no variable `self` in the function
    (line 248). A string has no attribute `url` (line 235). -/
def importRules (fromCss : From F R) (env : Env F R) (filename : Option F) (allow : Bool) (filenames : List (Option F)) :
    List (Val F) → Except Err (List (Entry F R) × List (Option F))
  | [] => .ok ([], filenames)
  | .str :: _ => .error .attributeError
  | .value text url :: values =>
    match text.or url with
    | none => importRules fromCss env filename allow filenames values
    | some name =>
      if some (env.join filename name) ∈ filenames then .ok ([], filenames)
      else match env.fs (env.join filename name) with
        | none => .error .osError
        | some icss =>
          if values = [] then .error .nameError
          else match fromCss (some (env.join filename name)) allow icss with
            | .error e => .error e
            | .ok s => .ok ([.cond "import" values s.filename s.imported s.rules], some (env.join filename name) :: filenames)

/-- `get_rules`, `css.py:252-273`. A nested block is read without file name and with imports allowed, line 271. -/
def getRules (fromCss : From F R) (env : Env F R) (filename : Option F) (allow : Bool) :
    List (Option F) → List (Node F R) → Except Err (List (Entry F R))
  | _, [] => .ok []
  | fs, .rule r :: css =>
    match getRules fromCss env filename allow fs css with
    | .error e => .error e
    | .ok es => .ok (.rule r :: es)
  | fs, .at kw vs :: css =>
    if kw = "import" then
      if allow then
        match importRules fromCss env filename allow fs vs with
        | .error e => .error e
        | .ok (is, fs') =>
          match getRules fromCss env filename allow fs' css with
          | .error e => .error e
          | .ok es => .ok (is ++ es)
      else getRules fromCss env filename allow fs css
    else
      match getRules fromCss env filename allow fs css with
      | .error e => .error e
      | .ok es => .ok (.at kw vs :: es)
  | fs, .nested kw vs block :: css =>
    if kw = "import" then
      if allow then
        match importRules fromCss env filename allow fs vs with
        | .error e => .error e
        | .ok (is, fs') =>
          match getRules fromCss env filename allow fs' css with
          | .error e => .error e
          | .ok es => .ok (is ++ es)
      else getRules fromCss env filename allow fs css
    else
      match fromCss none true block with
      | .error e => .error e
      | .ok s =>
        match getRules fromCss env filename allow fs css with
        | .error e => .error e
        | .ok es => .ok (.cond kw vs s.filename s.imported s.rules :: es)

/-- `from_css`, `css.py:216-275`, up to a depth of calls. -/
def fromCss (env : Env F R) : Nat → From F R
  | 0, _, _, _ => .error .recursionError
  | n + 1, filename, allow, css =>
    match getRules (fromCss env n) env filename allow [filename] css with
    | .error e => .error e
    | .ok es => .ok ⟨filename, [], es⟩

mutual
/-- The rules that `style` sorts, `css.py:336-341`: those behind conditions are let through. -/
def Entry.styles : Entry F R → List R
  | .rule r => [r]
  | .at _ _ => []
  | .cond _ _ _ _ rs => styles rs
/-- The same for a list of rules. -/
def styles : List (Entry F R) → List R
  | [] => []
  | e :: es => e.styles ++ styles es
end

mutual
/-- `at`, `css.py:347-360`: the at-rules. -/
def Entry.atrules : Entry F R → List (String × List (Val F))
  | .rule _ => []
  | .at kw vs => [(kw, vs)]
  | .cond _ _ _ _ rs => atrules rs
/-- The same for a list of rules. -/
def atrules : List (Entry F R) → List (String × List (Val F))
  | [] => []
  | e :: es => e.atrules ++ atrules es
end

/-- The test in `filter_conditions`, `css.py:306-310`. -/
def keep (kw : String) (pred : Entry F R → Bool) (e : Entry F R) : Bool :=
  match e with
  | .cond k _ _ _ _ => if k = kw then pred e else true
  | _ => true

/-- `filter_conditions`, `css.py:283-310`, with `style_query`, `css.py:109-114`: the new style sheet has no file name. -/
def StyleSheet.filterConditions (s : StyleSheet F R) (kw : String) (pred : Entry F R → Bool) : StyleSheet F R :=
  ⟨none, [], s.rules.filter (keep kw pred)⟩

mutual
/-- `get_filenames` for a rule of a style sheet, `css.py:323-325`. -/
def Entry.importedNames : Entry F R → List F
  | .cond kw _ fn im rs => if kw = "import" then fn.toList ++ im ++ importedNames rs else []
  | .rule _ => []
  | .at _ _ => []
/-- The same for a list of rules. -/
def importedNames : List (Entry F R) → List F
  | [] => []
  | e :: es => e.importedNames ++ importedNames es
end

/-- `filenames`, `css.py:312-326`. -/
def StyleSheet.filenames (s : StyleSheet F R) : List F := s.filename.toList ++ s.imported ++ importedNames s.rules

end Parce.Sheet

import Verif.Model.StyleSheet
/-!
# What a style sheet that imports others stands for
-/
namespace Parce.Sheet
variable {F R : Type}

/-- The file that an `@import` names: the first value with a text or a url. -/
def named : List (Val F) → Option F
  | [] => none
  | .value text url :: vs => match text.or url with
    | none => named vs
    | some f => some f
  | .str :: vs => named vs

/-- What follows the name of the file: the media query. -/
def media : List (Val F) → List (Val F)
  | [] => []
  | .value text url :: vs => match text.or url with
    | none => media vs
    | some _ => vs
  | .str :: vs => media vs

/-- No string comes before the name of the file. -/
def NoStr : List (Val F) → Prop
  | [] => True
  | .value text url :: vs => match text.or url with
    | none => NoStr vs
    | some _ => True
  | .str :: _ => False

/-- The rules that a style sheet stands for: at an `@import`, those of the file come in. The name of a file is seen from the
    importing file; in a nested block there is no file. -/
inductive Expands (env : Env F R) : Option F → List (Node F R) → List R → Prop
  | nil {fn} : Expands env fn [] []
  | rule {fn r css l} (h : Expands env fn css l) : Expands env fn (.rule r :: css) (r :: l)
  | «at» {fn kw vs css l} (hk : kw ≠ "import") (h : Expands env fn css l) : Expands env fn (.at kw vs :: css) l
  | nested {fn kw vs block css l1 l2} (hk : kw ≠ "import") (hb : Expands env none block l1) (h : Expands env fn css l2) :
      Expands env fn (.nested kw vs block :: css) (l1 ++ l2)
  | nothing {fn vs css l} (hn : named vs = none) (h : Expands env fn css l) : Expands env fn (.at "import" vs :: css) l
  | «import» {fn vs f icss css l1 l2} (hn : named vs = some f) (hf : env.fs (env.join fn f) = some icss)
      (hi : Expands env (some (env.join fn f)) icss l1) (h : Expands env fn css l2) :
      Expands env fn (.at "import" vs :: css) (l1 ++ l2)

/-- The contents of the imports of a style sheet (not those in nested blocks). -/
def imports : List (Node F R) → List (List (Val F))
  | [] => []
  | .at kw vs :: css => if kw = "import" then vs :: imports css else imports css
  | .rule _ :: css => imports css
  | .nested _ _ _ :: css => imports css

/-- The nested blocks of a style sheet. -/
def blocks : List (Node F R) → List (List (Node F R))
  | [] => []
  | .nested _ _ block :: css => block :: blocks css
  | .rule _ :: css => blocks css
  | .at _ _ :: css => blocks css

/-- The names of the imported files. -/
def importNames (env : Env F R) (fn : Option F) (css : List (Node F R)) : List F :=
  (imports css).filterMap fun vs => (named vs).map (env.join fn)

/-- All imports have a media query after the name and nothing odd before it, and they name different files, and not the file itself;
    also in nested blocks. -/
inductive Fine (env : Env F R) : Option F → List (Node F R) → Prop
  | mk {fn css} (hq : ∀ vs ∈ imports css, NoStr vs ∧ (named vs ≠ none → media vs ≠ [])) (hd : (importNames env fn css).Nodup)
      (hs : ∀ f ∈ importNames env fn css, fn ≠ some f) (hb : ∀ b ∈ blocks css, Fine env none b) : Fine env fn css

mutual
/-- The style rules in a rule: those in a nested block count. -/
def Node.ownRules : Node F R → List R
  | .rule r => [r]
  | .at _ _ => []
  | .nested _ _ block => ownRules block
/-- The rules of the style sheet itself, including those in nested blocks. -/
def ownRules : List (Node F R) → List R
  | [] => []
  | n :: css => n.ownRules ++ ownRules css
end

mutual
/-- A rule is no import and has no import nested. -/
def Node.NoImport : Node F R → Prop
  | .rule _ => True
  | .at kw _ => kw ≠ "import"
  | .nested kw _ block => kw ≠ "import" ∧ NoImport block
/-- There is no import, nested or not; and only at-rules other than `@import` have nested rules. -/
def NoImport : List (Node F R) → Prop
  | [] => True
  | n :: css => n.NoImport ∧ NoImport css
end

/-- There is no import in a nested block. -/
def NoNestedImport : List (Node F R) → Prop
  | [] => True
  | .rule _ :: css => NoNestedImport css
  | .at _ _ :: css => NoNestedImport css
  | .nested kw _ block :: css => kw ≠ "import" ∧ NoImport block ∧ NoNestedImport css

end Parce.Sheet

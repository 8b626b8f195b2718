import Verif.Model.Css

/-
What selectors mean, and which declaration wins.
-/

namespace Parce.Css

variable {α : Type}

/-- `w` is one of the words of `s`, that are separated by white space. -/
def IsWord (space : α → Bool) (w s : List α) : Prop :=
  w ≠ [] ∧ (∀ c ∈ w, space c = false) ∧ ∃ a b, s = a ++ w ++ b ∧
    (∀ c, a.getLast? = some c → space c = true) ∧ ∀ c, b.head? = some c → space c = true

/-- The value of an attribute. -/
def HasAttr (e : El α) (k v : List α) : Prop :=
  ∃ a b, e.attrs = a ++ (k, v) :: b ∧ ∀ x ∈ a, x.1 ≠ k

/-- The meaning of the operators, for a text that is not empty. -/
def AOp.Holds (env : Env α) (text value : List α) : AOp → Prop
  | .eq => value = text
  | .incl => IsWord env.space text value
  | .dash => value = text ∨ text ++ [env.dash] <+: value
  | .pre => text <+: value
  | .suf => text <:+ value
  | .sub => text <:+: value

/-- An element is at this place. -/
def IsEl (root : El α) (p : List Nat) : Prop := ∃ e, root.at p = some e

/-- The pseudo classes. -/
def Pseudo.Holds (root : El α) (p : List Nat) (e : El α) : Pseudo → Prop
  | .firstChild => ∀ q i, p ≠ q ++ [i + 1]
  | .lastChild => ∀ q i, p = q ++ [i] → ¬ IsEl root (q ++ [i + 1])
  | .onlyChild => (∀ q i, p ≠ q ++ [i + 1]) ∧ ∀ q i, p = q ++ [i] → ¬ IsEl root (q ++ [i + 1])
  | .firstOfType => ∀ q i j f, p = q ++ [i] → j < i → root.at (q ++ [j]) = some f → f.name ≠ e.name
  | .lastOfType => ∀ q i j f, p = q ++ [i] → i < j → root.at (q ++ [j]) = some f → f.name ≠ e.name
  | .empty => e.kids = []

/-- The meaning of an attribute selector: the attribute is there, and if there is an operator with a
    text, it holds. -/
def AttrSel.Holds (env : Env α) (e : El α) (s : AttrSel α) : Prop :=
  ∃ v, HasAttr e s.attr v ∧ ∀ op text, s.op = some op → s.text = some text →
    (if s.ci = true then op.Holds env (env.lower text) (env.lower v) else op.Holds env text v)

/-- The meaning of a compound selector for the element at `p`. -/
def Compound.Holds (env : Env α) (root : El α) (p : List Nat) (c : Compound α) : Prop :=
  ∃ e, root.at p = some e ∧
    (∀ x ∈ c.classes, ∃ v, HasAttr e env.classAttr v ∧ IsWord env.space x v) ∧
    (∀ x ∈ c.names, e.name = x) ∧
    (∀ x ∈ c.ids, HasAttr e env.idAttr x) ∧
    (∀ s ∈ c.attrs, s.Holds env e) ∧
    (∀ x ∈ c.pclasses, (∀ k, env.dispatch x = some k → k.Holds root p e) ∧ (env.dispatch x = none → x ∈ e.pclasses)) ∧
    ∀ x ∈ c.pelems, x ∈ e.pelems

/-- The element at `q` is in relation to the one at `p`: parent, ancestor, previous sibling, or an earlier
    sibling. There is no meaning for `||`. -/
def Comb.Rel (q p : List Nat) : Comb → Prop
  | .child => ∃ i, p = q ++ [i]
  | .desc => ∃ s, s ≠ [] ∧ p = q ++ s
  | .adj => ∃ r i, q = r ++ [i] ∧ p = r ++ [i + 1]
  | .sib => ∃ r i j, i < j ∧ q = r ++ [i] ∧ p = r ++ [j]
  | .col => False

/-- Elements can be chosen for all selectors to the left. -/
def Chain (env : Env α) (root : El α) : List Nat → List (Comb × Compound α) → Prop
  | _, [] => True
  | p, (o, c) :: rest => ∃ q, o.Rel q p ∧ c.Holds env root q ∧ Chain env root q rest

/-- The meaning of a complex selector. -/
def Complex.Holds (env : Env α) (root : El α) (p : List Nat) (s : Complex α) : Prop :=
  s.last.Holds env root p ∧ Chain env root p s.rest

/-- Every text of an attribute selector is not empty. -/
def Compound.Texts (c : Compound α) : Prop := ∀ s ∈ c.attrs, s.text ≠ some []

/-- The parts of a complex selector. -/
def Complex.parts (s : Complex α) : List (Compound α) := s.last :: s.rest.map (·.2)

/-- The parser reads no combinator `||`, no `*` alone, and no empty text. -/
def Complex.Plain (s : Complex α) : Prop :=
  (∀ c ∈ s.parts, c.isEmpty = false ∧ c.Texts) ∧ ∀ x ∈ s.rest, x.1 ≠ .col

/-- To the left of a descendant combinator there are only descendant combinators, and the combinator to
    the left of `~` is not `+`. -/
def NoBack : List (Comb × Compound α) → Prop
  | (o, _) :: (o', c') :: rest =>
    (o = .desc → o' = .desc) ∧ (o = .sib → o' ≠ .adj) ∧ NoBack ((o', c') :: rest)
  | _ => True

/-- A list of selectors with an operator between every two. -/
def Alternates : List (SItem α) → Prop
  | [.sel _] => True
  | .sel _ :: .op _ :: l => Alternates l
  | _ => False

/-- Specificities are compared from left to right. -/
def SpecLt (a b : Nat × Nat × Nat) : Prop :=
  a.1 < b.1 ∨ (a.1 = b.1 ∧ (a.2.1 < b.2.1 ∨ (a.2.1 = b.2.1 ∧ a.2.2 < b.2.2)))

/-- The kinds of simple selectors that count. -/
inductive Kind | id | attr | cls | pclass | name | pelem
deriving DecidableEq

/-- The simple selectors of a compound selector. -/
def Compound.kinds (c : Compound α) : List Kind :=
  c.ids.map (fun _ => .id) ++ c.attrs.map (fun _ => .attr) ++ c.classes.map (fun _ => .cls) ++
    c.pclasses.map (fun _ => .pclass) ++ c.names.map (fun _ => .name) ++ c.pelems.map (fun _ => .pelem)

/-- Those of a selector with combinators. -/
def Complex.kinds (s : Complex α) : List Kind := s.last.kinds ++ s.rest.flatMap (fun x => x.2.kinds)

/-- The specificity as in the CSS standard: ids, then classes with attributes and pseudo classes, then element names
    with pseudo elements. -/
def Complex.spec (s : Complex α) : Nat × Nat × Nat :=
  (s.kinds.count .id, s.kinds.count .cls + s.kinds.count .attr + s.kinds.count .pclass,
   s.kinds.count .name + s.kinds.count .pelem)

/-- The specificity of a rule: that of its most specific selector. -/
def IsSpec (prelude : List (Complex α)) (k : Nat × Nat × Nat) : Prop :=
  (∃ s ∈ prelude, s.spec = k) ∧ ∀ s ∈ prelude, ¬ SpecLt k s.spec

/-- The `i`-th rule matches and declares the property. -/
structure Decl {V : Type} (rules : List (Rule α V)) (sel : Rule α V → Prop) (key : List α) (i : Nat) (val : List V)
    (k : Nat × Nat × Nat) : Prop where
  rule : ∃ r, rules[i]? = some r ∧ sel r ∧ (key, val) ∈ r.props ∧ IsSpec r.prelude k

/-- A declaration is important. -/
def Important {V : Type} (imp : V → Bool) (val : List V) : Prop := ∃ v ∈ val.getLast?, imp v = true

/-- The rule `j` with specificity `k'` goes before the rule `i` with specificity `k`: it is more
    specific, or equally specific and later. -/
def Stronger (j : Nat) (k' : Nat × Nat × Nat) (i : Nat) (k : Nat × Nat × Nat) : Prop :=
  SpecLt k k' ∨ (k = k' ∧ i < j)

end Parce.Css

namespace Parce.Css

variable {α : Type}

/-- The items between the commas. -/
def splitComma : List (PItem α) → List (List (PItem α))
  | [] => [[]]
  | .comma :: is => [] :: splitComma is
  | i :: is => match splitComma is with
    | s :: ss => (i :: s) :: ss
    | [] => [[i]]

/-- The rest of a selector list after a selector; `o` is the first operator after it. -/
def afterSel (o : Option Comb) : List (PItem α) → List (SItem α)
  | [] => []
  | .op o' :: is => afterSel (o.or (some o')) is
  | .sel c :: is => .op (o.getD .desc) :: .sel c :: afterSel none is
  | _ :: is => afterSel o is

/-- The selectors in order; between two selectors is the first operator that was between them, or the
    descendant operator when there was none. -/
def segment : List (PItem α) → List (SItem α)
  | [] => []
  | .sel c :: is => .sel c :: afterSel none is
  | _ :: is => segment is

end Parce.Css

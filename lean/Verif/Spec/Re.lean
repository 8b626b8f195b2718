import Verif.Model.Re
import Verif.Spec.Lexer
import Mathlib.Logic.Relation
/-!
# What regular expressions mean

`a.mat t p q`: the text `t` from `p` to `q` is matched by `a`, regardless of any preference.
-/
namespace Parce
variable {α L A : Type}

/-- The meaning of a regular expression. -/
def Pat.mat (t : List α) : Pat α → Nat → Nat → Prop
  | .eps, p, q => p = q
  | .set f, p, q => q = p + 1 ∧ ∃ x, t[p]? = some x ∧ f x = true
  | .test f, p, q => p = q ∧ f t p = true
  | .cat a b, p, q => ∃ r, a.mat t p r ∧ b.mat t r q
  | .alt a b, p, q => a.mat t p q ∨ b.mat t p q
  | .star a, p, q => Relation.ReflTransGen (a.mat t) p q
  | .lazy a, p, q => Relation.ReflTransGen (a.mat t) p q
  | .grp _ a, p, q => a.mat t p q
  | .look false a, p, q => p = q ∧ ∃ r, a.mat t p r
  | .look true a, p, q => p = q ∧ ∀ r, ¬ a.mat t p r

/-! ### Which of the matches is taken -/

/-- The way a match comes about. -/
inductive Way where
  | unit
  | both (a b : Way)
  | left (a : Way)
  | right (b : Way)
  /-- the end of a loop, which is lazy or not -/
  | stop (lz : Bool)
  /-- another round of a loop, and then the rest -/
  | more (lz : Bool) (a rest : Way)

/-- The first one is preferred to the second: the first choice where they differ decides. The left
    alternative is preferred to the right one, and another round of a loop to the end of it, unless
    it is lazy. -/
inductive Way.Pref : Way → Way → Prop
  | fst {a a' b b' : Way} : Pref a a' → Pref (.both a b) (.both a' b')
  | snd {a b b' : Way} : Pref b b' → Pref (.both a b) (.both a b')
  | alt (a b : Way) : Pref (.left a) (.right b)
  | left {a a' : Way} : Pref a a' → Pref (.left a) (.left a')
  | right {a a' : Way} : Pref a a' → Pref (.right a) (.right a')
  | greedy (a r : Way) : Pref (.more false a r) (.stop false)
  | lazy (a r : Way) : Pref (.stop true) (.more true a r)
  | round {lz : Bool} {a a' r r' : Way} : Pref a a' → Pref (.more lz a r) (.more lz a' r')
  | rest {lz : Bool} {a r r' : Way} : Pref r r' → Pref (.more lz a r) (.more lz a r')

/-- The ways through a loop, of which each round matches something. -/
inductive Rounds (lz : Bool) (R : Nat → Way → Nat → Caps → Prop) : Nat → Way → Nat → Caps → Prop
  | stop (p : Nat) : Rounds lz R p (.stop lz) p []
  | more {p r q : Nat} {a x : Way} {c c' : Caps} : R p a r c → p < r → Rounds lz R r x q c' →
    Rounds lz R p (.more lz a x) q (c' ++ c)

/-- The expression matches from `p` to `q` in the way `x`, and the groups that are closed
    on the way are `c` (the last one first). A look-ahead has the groups of its preferred match. -/
def Pat.way (t : List α) : Pat α → Nat → Way → Nat → Caps → Prop
  | .eps, p, x, q, c => x = .unit ∧ q = p ∧ c = []
  | .set f, p, x, q, c => x = .unit ∧ q = p + 1 ∧ c = [] ∧ ∃ y, t[p]? = some y ∧ f y = true
  | .test f, p, x, q, c => x = .unit ∧ q = p ∧ c = [] ∧ f t p = true
  | .cat a b, p, x, q, c => ∃ y z r c1 c2, x = .both y z ∧ a.way t p y r c1 ∧ b.way t r z q c2 ∧ c = c2 ++ c1
  | .alt a b, p, x, q, c => (∃ y, x = .left y ∧ a.way t p y q c) ∨ ∃ y, x = .right y ∧ b.way t p y q c
  | .star a, p, x, q, c => Rounds false (a.way t) p x q c
  | .lazy a, p, x, q, c => Rounds true (a.way t) p x q c
  | .grp i a, p, x, q, c => ∃ c1, a.way t p x q c1 ∧ c = (i, p, q) :: c1
  | .look false a, p, x, q, c => x = .unit ∧ q = p ∧
      ∃ y r, a.way t p y r c ∧ ∀ y' r' c', a.way t p y' r' c' → y' = y ∨ y.Pref y'
  | .look true a, p, x, q, c => x = .unit ∧ q = p ∧ c = [] ∧ ∀ y' r' c', ¬ a.way t p y' r' c'

/-- Of the matches at `p` with an end that satisfies `P`, the preferred one ends at `q` and has the
    groups `c`. -/
def Pat.First (t : List α) (a : Pat α) (P : Nat → Prop) (p q : Nat) (c : Caps) : Prop :=
  P q ∧ ∃ x, a.way t p x q c ∧ ∀ y q' c', a.way t p y q' c' → P q' → y = x ∨ x.Pref y

/-- One of the patterns matches at `p`. -/
def Starts (pats : List (Pat α)) (t : List α) (p : Nat) : Prop := ∃ a ∈ pats, ∃ q, a.mat t p q

/-- The text `w` can be matched by the expression. -/
def Pat.text (a : Pat α) (w : List α) : Prop := ∃ t p q, a.mat t p q ∧ slice t p q = w

/-- The expression never matches the empty text. -/
def Pat.Consumes (a : Pat α) : Prop := ∀ t p q, a.mat t p q → p < q

/-- Tokens of the lexicon with the same text and action have the same target. -/
def SameLooks (rules : List (PRule α L A)) (d : Dflt α L A) : Prop :=
  ∀ r ∈ rules, ∀ w gs, w ≠ [] → r.pat.text w →
    (∀ r' ∈ rules, ∀ gs', r'.pat.text w → (r.out w gs).1 = (r'.out w gs').1 → (r.out w gs).2 = (r'.out w gs').2) ∧
    (∀ f, d = .action f → (r.out w gs).1 = f w → (r.out w gs).2 = none)

/-- The assertions in the expression look at no more than `j` characters before the position. -/
def Pat.Behind (j : Nat) : Pat α → Prop
  | .eps => True
  | .set _ => True
  | .test f => ∀ (t : List α) (a p : Nat), j ≤ p → a + p ≤ t.length → f t (a + p) = f (t.drop a) p
  | .cat a b => a.Behind j ∧ b.Behind j
  | .alt a b => a.Behind j ∧ b.Behind j
  | .star a => a.Behind j
  | .lazy a => a.Behind j
  | .grp _ a => a.Behind j
  | .look _ a => a.Behind j

/-- The greatest number of characters a match can have, if there is one. -/
def Pat.maxLen : Pat α → Option Nat
  | .eps => some 0
  | .set _ => some 1
  | .test _ => some 0
  | .cat a b => match a.maxLen, b.maxLen with
    | some m, some n => some (m + n)
    | _, _ => none
  | .alt a b => match a.maxLen, b.maxLen with
    | some m, some n => some (max m n)
    | _, _ => none
  | .star _ => none
  | .lazy _ => none
  | .grp _ a => a.maxLen
  | .look _ _ => some 0

/-- The expression always matches. -/
def Pat.always : Pat α → Bool
  | .eps => true
  | .set _ => false
  | .test _ => false
  | .cat a b => a.always && b.always
  | .alt a b => a.always || b.always
  | .star _ => true
  | .lazy _ => true
  | .grp _ a => a.always
  | .look _ _ => false

/-- What the expression does is decided by the next `k` characters. -/
def Pat.Fixed (k : Nat) : Pat α → Prop
  | .eps => True
  | .set _ => 1 ≤ k
  | .test f => ∀ (t t' : List α) (p q : Nat), t.take q = t'.take q → q ≤ t.length → q ≤ t'.length → p + k ≤ q → f t p = f t' p
  | .cat a b => a.Fixed k ∧ ∃ m n, a.maxLen = some m ∧ m + n ≤ k ∧ b.Fixed n
  | .alt a b => a.Fixed k ∧ b.Fixed k
  | .star _ => False
  | .lazy _ => False
  | .grp _ a => a.Fixed k
  | .look _ a => a.Fixed k

/-- What the expression does is known `k` characters after the end of the match, and that it does
    not match `k` characters after the position: no part of it can run ahead before something else
    has to match. -/
def Pat.Known (k : Nat) : Pat α → Prop
  | .eps => True
  | .set _ => 1 ≤ k
  | .test f => ∀ (t t' : List α) (p q : Nat), t.take q = t'.take q → q ≤ t.length → q ≤ t'.length → p + k ≤ q → f t p = f t' p
  | .cat a b => (a.Known k ∧ b.always = true ∧ b.Known k) ∨
      a.Fixed k ∧ ∃ m n, a.maxLen = some m ∧ m + n ≤ k ∧ b.Known n
  | .alt a b => a.Known k ∧ b.Known k
  | .star a => a.Known k ∧ 1 ≤ k
  | .lazy a => a.Known k ∧ 1 ≤ k
  | .grp _ a => a.Known k
  | .look _ a => a.Fixed k

end Parce

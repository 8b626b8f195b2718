import Verif.Spec.Rebuild
import Verif.Spec.Tree
import Verif.Model.Interrupt
/-!
# Requests that a tree builder gets, at any time
-/
namespace Parce.RB
variable {α L A ρ : Type} [DecidableEq α]

/-- The text is edited, or another root lexicon (or none) is set together with a text. Several requests that are
    merged before they are seen (`Changes.add`) are again one of the two; the numbers that are reported with
    a root lexicon do not matter. -/
inductive Req (α L : Type) where
  | edit (e : Edit α)
  | root (l : Option L) (t : List α) (start removed added : Nat)

/-- The text and the root lexicon. -/
abbrev Doc (α L : Type) := List α × Option L

/-- The text and the root lexicon after the request. -/
def Req.run (d : Doc α L) : Req α L → Doc α L
  | .edit e => (Edit.run d.1 e, d.2)
  | .root l t _ _ _ => (t, l)

/-- The change that is reported to the tree builder. -/
def Req.change (d : Doc α L) : Req α L → Change α L
  | .edit e => ⟨Edit.run d.1 e, none, e.start, e.removed, e.ins.length⟩
  | .root l t start removed added => ⟨t, some l, start, removed, added⟩

/-- The text and the root lexicon after the requests (with the times they are seen at). -/
def runAll (d : Doc α L) : List (Nat × Req α L) → Doc α L
  | [] => d
  | r :: rs => runAll (r.2.run d) rs

/-- The changes that are reported. -/
def changesOf (d : Doc α L) : List (Nat × Req α L) → List (Nat × Change α L)
  | [] => []
  | r :: rs => (r.1, r.2.change d) :: changesOf (r.2.run d) rs

/-- The tree of a document. -/
def treeOf (lang : Lang α L A ρ) (n : Nat) (d : Doc α L) : TTree α L A :=
  match d.2 with
  | none => ⟨none, []⟩
  | some l => ⟨some l, (buildTree lang l d.1 0 n).kids⟩

/-- The edits lie inside the texts, and `n` steps of the lexer are enough for each of the texts. -/
def Proper (lang : Lang α L A ρ) (n : Nat) : Doc α L → List (Nat × Req α L) → Prop
  | d, [] => ∀ l, d.2 = some l → Finished lang l d.1 n
  | d, r :: rs => (∀ l, d.2 = some l → Finished lang l d.1 n) ∧
    (match r.2 with
      | .edit e => e.start + e.removed ≤ d.1.length
      | .root .. => True) ∧ Proper lang n (r.2.run d) rs

/-- Each edit is seen only when the build is finished (there are at most `n` events), or it starts within the first
    tokens of the text it is applied to: at most 11 tokens end before. -/
def Early (lang : Lang α L A ρ) (n : Nat) : Doc α L → List (Nat × Req α L) → Prop
  | _, [] => True
  | d, r :: rs =>
    (match r.2 with
      | .edit e => ∀ l, d.2 = some l →
        n ≤ r.1 ∨ ((buildTree lang l d.1 0 n).toks.countP (fun u => decide (u.stop ≤ e.start))) ≤ 11
      | .root .. => True) ∧ Early lang n (r.2.run d) rs

end Parce.RB

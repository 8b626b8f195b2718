import Verif.Lemmas.FullHtml
import Verif.Props.Formatter

/-!
C103: a complete HTML document shows the text with the base format.
-/

namespace Parce.FH

/-- C103 (partial: the base format has no quotes and the text does not begin with a newline, see
`C103_quote_violated` and `C103_newline_violated`). A browser shows the text of the pieces, in the
base format of the theme. -/
theorem C103_shown_partial (charset : List Char) (hc : '"' ∉ charset) (base : Option (List Char))
    (hb : ∀ b, base = some b → '"' ∉ b ∧ '&' ∉ b)
    (attr : List Char) (ha : attr = "style".toList ∨ attr = "class".toList)
    (pieces : List (List Char × Option (List Char))) (hn : (pieces.flatMap (·.1)).head? ≠ some '\n') :
    shown (fullHtml charset base (html attr pieces)) =
      some ("white-space: pre; ".toList ++ base.getD [], pieces.flatMap (·.1)) := by
  have hb1 : '"' ∉ base.getD [] ∧ '&' ∉ base.getD [] := by
    cases base with
    | none => simp
    | some b => exact hb b rfl
  rw [shown_full charset hc base hb1.1 hb1.2, html_text attr ha, drop_pieces]
  cases h : pieces.flatMap (·.1) with
  | nil => rfl
  | cons c t =>
    rw [dropNewline_cons]
    rintro rfl
    rw [h] at hn
    exact hn rfl

example : '"' ∉ "utf-8".toList ∧ ('"' ∉ "color: #000;".toList ∧ '&' ∉ "color: #000;".toList) ∧
    ([("a<b".toList, some "color: \"".toList), ("\n".toList, none)].flatMap (·.1)).head? ≠ some '\n' := by decide

/-- C103 (partial: as above, and the conditions of C39) for documents: a browser shows the formatted
part of the text. -/
theorem C103_document_partial {L A G : Type} [DecidableEq G] (charset : List Char) (hc : '"' ∉ charset)
    (base : Option (List Char)) (hb : ∀ b, base = some b → '"' ∉ b ∧ '&' ∉ b)
    (attr : List Char) (ha : attr = "style".toList ∨ attr = "class".toList)
    (c : FCaches A (List Char) G) (langOf : L → G) (text : List Char) (l : L) (cs : List (Node Char L A))
    (hf : FullL cs) (ho : Ordered (toksL cs)) (start : Nat) (stop : Option Nat)
    (hok : c.default = none ∨ Rng.fromTree l cs start stop = none ∨ FmtOk c l cs start stop)
    (hn : (textWindow text start stop).head? ≠ some '\n') :
    shown (fullHtml charset base (html attr (formatText c langOf text l cs start stop))) =
      some ("white-space: pre; ".toList ++ base.getD [], textWindow text start stop) := by
  have ht := C39_text_partial c langOf text l cs hf ho start stop hok
  rw [C103_shown_partial charset hc base hb attr ha _ (by rw [ht]; exact hn), ht]

/-- Two tokens with a gap between them. -/
def exNodes : List (Node Char Nat Nat) := [.tok ⟨0, ['a'], 1, none⟩, .tok ⟨2, ['\n'], 1, none⟩]

example : FullL exNodes ∧ Ordered (toksL exNodes) ∧ FmtOk (A := Nat) (F := List Char) (G := Nat) ⟨some ⟨none, none, fun _ => none⟩, []⟩ 0 exNodes 0 none ∧
    (textWindow "ab\nc".toList 0 none).head? ≠ some '\n' := by
  refine ⟨by simp [FullL, exNodes, Node.Full], by simp [Ordered, toksL, exNodes, Node.toks, TokN.stop], ?_, by decide⟩
  exact Or.inr ⟨by simp [exNodes], rfl, by simp⟩

/-- C103 is violated: a base format with a font name in quotes ends the attribute, the name and all
that comes after it are not used. -/
theorem C103_quote_violated :
    shown (fullHtml "utf-8".toList (some "font-family: \"Times New Roman\"; font-size: 12pt;".toList) (html "style".toList [("a".toList, none)])) =
      some ("white-space: pre; font-family: ".toList, "a".toList) := by decide

/-- C103 is violated, for all formats: a newline at the beginning of the text is not shown. -/
theorem C103_newline_violated (charset : List Char) (hc : '"' ∉ charset) (base : Option (List Char))
    (hb : ∀ b, base = some b → '"' ∉ b ∧ '&' ∉ b)
    (attr : List Char) (ha : attr = "style".toList ∨ attr = "class".toList)
    (pieces : List (List Char × Option (List Char))) (t : List Char) (hn : pieces.flatMap (·.1) = '\n' :: t) :
    shown (fullHtml charset base (html attr pieces)) =
      some ("white-space: pre; ".toList ++ base.getD [], t) := by
  have hb1 : '"' ∉ base.getD [] ∧ '&' ∉ base.getD [] := by
    cases base with
    | none => simp
    | some b => exact hb b rfl
  rw [shown_full charset hc base hb1.1 hb1.2, html_text attr ha, drop_pieces, hn]
  rfl

example : [("\n".toList, none), ("a".toList, some "x".toList)].flatMap (·.1) = '\n' :: "a".toList := by decide

end Parce.FH

import Verif.Model.FormatDocument
import Verif.Props.Formatter
import Verif.Props.Replace
/-!
# C129: formatting the selection of a document
-/
namespace Parce
variable {α L A F G : Type}

/-- **C129**, the part that holds: the pieces are, together, the text that is selected, in the cases in which formatting a range is right, see
    `C39_text_partial`. Missing: several themes, and selections between tokens, see `C129_violated`. -/
theorem C129_selection_partial [DecidableEq G] [DecidableEq F] (c : FCaches A F G) (langOf : L → G) (text : List α) (l : L) (cs : List (Node α L A))
    (hf : FullL cs) (ho : Ordered (toksL cs)) (cur : Cursor)
    (hok : c.default = none ∨ Rng.fromTree l cs cur.pos cur.stop = none ∨ FmtOk c l cs cur.pos cur.stop) :
    (formatDocument c langOf text l cs cur).flatMap (·.1) = cur.text text := by
  rw [(C76_selection text cur).1]
  unfold formatDocument
  by_cases h : cur.hasSelection text = true
  · rw [if_pos h, C39_text_partial c langOf text l cs hf ho cur.pos cur.stop hok]
    obtain ⟨p, e⟩ := cur
    cases e with
    | some e => rfl
    | none => simp [textWindow, Cursor.selection, slice]
  · rw [if_neg h]
    have h2 : (cur.selection text).2 ≤ cur.pos := by
      simp only [Cursor.hasSelection, decide_eq_true_eq] at h
      exact Nat.le_of_not_lt h
    have h1 : (cur.selection text).1 = cur.pos := rfl
    rw [h1]
    simp [slice]
    omega

/-- **C129.** A cursor without a selection yields nothing: no piece at all. -/
theorem C129_nothing [DecidableEq G] [DecidableEq F] (c : FCaches A F G) (langOf : L → G) (text : List α) (l : L) (cs : List (Node α L A)) (p : Nat) :
    formatDocument c langOf text l cs ⟨p, some p⟩ = [] ∧ (text.length ≤ p → formatDocument c langOf text l cs ⟨p, none⟩ = []) := by
  refine ⟨?_, fun h => ?_⟩
  · simp [formatDocument, Cursor.hasSelection, Cursor.selection]
  · unfold formatDocument
    rw [if_neg]
    intro hs
    have := of_decide_eq_true hs
    simp only [Cursor.selection] at this
    omega

private def tk (pos : Nat) (s : String) (a : Nat) : Node Char Nat Nat := .tok ⟨pos, s.toList, a, none⟩
private def one : FCaches Nat Nat Nat := ⟨some ⟨none, none, fun a => if a = 1 then some 10 else none⟩, []⟩
private def gap : List (Node Char Nat Nat) := [.ctx 1 [tk 0 "a" 1], .ctx 1 [tk 5 "b" 1]]

/-- **C129 is violated by the code**: for the selection `2` between the tokens of two contexts, the pieces are other text. -/
theorem C129_violated : FullL gap ∧ Ordered (toksL gap) ∧ (⟨2, some 3⟩ : Cursor).text "a1234b".toList = "2".toList ∧
    (formatDocument one id "a1234b".toList 0 gap ⟨2, some 3⟩).flatMap (·.1) = "23412".toList := by
  refine ⟨by simp [FullL, gap, Node.Full, tk], by simp [Ordered, toksL, gap, Node.toks, tk, TokN.stop], by decide, by decide⟩

example : FullL gap ∧ Ordered (toksL gap) ∧ FmtOk one 0 gap 0 none ∧
    formatDocument one id "a1234b".toList 0 gap ⟨0, none⟩ = [("a".toList, some 10), ("1234".toList, none), ("b".toList, some 10)] := by
  refine ⟨by simp [FullL, gap, Node.Full, tk], by simp [Ordered, toksL, gap, Node.toks, tk, TokN.stop], Or.inr ⟨by simp [gap], rfl, by simp⟩, by decide⟩

end Parce

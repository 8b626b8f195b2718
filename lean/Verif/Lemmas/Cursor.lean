import Verif.Lemmas.Document
import Verif.Spec.Document
namespace Parce
variable {α : Type}

theorem splice_single (t : List α) (ch : Change α) (hv : ValidReq t.length ch) :
    splice t [ch] = t.take ch.start ++ ch.text ++ t.drop ch.stop := by
  rw [← updateText_chain t (Chain.cons 0 ch [] (by omega) hv.1 hv.2 (Chain.nil _ hv.2))]
  simp only [updateText, updateFrom]
  rw [copy_eq t 0 ch.start (by omega)]
  simp [slice]

theorem drop_splice_single (t : List α) (ch : Change α) (hv : ValidReq t.length ch) (p p' : Nat)
    (h : ch.stop ≤ p) (h2 : p' + (ch.stop - ch.start) = p + ch.text.length) :
    (splice t [ch]).drop p' = t.drop p := by
  obtain ⟨v1, v2⟩ := hv
  have hl : (List.take ch.start t ++ ch.text).length = ch.start + ch.text.length := by
    rw [List.length_append, List.length_take]; omega
  have h3 : p' = (List.take ch.start t ++ ch.text).length + (p - ch.stop) := by omega
  rw [splice_single t ch ⟨v1, v2⟩, h3, List.drop_length_add_append, List.drop_drop]
  congr 1; omega

theorem updOne_follows (t : List α) (ch : Change α) (hv : ValidReq t.length ch) (c : Cursor) :
    Follows t ch c (updOne ch c).1 := by
  have hv' := hv
  obtain ⟨v1, v2⟩ := hv
  have hpos : (updOne ch c).1.pos = movePos ch.start ch.stop ch.text.length c.pos := by
    unfold updOne
    split
    · split <;> rfl
    · rfl
  refine ⟨?_, ?_, ?_, ?_, ?_, ?_, ?_⟩
  · intro h; rw [hpos, movePos, if_neg (by omega)]
  · intro h h'; rw [hpos, movePos, if_pos (by omega), if_pos h']
  · intro h
    have : (updOne ch c).1.pos + (ch.stop - ch.start) = c.pos + ch.text.length := by
      rw [hpos, movePos, if_pos (by omega), if_neg (by omega)]; omega
    exact ⟨this, drop_splice_single t ch hv' _ _ (by omega) this⟩
  · intro h; simp [updOne, h]
  · intro e h h'; simp only [updOne, h]; rw [if_neg (by omega)]
  · intro e h h' h''; simp only [updOne, h]; rw [if_pos h', if_pos h'']
  · intro e h h'
    simp only [updOne, h]
    rw [if_pos (by omega), if_neg (by omega)]
    refine ⟨_, rfl, by omega, drop_splice_single t ch hv' _ _ (by omega) (by omega)⟩

theorem insertCursor_perm (c : Cursor) : ∀ cs, (insertCursor c cs).Perm (c :: cs)
  | [] => .refl _
  | d :: ds => by
    unfold insertCursor
    split
    · exact .refl _
    · exact ((insertCursor_perm c ds).cons d).trans (.swap _ _ _)

theorem sortCursors_perm : ∀ cs, (sortCursors cs).Perm cs
  | [] => .refl _
  | c :: cs => (insertCursor_perm c _).trans ((sortCursors_perm cs).cons c)

def SortedC (cs : List Cursor) : Prop := cs.Pairwise (fun a b => a.pos ≤ b.pos)

theorem insertCursor_sorted (c : Cursor) : ∀ cs, SortedC cs → SortedC (insertCursor c cs)
  | [], _ => by simp [insertCursor, SortedC]
  | d :: ds, h => by
    have h' := List.pairwise_cons.1 h
    unfold insertCursor
    split
    · refine List.pairwise_cons.2 ⟨?_, h⟩
      intro x hx
      rcases List.mem_cons.1 hx with h9 | h9
      · subst h9; assumption
      · have := h'.1 x h9; omega
    · refine List.pairwise_cons.2 ⟨?_, insertCursor_sorted c ds h'.2⟩
      intro x hx
      rcases List.mem_cons.1 ((insertCursor_perm c ds).mem_iff.1 hx) with h9 | h9
      · subst h9; omega
      · exact h'.1 x h9

theorem sortCursors_sorted : ∀ cs, SortedC (sortCursors cs)
  | [] => List.Pairwise.nil
  | c :: cs => insertCursor_sorted c _ (sortCursors_sorted cs)

theorem updateCursors_single (ch : Change α) (cs : List Cursor) :
    updateCursors [ch] cs = (sortCursors cs).map (fun c => (updOne ch c).1) := by
  simp [updateCursors, updLoop]

theorem movePos_mono {start stop len p q : Nat} (h : p ≤ q) (hs : start ≤ stop) :
    movePos start stop len p ≤ movePos start stop len q := by
  unfold movePos
  split <;> split <;> (try split) <;> (try split) <;> omega

end Parce

import Verif.Model.TextRange
import Verif.Props.Block

/-!
C108: comparing text ranges.
-/
set_option linter.unusedSectionVars false
namespace Parce.TR

variable {α : Type} [DecidableEq α]

/-- C108. Text ranges are equal when they have the same type and document, and the same positions;
`!=` is the opposite. -/
theorem C108_eq (a b : Rng) :
    (eq a b = true ↔ a.kind = b.kind ∧ a.doc = b.doc ∧ a.pos = b.pos ∧ a.stop = b.stop) ∧ ne a b = !eq a b := by
  constructor
  · unfold eq
    simp only [Bool.and_eq_true, beq_iff_eq]
    constructor
    · rintro ⟨⟨⟨h1, h2⟩, h3⟩, h4⟩; exact ⟨h1, h2.symm, h3.symm, h4.symm⟩
    · rintro ⟨h1, h2, h3, h4⟩; exact ⟨⟨⟨h1, h2.symm⟩, h3.symm⟩, h4.symm⟩
  · simp [eq, ne, Bool.not_and, bne]

example : eq ⟨0, .block, 1, 2, some 3⟩ ⟨5, .block, 1, 2, some 3⟩ = true ∧ eq ⟨0, .block, 1, 2, some 3⟩ ⟨5, .cursor, 1, 2, some 3⟩ = false := by decide

theorem line_stop {t : List α} {sep : α} {p e e' : Nat} (h : IsLine t sep p e) (h' : IsLine t sep p e') : e = e' := by
  have aux : ∀ {e e' : Nat}, IsLine t sep p e → IsLine t sep p e' → ¬ e < e' := by
    intro e e' h h' hlt
    rcases h.right with hr | hr
    · have := h'.stop_le; omega
    · exact h'.inside e h.le hlt hr
  have h1 := aux h h'
  have h2 := aux h' h
  omega

/-- C108 (partial: for blocks, see `C108_violated` for cursors). For lines of the same document, exactly one
of `<`, `==` and `>` holds, `<=` is `<` or `==`, and `>=` is `>` or `==`. -/
theorem C108_order_partial (t : List α) (sep : α) (doc o o' : Nat) (a b : Blk) (ha : IsLine t sep a.pos a.stop)
    (hb : IsLine t sep b.pos b.stop) :
    let x := ofBlk o doc a
    let y := ofBlk o' doc b
    (lt x y = true ↔ gt x y = false ∧ eq x y = false) ∧ (gt x y = true ↔ lt x y = false ∧ eq x y = false) ∧
    (eq x y = true ↔ lt x y = false ∧ gt x y = false) ∧
    (le x y = true ↔ lt x y = true ∨ eq x y = true) ∧ (ge x y = true ↔ gt x y = true ∨ eq x y = true) := by
  have key : a.pos = b.pos → a.stop = b.stop := fun h => line_stop ha (h ▸ hb)
  intro x y
  have e1 : lt x y = true ↔ a.pos < b.pos := decide_eq_true_iff
  have e2 : gt x y = true ↔ a.pos > b.pos := decide_eq_true_iff
  have e3 : le x y = true ↔ a.pos ≤ b.pos := decide_eq_true_iff
  have e4 : ge x y = true ↔ a.pos ≥ b.pos := decide_eq_true_iff
  have e5 : eq x y = true ↔ a.pos = b.pos ∧ a.stop = b.stop := by
    rw [(C108_eq x y).1]
    simp [x, y, ofBlk]
  simp only [← Bool.not_eq_true, e1, e2, e3, e4, e5]
  have hk : ¬ (a.pos = b.pos) ∨ a.stop = b.stop := by
    by_cases h : a.pos = b.pos
    · exact .inr (key h)
    · exact .inl h
  refine ⟨?_, ?_, ?_, ?_, ?_⟩ <;> omega

example : IsLine "a\nb".toList '\n' 2 3 := ⟨by decide, by decide, .inr (by decide), .inl (by decide), by
  intro m h1 h2
  have : m = 2 := by omega
  subst this; decide⟩

/-- C108. The order is that of the lines in the document. -/
theorem C108_lines (t : List α) (sep : α) (doc o o' i j : Nat) (a b : Blk) (ha : (blocks t sep)[i]? = some a)
    (hb : (blocks t sep)[j]? = some b) : lt (ofBlk o doc a) (ofBlk o' doc b) = true ↔ i < j := by
  have hp := (C13_blocks_range t sep 0 none).2
  rw [List.pairwise_iff_getElem] at hp
  obtain ⟨hi, hi'⟩ := List.getElem?_eq_some_iff.1 ha
  obtain ⟨hj, hj'⟩ := List.getElem?_eq_some_iff.1 hb
  have e1 : lt (ofBlk o doc a) (ofBlk o' doc b) = true ↔ a.pos < b.pos := decide_eq_true_iff
  rw [e1]
  constructor
  · intro h
    rcases Nat.lt_trichotomy i j with h1 | h1 | h1
    · exact h1
    · subst h1
      rw [ha] at hb; cases hb; omega
    · have := hp j i hj hi h1
      rw [hi', hj'] at this
      omega
  · intro h
    have := hp i j hi hj h
    rw [hi', hj'] at this
    exact this

/-- C108. `is_first` is true for the first block only, and `is_last` for the last block only; the length of a
block is that of its text. -/
theorem C108_first_last (t : List α) (sep : α) (i : Nat) (b : Blk) (h : (blocks t sep)[i]? = some b) :
    (isFirst b = true ↔ i = 0) ∧ (isLast t b = true ↔ i + 1 = (blocks t sep).length) ∧
    len b = (slice t b.pos b.stop).length := by
  obtain ⟨h1, h2, h3⟩ := C13_adjacent t sep
  have hp := (C13_blocks_range t sep 0 none).2
  have hl := (C13_blocks_partition t sep).2.1
  rw [List.pairwise_iff_getElem] at hp
  obtain ⟨hi, hi'⟩ := List.getElem?_eq_some_iff.1 h
  have hb := hl b (List.mem_of_getElem? h)
  refine ⟨?_, ?_, ?_⟩
  · simp only [isFirst, beq_iff_eq]
    constructor
    · intro h0
      rcases Nat.eq_zero_or_pos i with hz | hz
      · exact hz
      · have := hp 0 i (by omega) hi hz
        rw [hi'] at this
        omega
    · intro h0
      subst h0
      rw [List.head?_eq_getElem?, h] at h1
      simpa using h1
  · simp only [isLast, ge_iff_le, decide_eq_true_eq]
    constructor
    · intro hs
      rcases Nat.lt_or_ge (i + 1) (blocks t sep).length with hlt | hge
      · obtain ⟨y, hy⟩ : ∃ y, (blocks t sep)[i + 1]? = some y := ⟨_, List.getElem?_eq_getElem hlt⟩
        have h4 := h2 i b y h hy
        have h5 := hl y (List.mem_of_getElem? hy)
        have := h5.le
        have := h5.stop_le
        omega
      · omega
    · intro he
      rw [List.getLast?_eq_getElem?, show (blocks t sep).length - 1 = i by omega, h] at h3
      simp at h3
      omega
  · unfold len slice
    rw [List.length_drop, List.length_take]
    have := hb.le
    have := hb.stop_le
    omega

example : ∃ b, (blocks "a\n".toList '\n')[0]? = some b := by
  have h : (blocks "a\n".toList '\n').length = 2 := by rw [(C13_blocks_partition _ _).2.2.2]; decide
  exact ⟨_, List.getElem?_eq_getElem (by omega)⟩

/-- C108 is violated for cursors: `<=` holds in both directions although they are not equal, so that `<=` is
not `<` or `==`. -/
theorem C108_violated : ∃ a b : Rng, a.kind = .cursor ∧ b.kind = .cursor ∧ a.doc = b.doc ∧ le a b = true ∧ le b a = true ∧
    eq a b = false ∧ lt a b = false ∧ gt a b = false :=
  ⟨⟨0, .cursor, 0, 1, some 1⟩, ⟨1, .cursor, 0, 1, some 2⟩, by decide⟩

/-- C108 is violated: equal blocks have different hashes, when they are different objects. -/
theorem C108_hash_violated (h : Nat → Nat) (hh : ∀ i j, h i = h j → i = j) (b : Blk) (doc o o' : Nat) (ho : o ≠ o') :
    eq (ofBlk o doc b) (ofBlk o' doc b) = true ∧ hash h (ofBlk o doc b) ≠ hash h (ofBlk o' doc b) :=
  ⟨by simp [eq, ofBlk], fun e => ho (hh _ _ e)⟩

example : ∀ i j : Nat, (fun n => n + 16) i = (fun n => n + 16) j → i = j := by intro i j h; simpa using h

end Parce.TR

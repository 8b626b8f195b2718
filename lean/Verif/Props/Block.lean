import Verif.Lemmas.Block
/-!
# Properties C13-C16: blocks
-/
set_option linter.unusedSectionVars false
namespace Parce
variable {α : Type} [DecidableEq α]

/-- A small text with empty first, middle and last line: `␤ab␤␤c␤`. -/
private def T : List Char := "\nab\n\nc\n".toList

/-! ## C13 -/

theorem joinLines_linesOf (sep : α) : ∀ t : List α, joinLines sep (linesOf sep t) = t
  | [] => rfl
  | c :: cs => by
    have ih := joinLines_linesOf sep cs
    simp only [linesOf]
    split
    · rename_i h; exact absurd h (linesOf_ne_nil sep cs)
    · rename_i l ls h
      rw [h] at ih
      split
      · rename_i hc; simp only [joinLines, List.nil_append, ih, hc]
      · cases ls with
        | nil => simp only [joinLines] at ih ⊢; rw [ih]
        | cons l' ls => simp only [joinLines, List.cons_append] at ih ⊢; rw [ih]

/-- **C13.** The texts of `blocks()` joined with the separator give the text, no block
    contains the separator, and there are `block_count()` blocks. -/
theorem C13_blocks_partition (t : List α) (sep : α) :
    joinLines sep ((blocks t sep).map (fun b => slice t b.pos b.stop)) = t ∧
    (∀ b ∈ blocks t sep, IsLine t sep b.pos b.stop) ∧
    (∀ b ∈ blocks t sep, sep ∉ slice t b.pos b.stop) ∧
    (blocks t sep).length = blockCount t sep := by
  obtain ⟨i1, i2, i3, i4, i5⟩ := blocks_lines t sep 0
  rw [(first_good t sep).2, List.drop_zero] at i1 i5
  refine ⟨?_, fun b hb => (i2 b hb).1, fun b hb => (i2 b hb).1.not_mem, i5⟩
  rw [i1, joinLines_linesOf]

/-- **C13.** The first block starts at the beginning, every other block starts just after
    the separator that follows the previous block, the last block ends at the end. -/
theorem C13_adjacent (t : List α) (sep : α) :
    (blocks t sep).head?.map (·.pos) = some 0 ∧
    (∀ (i : Nat) x y, (blocks t sep)[i]? = some x → (blocks t sep)[i + 1]? = some y →
      y.pos = x.stop + 1) ∧
    (blocks t sep).getLast?.map (·.stop) = some t.length := by
  obtain ⟨i1, i2, i3, i4, i5⟩ := blocks_lines t sep 0
  refine ⟨?_, ?_, ?_⟩
  · unfold blocks; simp only; rw [blocksFrom_eq]; simp [(first_good t sep).2]
  · intro i x y hx hy
    have h := i4 i x hx
    rw [hy] at h
    exact (next_isLine (i2 x (List.mem_of_getElem? hx)).1 h).2.1
  · rw [List.getLast?_eq_getElem?]
    obtain ⟨y, hy⟩ : ∃ y, (blocks t sep)[(blocks t sep).length - 1]? = some y :=
      ⟨_, List.getElem?_eq_getElem (by omega)⟩
    rw [hy, Option.map_some, getLast_line t sep hy (by omega)]

example : (blocks T '\n').map (fun b => slice T b.pos b.stop) =
    [[], ['a', 'b'], [], ['c'], []] ∧ (blocks T '\n').length = 5 := by
  have h := C13_blocks_partition T '\n'
  have h1 := (blocks_lines T '\n' 0).1
  rw [h1, h.2.2.2]
  decide

/-- **C13** with arguments: `blocks(start, end)` yields the block containing `start` and
    then exactly those following lines that start before `end`, in increasing order.
    (`blocks(start)` yields all lines from there.) -/
theorem C13_blocks_range (t : List α) (sep : α) (start : Nat) (stop : Option Nat) :
    (∀ p e, (∃ x ∈ blocks t sep start stop, x.pos = p ∧ x.stop = e) ↔
      IsLine t sep p e ∧ (findBlock t sep start).pos ≤ p ∧
        (p = (findBlock t sep start).pos ∨ ∀ k, stop = some k → p < k)) ∧
    (blocks t sep start stop).Pairwise (fun x y => x.pos < y.pos) := by
  have hb := (isLine_find (t := t) (sep := sep) start).1
  have key := blocksFrom_mem _ _ (Nat.le_refl _) hb
  cases stop with
  | none =>
    refine ⟨fun p e => ?_, key.2⟩
    have := key.1 p e
    simp only [reduceCtorEq, false_implies, implies_true, or_true, and_true]
    exact this
  | some k =>
    have e1 : blocks t sep start (some k) = _ := blocksUntil_eq k _ _ (Nat.le_refl _) hb
    rw [e1]
    have hd : blocksFrom t sep (findBlock t sep start) =
        findBlock t sep start :: (blocksFrom t sep (findBlock t sep start)).tail := by
      rw [blocksFrom_eq]; rfl
    generalize (blocksFrom t sep (findBlock t sep start)).tail = l at *
    rw [hd] at key
    obtain ⟨k1, k2⟩ := key
    have k2' := List.pairwise_cons.1 k2
    constructor
    · intro p e
      simp only [Option.some.injEq, forall_eq']
      constructor
      · rintro ⟨x, hx, rfl, rfl⟩
        rcases List.mem_cons.1 hx with hx | hx
        · subst hx; exact ⟨hb, Nat.le_refl _, Or.inl rfl⟩
        · obtain ⟨h1, h2⟩ := (mem_takeWhile_sorted k l k2'.2 x).1 hx
          obtain ⟨h3, h4⟩ := (k1 x.pos x.stop).1 ⟨x, by simp [h1], rfl, rfl⟩
          exact ⟨h3, h4, Or.inr h2⟩
      · rintro ⟨h1, h2, h3⟩
        obtain ⟨x, hx, rfl, rfl⟩ := (k1 p e).2 ⟨h1, h2⟩
        rcases List.mem_cons.1 hx with hx | hx
        · exact ⟨x, by simp [hx], rfl, rfl⟩
        · have := k2'.1 x hx
          refine ⟨x, List.mem_cons_of_mem _ ((mem_takeWhile_sorted k l k2'.2 x).2 ⟨hx, by omega⟩), rfl, rfl⟩
    · refine List.pairwise_cons.2 ⟨fun x hx => ?_, ?_⟩
      · exact k2'.1 x ((mem_takeWhile_sorted k l k2'.2 x).1 hx).1
      · exact k2'.2.sublist (List.takeWhile_sublist _)

example : (findBlock T '\n' 2).pos = 1 ∧ IsLine T '\n' 4 4 ∧ IsLine T '\n' 5 6 := by
  refine ⟨by decide, ⟨by decide, by decide, Or.inr (by decide), Or.inr (by decide), ?_⟩,
    ⟨by decide, by decide, Or.inr (by decide), Or.inr (by decide), ?_⟩⟩
  · intro m h1 h2; omega
  · intro m h1 h2
    have : m = 5 := by omega
    subst this; decide

/-! ## C14 -/

/-- **C14.** `find_block(p)` is the one line that contains `min(p, len)`. -/
theorem C14_find_block (t : List α) (sep : α) (p : Nat) :
    IsLine t sep (findBlock t sep p).pos (findBlock t sep p).stop ∧
    (findBlock t sep p).pos ≤ min p t.length ∧ min p t.length ≤ (findBlock t sep p).stop := by
  have h := isLine_find (t := t) (sep := sep) p
  refine ⟨h.1, ?_, ?_⟩
  · have := h.1.le; have := h.1.stop_le; omega
  · by_cases hlt : min p t.length ≤ (findBlock t sep p).stop
    · exact hlt
    · exfalso
      rcases h.1.right with h1 | h1
      · omega
      · -- a separator before `p` but behind the start found
        unfold findBlock Blk.mk' at *
        simp only at *
        have h2 := h.1.le
        generalize findEndOfBlock t sep (findStartOfBlock t sep p) = e at *
        unfold findStartOfBlock at h2
        cases h3 : rfind t sep p with
        | none => exact rfind_none h3 e (by omega) h1
        | some j =>
          rw [h3] at h2
          simp only at h2
          exact (rfind_some h3).2.2 e (by omega) (by omega) h1

/-- **C14.** There is only one such line, and `blocks()` yields it. -/
theorem C14_unique (t : List α) (sep : α) (p a b : Nat) (h : IsLine t sep a b)
    (h1 : a ≤ min p t.length) (h2 : min p t.length ≤ b) :
    (findBlock t sep p).pos = a ∧ (findBlock t sep p).stop = b ∧
    ∃ x ∈ blocks t sep, x.pos = a ∧ x.stop = b := by
  obtain ⟨h3, h4, h5⟩ := C14_find_block t sep p
  obtain ⟨h6, h7⟩ := h3.unique h h4 h5 h1 h2
  refine ⟨h6, h7, ?_⟩
  refine ((C13_blocks_range t sep 0 none).1 a b).2 ⟨h, ?_, Or.inr (by simp)⟩
  rw [(first_good t sep).2]; omega

example : findBlock T '\n' 3 = ⟨1, 3, none⟩ ∧ findBlock T '\n' 4 = ⟨4, 4, none⟩ ∧
    findBlock T '\n' 99 = ⟨7, 7, none⟩ := by decide

/-! ## C15 -/

/-- The blocks a program can get hold of. -/
inductive Obtained (t : List α) (sep : α) : Blk → Prop
  | find (p : Nat) : Obtained t sep (findBlock t sep p)
  | byNumber {n : Int} {b : Blk} (h : findBlockByNumber t sep n = some b) : Obtained t sep b
  | next {b b' : Blk} (h : Obtained t sep b) (hn : nextBlock t sep b = some b') : Obtained t sep b'
  | prev {b b' : Blk} (h : Obtained t sep b) (hn : previousBlock t sep b = some b') : Obtained t sep b'

/-- **C15.** `find_block_by_number(n)`: the n-th line from the start, or from the end for
    negative numbers, None outside. -/
theorem C15_by_number (t : List α) (sep : α) (n : Int) :
    (findBlockByNumber t sep n).map (fun b => (b.pos, b.stop)) =
      (if 0 ≤ n then (blocks t sep)[n.toNat]?
       else if 0 ≤ (blockCount t sep : Int) + n then (blocks t sep)[((blockCount t sep : Int) + n).toNat]?
       else none).map (fun b => (b.pos, b.stop)) := by
  have hlen := (C13_blocks_partition t sep).2.2.2
  unfold findBlockByNumber
  by_cases hn : 0 ≤ n
  · rw [if_pos hn, if_pos hn, byNumber_nonneg]
    cases (blocks t sep)[n.toNat]? <;> rfl
  · rw [if_neg hn, if_neg hn, byNumber_neg t sep _ (by omega), hlen]
    by_cases h2 : 0 ≤ (blockCount t sep : Int) + n
    · rw [if_pos h2, if_pos (by omega),
        show blockCount t sep - (-n).toNat = ((blockCount t sep : Int) + n).toNat by omega]
      cases (blocks t sep)[((blockCount t sep : Int) + n).toNat]? <;> rfl
    · rw [if_neg h2, if_neg (by omega)]; rfl

/-- **C15.** None exactly outside `-block_count() ... block_count()-1`. -/
theorem C15_none (t : List α) (sep : α) (n : Int) :
    findBlockByNumber t sep n = none ↔ ¬ (-(blockCount t sep : Int) ≤ n ∧ n < blockCount t sep) := by
  have hlen := (C13_blocks_partition t sep).2.2.2
  have h := C15_by_number t sep n
  rw [← Option.map_eq_none_iff (f := fun b : Blk => (b.pos, b.stop)), h]
  by_cases hn : 0 ≤ n
  · rw [if_pos hn, Option.map_eq_none_iff, List.getElem?_eq_none_iff]; omega
  · rw [if_neg hn]
    by_cases h2 : 0 ≤ (blockCount t sep : Int) + n
    · rw [if_pos h2, Option.map_eq_none_iff, List.getElem?_eq_none_iff]; omega
    · rw [if_neg h2]
      constructor
      · intro _; omega
      · intro _; rfl

theorem obtained_good {t : List α} {sep : α} {b : Blk} (h : Obtained t sep b) : GoodBlk t sep b := by
  induction h with
  | find p => exact goodBlk_mk (isLine_find p).1
  | next _ hn ih => exact goodBlk_next ih hn
  | prev _ hn ih => exact goodBlk_prev ih hn
  | @byNumber n b hb =>
    have h := C15_by_number t sep n
    have hbl := blocks_lines t sep 0
    rw [hb] at h
    unfold findBlockByNumber at hb
    by_cases hn : 0 ≤ n
    · rw [if_pos hn] at h hb
      cases hx : (blocks t sep)[n.toNat]? with
      | none => rw [hx] at h; simp at h
      | some x =>
        rw [hx] at h
        simp only [Option.map_some, Option.some.injEq, Prod.mk.injEq] at h
        have hg := hbl.2.1 x (List.mem_of_getElem? hx)
        refine ⟨by rw [h.1, h.2]; exact hg.1, ?_⟩
        intro m hm
        have h3 := hbl.2.2.1 _ x hx
        rw [(first_good t sep).2, List.take_zero, List.count_nil] at h3
        rw [h.1, h3]
        rw [byNumber_nonneg, hx] at hb
        simp only [Option.map_some, Option.some.injEq] at hb
        rw [← hb] at hm
        simp only [Option.some.injEq] at hm
        omega
    · rw [if_neg hn] at h hb
      have hl : IsLine t sep b.pos b.stop := by
        split at h
        · rename_i h2
          cases hx : (blocks t sep)[((blockCount t sep : Int) + n).toNat]? with
          | none => rw [hx] at h; simp at h
          | some x =>
            rw [hx] at h
            simp only [Option.map_some, Option.some.injEq, Prod.mk.injEq] at h
            rw [h.1, h.2]
            exact (hbl.2.1 x (List.mem_of_getElem? hx)).1
        · simp at h
      cases hy : byNumberBack t sep (-n).toNat (t.length + 1, 0) with
      | none => rw [hy] at hb; simp at hb
      | some r =>
        rw [hy] at hb
        simp only [Option.map_some, Option.some.injEq] at hb
        subst hb
        exact goodBlk_mk hl

/-- **C15.** The block number of every block a program can get hold of is its index in
    `blocks()`. (The blocks yielded by `blocks()` are of that kind as well.) -/
theorem C15_block_number (t : List α) (sep : α) (b : Blk) (h : Obtained t sep b) :
    ∃ i : Nat, blockNumber t sep b = i ∧
      ((blocks t sep)[i]?).map (fun x => (x.pos, x.stop)) = some (b.pos, b.stop) := by
  have hg := obtained_good h
  refine ⟨_, blockNumber_good hg, ?_⟩
  obtain ⟨x, hx, h1, h2⟩ := ((C13_blocks_range t sep 0 none).1 b.pos b.stop).2
    ⟨hg.1, by rw [(first_good t sep).2]; omega, Or.inr (by simp)⟩
  obtain ⟨i, hi⟩ := List.mem_iff_getElem?.1 hx
  have h3 := (blocks_lines t sep 0).2.2.1 i x hi
  rw [(first_good t sep).2, List.take_zero, List.count_nil] at h3
  rw [← h1, h3, Nat.zero_add, hi, Option.map_some, h1, h2]

theorem C15_blocks_obtained (t : List α) (sep : α) (start : Nat) :
    ∀ b ∈ blocks t sep start, Obtained t sep b := by
  have key : ∀ (n : Nat) (b : Blk), t.length - b.stop ≤ n → Obtained t sep b →
      ∀ x ∈ blocksFrom t sep b, Obtained t sep x := by
    intro n
    induction n with
    | zero =>
      intro b hn hb x hx
      have hg := (obtained_good hb).1
      rw [blocksFrom_none ((next_none hg).2 (by have := hg.stop_le; omega))] at hx
      rw [List.mem_singleton] at hx; exact hx ▸ hb
    | succ n ih =>
      intro b hn hb x hx
      cases h : nextBlock t sep b with
      | none => rw [blocksFrom_none h, List.mem_singleton] at hx; exact hx ▸ hb
      | some b' =>
        have := nextBlock_stop h
        rw [blocksFrom_some h, List.mem_cons] at hx
        rcases hx with rfl | hx
        · exact hb
        · exact ih b' (by omega) (.next hb h) x hx
  exact fun b hb => key _ _ (Nat.le_refl _) (.find start) b hb

example : findBlockByNumber T '\n' 3 = some ⟨5, 6, some 3⟩ ∧ findBlockByNumber T '\n' (-2) = some ⟨5, 6, none⟩ ∧
    findBlockByNumber T '\n' 5 = none ∧ findBlockByNumber T '\n' (-6) = none ∧ blockCount T '\n' = 5 ∧
    blockNumber T '\n' ⟨5, 6, none⟩ = 3 := by decide

/-! ## C16 -/

/-- **C16.** `next_block().previous_block()` and `previous_block().next_block()` come back
    to the block; only the last block has no next, only the first has no previous. -/
theorem C16_next_previous (t : List α) (sep : α) (b : Blk) (hb : Obtained t sep b) :
    (∀ b', nextBlock t sep b = some b' →
      ∃ b'', previousBlock t sep b' = some b'' ∧ b''.pos = b.pos ∧ b''.stop = b.stop) ∧
    (∀ b', previousBlock t sep b = some b' →
      ∃ b'', nextBlock t sep b' = some b'' ∧ b''.pos = b.pos ∧ b''.stop = b.stop) ∧
    (nextBlock t sep b = none ↔ b.stop = t.length) ∧
    (previousBlock t sep b = none ↔ b.pos = 0) := by
  have hg := (obtained_good hb).1
  refine ⟨?_, ?_, next_none hg, ?_⟩
  · intro b' h
    obtain ⟨h1, h2, h3⟩ := prev_of_next hg h
    unfold previousBlock
    rw [if_pos h1]
    refine ⟨_, rfl, ?_, ?_⟩
    · rw [withNum_pos]; exact h2
    · rw [withNum_stop]; exact h3
  · intro b' h
    obtain ⟨h1, h2, h3⟩ := prev_isLine hg h
    have hlt := block_getElem?_lt h3
    cases h4 : nextBlock t sep b' with
    | none => have := (next_none h1).1 h4; omega
    | some b'' =>
      obtain ⟨h5, h6, _⟩ := next_isLine h1 h4
      refine ⟨b'', rfl, by omega, ?_⟩
      have h7 := hg.le; have h8 := h5.le
      exact (h5.unique hg (Nat.le_refl _) h8 (by omega) (by omega)).2
  · unfold previousBlock
    split
    · simp; omega
    · simp; omega

example : Obtained T '\n' ⟨1, 3, none⟩ ∧ nextBlock T '\n' ⟨1, 3, none⟩ = some ⟨4, 4, none⟩ ∧
    previousBlock T '\n' ⟨4, 4, none⟩ = some ⟨1, 3, none⟩ :=
  ⟨Obtained.find (sep := '\n') (t := T) 2, by decide, by decide⟩

end Parce

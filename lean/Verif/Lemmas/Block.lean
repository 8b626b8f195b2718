import Verif.Spec.Block
import Verif.Lemmas.EditOps
set_option linter.unusedSectionVars false
namespace Parce
variable {α : Type} [DecidableEq α]

theorem findIn_spec (sep : α) : ∀ (l : List α) (i : Nat),
    match findIn sep l i with
    | none => ∀ m : Nat, l[m]? ≠ some sep
    | some j => i ≤ j ∧ l[j - i]? = some sep ∧ ∀ m : Nat, i + m < j → l[m]? ≠ some sep
  | [], i => by simp [findIn]
  | c :: cs, i => by
    have ih := findIn_spec sep cs (i + 1)
    simp only [findIn]
    by_cases h : c = sep
    · rw [if_pos h]
      refine ⟨Nat.le_refl _, by simp [h], fun m hm => by omega⟩
    · rw [if_neg h]
      cases hf : findIn sep cs (i + 1) with
      | none =>
        rw [hf] at ih
        intro m
        cases m with
        | zero => simpa using h
        | succ m => simpa using ih m
      | some j =>
        rw [hf] at ih
        obtain ⟨h1, h2, h3⟩ := ih
        refine ⟨by omega, ?_, ?_⟩
        · rw [show j - i = (j - (i + 1)) + 1 by omega]; simpa using h2
        · intro m hm
          cases m with
          | zero => simpa using h
          | succ m => simpa using h3 m (by omega)

theorem find_none {t : List α} {sep : α} {p : Nat} :
    find t sep p = none ↔ ∀ m, p ≤ m → t[m]? ≠ some sep := by
  have h := findIn_spec sep (t.drop p) p
  unfold find
  constructor
  · intro hn m hm
    rw [hn] at h
    have := h (m - p)
    rw [List.getElem?_drop] at this
    rwa [show p + (m - p) = m by omega] at this
  · intro hn
    cases hf : findIn sep (t.drop p) p with
    | none => rfl
    | some j =>
      rw [hf] at h
      obtain ⟨h1, h2, _⟩ := h
      rw [List.getElem?_drop, show p + (j - p) = j by omega] at h2
      exact absurd h2 (hn j h1)

theorem find_some {t : List α} {sep : α} {p j : Nat} (hj : find t sep p = some j) :
    p ≤ j ∧ t[j]? = some sep ∧ ∀ m, p ≤ m → m < j → t[m]? ≠ some sep := by
  have h := findIn_spec sep (t.drop p) p
  unfold find at hj
  rw [hj] at h
  obtain ⟨h1, h2, h3⟩ := h
  rw [List.getElem?_drop, show p + (j - p) = j by omega] at h2
  refine ⟨h1, h2, fun m hm1 hm2 => ?_⟩
  have := h3 (m - p) (by omega)
  rwa [List.getElem?_drop, show p + (m - p) = m by omega] at this

theorem rfindIn_spec (sep : α) : ∀ (l : List α) (i : Nat),
    match rfindIn sep l i with
    | none => ∀ m : Nat, l[m]? ≠ some sep
    | some j => i ≤ j ∧ l[j - i]? = some sep ∧ ∀ m : Nat, j < i + m → l[m]? ≠ some sep
  | [], i => by simp [rfindIn]
  | c :: cs, i => by
    have ih := rfindIn_spec sep cs (i + 1)
    simp only [rfindIn]
    cases hf : rfindIn sep cs (i + 1) with
    | some j =>
      rw [hf] at ih
      obtain ⟨h1, h2, h3⟩ := ih
      refine ⟨by omega, ?_, ?_⟩
      · rw [show j - i = (j - (i + 1)) + 1 by omega]; simpa using h2
      · intro m hm
        cases m with
        | zero => omega
        | succ m => simpa using h3 m (by omega)
    | none =>
      rw [hf] at ih
      simp only
      by_cases h : c = sep
      · rw [if_pos h]
        refine ⟨Nat.le_refl _, by simp [h], fun m hm => ?_⟩
        cases m with
        | zero => omega
        | succ m => simpa using ih m
      · rw [if_neg h]
        intro m
        cases m with
        | zero => simpa using h
        | succ m => simpa using ih m

theorem rfind_none {t : List α} {sep : α} {e : Nat} (hn : rfind t sep e = none) :
    ∀ m, m < e → t[m]? ≠ some sep := by
  have h := rfindIn_spec sep (t.take e) 0
  unfold rfind at hn
  rw [hn] at h
  intro m hm
  have := h m
  rwa [List.getElem?_take_of_lt hm] at this

theorem rfind_some {t : List α} {sep : α} {e j : Nat} (hj : rfind t sep e = some j) :
    j < e ∧ t[j]? = some sep ∧ ∀ m, j < m → m < e → t[m]? ≠ some sep := by
  have h := rfindIn_spec sep (t.take e) 0
  unfold rfind at hj
  rw [hj] at h
  obtain ⟨_, h2, h3⟩ := h
  rw [Nat.sub_zero] at h2
  have hje : j < e := by
    by_cases hje : j < e
    · exact hje
    · rw [List.getElem?_take_eq_none (by omega)] at h2; simp at h2
  rw [List.getElem?_take_of_lt hje] at h2
  refine ⟨hje, h2, fun m hm1 hm2 => ?_⟩
  have := h3 m (by omega)
  rwa [List.getElem?_take_of_lt hm2] at this

theorem block_getElem?_lt' {β : Type} {t : List β} {i : Nat} {c : β} (h : t[i]? = some c) : i < t.length :=
  (List.getElem?_eq_some_iff.1 h).1

theorem block_getElem?_lt {t : List α} {i : Nat} {c : α} (h : t[i]? = some c) : i < t.length := by
  have := List.getElem?_eq_some_iff.1 h
  exact this.1

/-- End of a line that starts at `p`. -/
theorem isLine_end {t : List α} {sep : α} {p : Nat} (hp : p ≤ t.length)
    (hl : p = 0 ∨ t[p - 1]? = some sep) : IsLine t sep p (findEndOfBlock t sep p) := by
  unfold findEndOfBlock
  cases h : find t sep p with
  | none =>
    exact ⟨hp, Nat.le_refl _, hl, Or.inl rfl, fun m h1 _ => find_none.1 h m h1⟩
  | some j =>
    obtain ⟨h1, h2, h3⟩ := find_some h
    exact ⟨h1, Nat.le_of_lt (block_getElem?_lt h2), hl, Or.inr h2, h3⟩

/-- Start of a line that ends at `e`. -/
theorem isLine_start {t : List α} {sep : α} {e : Nat} (he : e ≤ t.length)
    (hr : e = t.length ∨ t[e]? = some sep) : IsLine t sep (findStartOfBlock t sep e) e := by
  unfold findStartOfBlock
  cases h : rfind t sep e with
  | none => exact ⟨by simp, he, Or.inl rfl, hr, fun m _ h1 => rfind_none h m h1⟩
  | some j =>
    obtain ⟨h1, h2, h3⟩ := rfind_some h
    exact ⟨h1, he, Or.inr (by simpa using h2), hr, fun m h4 h5 => h3 m h4 h5⟩

theorem isLine_find {t : List α} {sep : α} (p : Nat) :
    IsLine t sep (findBlock t sep p).pos (findBlock t sep p).stop ∧ (findBlock t sep p).pos ≤ p := by
  unfold findBlock Blk.mk'
  simp only
  have : findStartOfBlock t sep p ≤ t.length ∧ findStartOfBlock t sep p ≤ p ∧
      (findStartOfBlock t sep p = 0 ∨ t[findStartOfBlock t sep p - 1]? = some sep) := by
    unfold findStartOfBlock
    cases h : rfind t sep p with
    | none => simp
    | some j =>
      obtain ⟨h1, h2, h3⟩ := rfind_some h
      have := block_getElem?_lt h2
      refine ⟨by simp only; omega, by simp only; omega, Or.inr (by simpa using h2)⟩
  exact ⟨isLine_end this.1 this.2.2, this.2.1⟩

/-- Two lines with a common position are equal. -/
theorem IsLine.unique {t : List α} {sep : α} {a b a' b' p : Nat} (h : IsLine t sep a b)
    (h' : IsLine t sep a' b') (h1 : a ≤ p) (h2 : p ≤ b) (h3 : a' ≤ p) (h4 : p ≤ b') :
    a = a' ∧ b = b' := by
  have key : ∀ {a b a' b' : Nat}, IsLine t sep a b → IsLine t sep a' b' → a ≤ p → p ≤ b → a' ≤ p →
      p ≤ b' → ¬ a < a' ∧ ¬ b < b' := by
    intro a b a' b' h h' h1 h2 h3 h4
    constructor
    · intro hlt
      rcases h'.left with h5 | h5
      · omega
      · exact h.inside (a' - 1) (by omega) (by omega) h5
    · intro hlt
      rcases h.right with h5 | h5
      · have := h'.stop_le; omega
      · exact h'.inside b (by omega) hlt h5
  obtain ⟨k1, k2⟩ := key h h' h1 h2 h3 h4
  obtain ⟨k3, k4⟩ := key h' h h3 h4 h1 h2
  omega

/-! ### Neighbours -/

theorem withNum_pos (x : Blk) (n : Option Int) : (x.withNum n).pos = x.pos := by
  unfold Blk.withNum; split <;> rfl
theorem withNum_stop (x : Blk) (n : Option Int) : (x.withNum n).stop = x.stop := by
  unfold Blk.withNum; split <;> rfl

theorem next_isLine {t : List α} {sep : α} {b b' : Blk} (hb : IsLine t sep b.pos b.stop)
    (h : nextBlock t sep b = some b') :
    IsLine t sep b'.pos b'.stop ∧ b'.pos = b.stop + 1 ∧ t[b.stop]? = some sep := by
  unfold nextBlock at h
  split at h
  · simp at h
  · simp only [Option.some.injEq] at h
    subst h
    have hs : t[b.stop]? = some sep := by
      rcases hb.right with h5 | h5
      · omega
      · exact h5
    rw [withNum_pos, withNum_stop]
    simp only [Blk.mk']
    exact ⟨isLine_end (by omega) (Or.inr (by simpa using hs)), trivial, hs⟩

theorem next_none {t : List α} {sep : α} {b : Blk} (hb : IsLine t sep b.pos b.stop) :
    nextBlock t sep b = none ↔ b.stop = t.length := by
  unfold nextBlock
  have := hb.stop_le
  split
  · simp; omega
  · simp; omega

theorem prev_isLine {t : List α} {sep : α} {b b' : Blk} (hb : IsLine t sep b.pos b.stop)
    (h : previousBlock t sep b = some b') :
    IsLine t sep b'.pos b'.stop ∧ b.pos = b'.stop + 1 ∧ t[b'.stop]? = some sep := by
  unfold previousBlock at h
  split at h
  · simp only [Option.some.injEq] at h
    subst h
    have hs : t[b.pos - 1]? = some sep := by
      rcases hb.left with h5 | h5
      · omega
      · exact h5
    rw [withNum_pos, withNum_stop]
    simp only [Blk.mk']
    exact ⟨isLine_start (by have := block_getElem?_lt hs; omega) (Or.inr hs), by omega, hs⟩
  · simp at h

/-! ### Counting -/

theorem count_line {t : List α} {sep : α} {p e : Nat} (h : IsLine t sep p e) :
    (t.take e).count sep = (t.take p).count sep := by
  have h7 : List.take e t = List.take p t ++ slice t p e := by
    conv => lhs; rw [← List.take_append_drop p (List.take e t)]
    rw [List.take_take, Nat.min_eq_left h.le]; rfl
  rw [h7, List.count_append]
  have : (slice t p e).count sep = 0 := by
    rw [List.count_eq_zero]
    intro hm
    obtain ⟨i, hi, h8⟩ := List.getElem_of_mem hm
    have h9 : (slice t p e)[i]? = some sep := by rw [List.getElem?_eq_getElem hi, h8]
    simp only [slice, List.getElem?_drop] at h9
    have hlt : p + i < e := by
      rw [slice_length] at hi; omega
    rw [List.getElem?_take_of_lt hlt] at h9
    exact h.inside _ (by omega) hlt h9
  omega

theorem count_next {t : List α} {sep : α} {p e : Nat} (h : IsLine t sep p e) (hs : t[e]? = some sep) :
    (t.take (e + 1)).count sep = (t.take p).count sep + 1 := by
  rw [List.take_add_one, hs, List.count_append, count_line h]
  simp

/-- A block with correct range and correct cached number. -/
def GoodBlk (t : List α) (sep : α) (b : Blk) : Prop :=
  IsLine t sep b.pos b.stop ∧ ∀ n, b.num = some n → n = (t.take b.pos).count sep

theorem goodBlk_mk {t : List α} {sep : α} {p e : Nat} (h : IsLine t sep p e) : GoodBlk t sep (Blk.mk' p e) := by
  refine ⟨h, ?_⟩
  intro n hn
  simp only [Blk.mk'] at hn ⊢
  split at hn
  · rename_i h0; subst h0; simp at hn; subst hn; simp
  · simp at hn

theorem goodBlk_next {t : List α} {sep : α} {b b' : Blk} (hb : GoodBlk t sep b)
    (h : nextBlock t sep b = some b') : GoodBlk t sep b' := by
  obtain ⟨h1, h2, h3⟩ := next_isLine hb.1 h
  refine ⟨h1, ?_⟩
  intro n hn
  have hc := count_next hb.1 h3
  rw [h2, hc]
  unfold nextBlock at h
  split at h
  · simp at h
  · simp only [Option.some.injEq] at h
    subst h
    cases hbn : b.num with
    | none => rw [hbn] at hn; simp [Blk.withNum, Blk.mk'] at hn
    | some k =>
      have := hb.2 k hbn
      rw [hbn] at hn; simp [Blk.withNum] at hn; omega

theorem goodBlk_prev {t : List α} {sep : α} {b b' : Blk} (hb : GoodBlk t sep b)
    (h : previousBlock t sep b = some b') : GoodBlk t sep b' := by
  obtain ⟨h1, h2, h3⟩ := prev_isLine hb.1 h
  refine ⟨h1, ?_⟩
  intro n hn
  have hc := count_next h1 h3
  unfold previousBlock at h
  split at h
  · simp only [Option.some.injEq] at h
    cases hbn : b.num with
    | none =>
      rw [hbn] at h
      simp only [Option.map_none, Blk.withNum] at h
      subst h
      exact (goodBlk_mk h1).2 n hn
    | some k =>
      have := hb.2 k hbn
      rw [hbn] at h
      simp only [Option.map_some, Blk.withNum] at h
      have hn2 : k - 1 = n := by rw [← h] at hn; simpa using hn
      rw [h2] at this
      omega
  · simp at h

theorem blockNumber_good {t : List α} {sep : α} {b : Blk} (hb : GoodBlk t sep b) :
    blockNumber t sep b = (t.take b.pos).count sep := by
  unfold blockNumber
  split
  · rename_i n h; exact hb.2 n h
  · rfl

/-! ### All blocks -/


theorem linesOf_ne_nil (sep : α) (l : List α) : linesOf sep l ≠ [] := by
  cases l with
  | nil => simp [linesOf]
  | cons c cs =>
    simp only [linesOf]
    split
    · simp
    · split <;> simp

theorem linesOf_noSep (sep : α) : ∀ (l : List α), sep ∉ l → linesOf sep l = [l]
  | [], _ => rfl
  | c :: cs, h => by
    simp only [List.mem_cons, not_or] at h
    simp only [linesOf, linesOf_noSep sep cs h.2]
    rw [if_neg (fun h' => h.1 h'.symm)]

theorem linesOf_append (sep : α) (r : List α) : ∀ (l : List α), sep ∉ l →
    linesOf sep (l ++ sep :: r) = l :: linesOf sep r
  | [], _ => by
    simp only [List.nil_append, linesOf]
    split
    · rename_i h; exact absurd h (linesOf_ne_nil sep r)
    · rename_i h; simp [h]
  | c :: cs, h => by
    simp only [List.mem_cons, not_or] at h
    simp only [List.cons_append, linesOf, linesOf_append sep r cs h.2]
    rw [if_neg (fun h' => h.1 h'.symm)]

theorem IsLine.not_mem {t : List α} {sep : α} {p e : Nat} (h : IsLine t sep p e) :
    sep ∉ slice t p e := by
  intro hm
  obtain ⟨i, hi, h8⟩ := List.getElem_of_mem hm
  have h9 : (slice t p e)[i]? = some sep := by rw [List.getElem?_eq_getElem hi, h8]
  simp only [slice, List.getElem?_drop] at h9
  have hlt : p + i < e := by
    rw [slice_length] at hi; omega
  rw [List.getElem?_take_of_lt hlt] at h9
  exact h.inside _ (by omega) hlt h9

theorem drop_line {t : List α} {sep : α} {p e : Nat} (h : IsLine t sep p e) (hs : t[e]? = some sep) :
    t.drop p = slice t p e ++ sep :: t.drop (e + 1) := by
  have h1 : t.drop p = slice t p e ++ t.drop e := by
    unfold slice
    conv => lhs; rw [← List.take_append_drop e t]
    rw [List.drop_append, List.length_take]
    have := h.le; have := h.stop_le
    rw [show p - min e t.length = 0 by omega, List.drop_zero]
  rw [h1]
  congr 1
  rw [List.drop_eq_getElem_cons (block_getElem?_lt hs)]
  congr 1
  exact (List.getElem?_eq_some_iff.1 hs).2


theorem blocksFrom_eq (t : List α) (sep : α) (b : Blk) :
    blocksFrom t sep b = b :: (match nextBlock t sep b with
      | none => []
      | some b' => blocksFrom t sep b') := by
  rw [blocksFrom]
  split <;> rename_i h <;> simp [h]

theorem blocksFrom_none {t : List α} {sep : α} {b : Blk} (h : nextBlock t sep b = none) :
    blocksFrom t sep b = [b] := by rw [blocksFrom_eq, h]

theorem blocksFrom_some {t : List α} {sep : α} {b b' : Blk} (h : nextBlock t sep b = some b') :
    blocksFrom t sep b = b :: blocksFrom t sep b' := by rw [blocksFrom_eq, h]

/-- Consecutive blocks up to the end of the text. -/
theorem blocksFrom_lines {t : List α} {sep : α} : ∀ (n : Nat) (b : Blk), t.length - b.stop ≤ n →
    GoodBlk t sep b →
    (blocksFrom t sep b).map (fun x => slice t x.pos x.stop) = linesOf sep (t.drop b.pos) ∧
    (∀ x ∈ blocksFrom t sep b, GoodBlk t sep x) ∧
    (∀ (i : Nat) x, (blocksFrom t sep b)[i]? = some x →
      (t.take x.pos).count sep = (t.take b.pos).count sep + i) ∧
    (∀ (i : Nat) x, (blocksFrom t sep b)[i]? = some x →
      nextBlock t sep x = (blocksFrom t sep b)[i + 1]?) ∧
    (blocksFrom t sep b).length = (t.drop b.pos).count sep + 1 := by
  intro n
  induction n with
  | zero =>
    intro b hn hb
    have hst : b.stop = t.length := by have := hb.1.stop_le; omega
    have h : nextBlock t sep b = none := (next_none hb.1).2 hst
    rw [blocksFrom_none h]
    have hd : t.drop b.pos = slice t b.pos b.stop := by simp [slice, hst]
    refine ⟨?_, by simpa using hb, ?_, ?_, ?_⟩
    · rw [hd, linesOf_noSep sep _ hb.1.not_mem]; rfl
    · intro i x hx
      cases i with
      | zero => simp at hx; simp [hx]
      | succ i => simp at hx
    · intro i x hx
      cases i with
      | zero => simp at hx; simp [← hx, h]
      | succ i => simp at hx
    · rw [hd, List.count_eq_zero.2 hb.1.not_mem]; rfl
  | succ n ih =>
    intro b hn hb
    cases h : nextBlock t sep b with
    | none =>
      have hst : b.stop = t.length := (next_none hb.1).1 h
      rw [blocksFrom_none h]
      have hd : t.drop b.pos = slice t b.pos b.stop := by simp [slice, hst]
      refine ⟨?_, by simpa using hb, ?_, ?_, ?_⟩
      · rw [hd, linesOf_noSep sep _ hb.1.not_mem]; rfl
      · intro i x hx
        cases i with
        | zero => simp at hx; simp [hx]
        | succ i => simp at hx
      · intro i x hx
        cases i with
        | zero => simp at hx; simp [← hx, h]
        | succ i => simp at hx
      · rw [hd, List.count_eq_zero.2 hb.1.not_mem]; rfl
    | some b' =>
      have hlt := nextBlock_stop h
      obtain ⟨h1, h2, h3⟩ := next_isLine hb.1 h
      obtain ⟨i1, i2, i3, i4, i5⟩ := ih b' (by omega) (goodBlk_next hb h)
      rw [blocksFrom_some h]
      refine ⟨?_, ?_, ?_, ?_, ?_⟩
      · rw [List.map_cons, i1, drop_line hb.1 h3, linesOf_append sep _ _ hb.1.not_mem, h2]
      · intro x hx
        rcases List.mem_cons.1 hx with rfl | hx
        · exact hb
        · exact i2 x hx
      · intro i x hx
        cases i with
        | zero => simp at hx; simp [hx]
        | succ i =>
          simp only [List.getElem?_cons_succ] at hx
          rw [i3 i x hx, h2, count_next hb.1 h3]; omega
      · intro i x hx
        cases i with
        | zero =>
          simp only [List.getElem?_cons_zero, Option.some.injEq] at hx
          subst hx
          rw [h, blocksFrom_eq t sep b']; simp
        | succ i =>
          simp only [List.getElem?_cons_succ] at hx ⊢
          exact i4 i x hx
      · rw [List.length_cons, i5, drop_line hb.1 h3, List.count_append,
          List.count_eq_zero.2 hb.1.not_mem, h2]
        simp

theorem first_good (t : List α) (sep : α) : GoodBlk t sep (findBlock t sep 0) ∧ (findBlock t sep 0).pos = 0 := by
  have h := isLine_find (t := t) (sep := sep) 0
  exact ⟨goodBlk_mk h.1, by omega⟩

theorem blocks_lines (t : List α) (sep : α) (start : Nat) :
    (blocks t sep start).map (fun x => slice t x.pos x.stop) =
      linesOf sep (t.drop (findBlock t sep start).pos) ∧
    (∀ x ∈ blocks t sep start, GoodBlk t sep x) ∧
    (∀ (i : Nat) x, (blocks t sep start)[i]? = some x →
      (t.take x.pos).count sep = (t.take (findBlock t sep start).pos).count sep + i) ∧
    (∀ (i : Nat) x, (blocks t sep start)[i]? = some x →
      nextBlock t sep x = (blocks t sep start)[i + 1]?) ∧
    (blocks t sep start).length = (t.drop (findBlock t sep start).pos).count sep + 1 :=
  blocksFrom_lines _ _ (Nat.le_refl _) (goodBlk_mk (isLine_find start).1)

theorem blocksUntil_eq {t : List α} {sep : α} (stop : Nat) : ∀ (n : Nat) (b : Blk),
    t.length - b.stop ≤ n → IsLine t sep b.pos b.stop →
    blocksUntil t sep stop b = b :: (blocksFrom t sep b).tail.takeWhile (fun x => decide (x.pos < stop)) := by
  intro n
  induction n with
  | zero =>
    intro b hn hb
    have h : nextBlock t sep b = none := (next_none hb).2 (by have := hb.stop_le; omega)
    rw [blocksFrom_none h, blocksUntil]
    split <;> rename_i h' <;> simp_all
  | succ n ih =>
    intro b hn hb
    cases h : nextBlock t sep b with
    | none =>
      rw [blocksFrom_none h, blocksUntil]
      split <;> rename_i h' <;> simp_all
    | some b' =>
      have hlt := nextBlock_stop h
      rw [blocksFrom_some h, blocksUntil]
      split
      · simp_all
      · rename_i b'' h'
        rw [h] at h'
        cases h'
        simp only [List.tail_cons]
        rw [blocksFrom_eq t sep b', List.takeWhile_cons]
        by_cases hge : b'.pos ≥ stop
        · rw [if_pos hge]; simp; omega
        · rw [if_neg hge, ih b' (by omega) (next_isLine hb h).1, blocksFrom_eq t sep b']
          simp; omega


/-- The blocks yielded from `b` on are exactly the lines from there, in order. -/
theorem blocksFrom_mem {t : List α} {sep : α} : ∀ (n : Nat) (b : Blk), t.length - b.stop ≤ n →
    IsLine t sep b.pos b.stop →
    (∀ p e, (∃ x ∈ blocksFrom t sep b, x.pos = p ∧ x.stop = e) ↔ IsLine t sep p e ∧ b.pos ≤ p) ∧
    (blocksFrom t sep b).Pairwise (fun x y => x.pos < y.pos) := by
  intro n
  have last : ∀ b, nextBlock t sep b = none → IsLine t sep b.pos b.stop → 
    (∀ p e, (∃ x ∈ blocksFrom t sep b, x.pos = p ∧ x.stop = e) ↔ IsLine t sep p e ∧ b.pos ≤ p) ∧
    (blocksFrom t sep b).Pairwise (fun x y => x.pos < y.pos) := by
    intro b h hb
    rw [blocksFrom_none h]
    refine ⟨?_, by simp⟩
    intro p e
    constructor
    · rintro ⟨x, hx, rfl, rfl⟩
      rw [List.mem_singleton] at hx
      subst hx
      exact ⟨hb, Nat.le_refl _⟩
    · rintro ⟨h1, h2⟩
      have h3 := (next_none hb).1 h
      have := h1.le; have := h1.stop_le
      obtain ⟨h4, h5⟩ := hb.unique h1 h2 (by omega) (Nat.le_refl _) h1.le
      exact ⟨b, by simp, h4, h5⟩
  induction n with
  | zero =>
    intro b hn hb
    exact last b ((next_none hb).2 (by have := hb.stop_le; omega)) hb
  | succ n ih =>
    intro b hn hb
    cases h : nextBlock t sep b with
    | none => exact last b h hb
    | some b' =>
      have hlt := nextBlock_stop h
      obtain ⟨h1, h2, h3⟩ := next_isLine hb h
      obtain ⟨i1, i2⟩ := ih b' (by omega) h1
      rw [blocksFrom_some h]
      have := hb.le
      refine ⟨?_, ?_⟩
      · intro p e
        constructor
        · rintro ⟨x, hx, h4, h5⟩
          rcases List.mem_cons.1 hx with rfl | hx
          · subst h4 h5; exact ⟨hb, Nat.le_refl _⟩
          · have := (i1 p e).1 ⟨x, hx, h4, h5⟩
            exact ⟨this.1, by omega⟩
        · rintro ⟨h4, h5⟩
          by_cases h6 : p ≤ b.stop
          · obtain ⟨h7, h8⟩ := hb.unique h4 h5 h6 (Nat.le_refl _) h4.le
            exact ⟨b, by simp, h7, h8⟩
          · obtain ⟨x, hx, h7, h8⟩ := (i1 p e).2 ⟨h4, by omega⟩
            exact ⟨x, by simp [hx], h7, h8⟩
      · refine List.pairwise_cons.2 ⟨?_, i2⟩
        intro x hx
        have := ((i1 x.pos x.stop).1 ⟨x, hx, rfl, rfl⟩).2
        omega

theorem mem_takeWhile_sorted (stop : Nat) : ∀ (l : List Blk), l.Pairwise (fun x y => x.pos < y.pos) →
    ∀ x, x ∈ l.takeWhile (fun x => decide (x.pos < stop)) ↔ x ∈ l ∧ x.pos < stop
  | [], _, x => by simp
  | a :: l, h, x => by
    have h' := List.pairwise_cons.1 h
    have ih := mem_takeWhile_sorted stop l h'.2 x
    rw [List.takeWhile_cons]
    by_cases ha : a.pos < stop
    · simp only [ha, decide_true, if_true, List.mem_cons, ih]
      constructor
      · rintro (rfl | ⟨h1, h2⟩)
        · exact ⟨Or.inl rfl, ha⟩
        · exact ⟨Or.inr h1, h2⟩
      · rintro ⟨rfl | h1, h2⟩
        · exact Or.inl rfl
        · exact Or.inr ⟨h1, h2⟩
    · simp only [ha, decide_false, List.mem_cons]
      constructor
      · intro h; simp at h
      · rintro ⟨rfl | h1, h2⟩
        · omega
        · have := h'.1 x h1; omega

/-! ### By number -/

theorem byNumberLoop_eq {t : List α} {sep : α} : ∀ (k : Nat) (b : Blk), IsLine t sep b.pos b.stop →
    byNumberLoop t sep k (some (b.pos, b.stop)) =
      ((blocksFrom t sep b)[k]?).map (fun x => (x.pos, x.stop)) := by
  intro k
  induction k with
  | zero => intro b hb; rw [blocksFrom_eq]; rfl
  | succ k ih =>
    intro b hb
    rw [byNumberLoop]
    split
    · rename_i he
      rw [blocksFrom_none ((next_none hb).2 he)]; simp
    · rename_i he
      cases h : nextBlock t sep b with
      | none => exact absurd ((next_none hb).1 h) he
      | some b' =>
        obtain ⟨h1, h2, h3⟩ := next_isLine hb h
        rw [blocksFrom_some h, List.getElem?_cons_succ, ← ih b' h1]
        congr 2
        have h4 : b'.stop = findEndOfBlock t sep (b.stop + 1) := by
          have hl := isLine_end (sep := sep) (p := b.stop + 1) (t := t)
            (by have := block_getElem?_lt h3; omega) (Or.inr (by simpa using h3))
          rw [h2] at h1
          exact (h1.unique hl (Nat.le_refl _) h1.le (Nat.le_refl _) hl.le).2
        rw [h2, h4]

theorem byNumber_nonneg (t : List α) (sep : α) (k : Nat) :
    byNumberLoop t sep (k + 1) none = ((blocks t sep)[k]?).map (fun x => (x.pos, x.stop)) := by
  have h := isLine_find (t := t) (sep := sep) 0
  have h0 : (findBlock t sep 0).pos = 0 := by omega
  have := byNumberLoop_eq k _ h.1
  rw [byNumberLoop]
  have h2 : (findBlock t sep 0).stop = findEndOfBlock t sep 0 := by
    show findEndOfBlock t sep (findBlock t sep 0).pos = _
    rw [h0]
  rw [h0, h2] at this
  exact this

theorem prev_of_next {t : List α} {sep : α} {b b' : Blk} (hb : IsLine t sep b.pos b.stop)
    (h : nextBlock t sep b = some b') :
    0 < b'.pos ∧ findStartOfBlock t sep (b'.pos - 1) = b.pos ∧ b'.pos - 1 = b.stop := by
  obtain ⟨h1, h2, h3⟩ := next_isLine hb h
  have hl := isLine_start (sep := sep) (e := b.stop) (t := t) hb.stop_le hb.right
  have := hb.unique hl hb.le (Nat.le_refl _) hl.le (Nat.le_refl _)
  rw [show b'.pos - 1 = b.stop by omega]
  exact ⟨by omega, this.1.symm, rfl⟩

theorem getLast_line (t : List α) (sep : α) {i : Nat} {x : Blk} (hx : (blocks t sep)[i]? = some x)
    (hi : i + 1 = (blocks t sep).length) : x.stop = t.length := by
  obtain ⟨_, i2, _, i4, _⟩ := blocks_lines t sep 0
  have h1 := i4 i x hx
  rw [List.getElem?_eq_none (by omega)] at h1
  exact (next_none (i2 x (List.mem_of_getElem? hx)).1).1 h1

theorem byNumberBack_eq {t : List α} {sep : α} : ∀ (k : Nat) (i : Nat) (x : Blk),
    (blocks t sep)[i]? = some x →
    byNumberBack t sep k (x.pos, x.stop) =
      if k ≤ i then ((blocks t sep)[i - k]?).map (fun x => (x.pos, x.stop)) else none := by
  obtain ⟨i1, i2, i3, i4, i5⟩ := blocks_lines t sep 0
  intro k
  induction k with
  | zero => intro i x hx; simp [byNumberBack, hx]
  | succ k ih =>
    intro i x hx
    rw [byNumberBack]
    cases i with
    | zero =>
      have : x.pos = 0 := by
        unfold blocks at hx
        simp only at hx
        rw [blocksFrom_eq] at hx
        simp only [List.getElem?_cons_zero, Option.some.injEq] at hx
        rw [← hx]; exact (first_good t sep).2
      simp [this]
    | succ i =>
      have hlt : i < (blocks t sep).length := by
        have := block_getElem?_lt' hx; omega
      obtain ⟨y, hy⟩ : ∃ y, (blocks t sep)[i]? = some y := ⟨_, List.getElem?_eq_getElem hlt⟩
      have hn := i4 i y hy
      rw [hx] at hn
      obtain ⟨h1, h2, h3⟩ := prev_of_next (i2 y (List.mem_of_getElem? hy)).1 hn
      rw [if_neg (by omega), h2, h3, ih i y hy]
      simp only [Nat.add_le_add_iff_right, Nat.add_sub_add_right]

theorem byNumber_neg (t : List α) (sep : α) (k : Nat) (hk : 0 < k) :
    byNumberBack t sep k (t.length + 1, 0) =
      if k ≤ (blocks t sep).length then
        ((blocks t sep)[(blocks t sep).length - k]?).map (fun x => (x.pos, x.stop)) else none := by
  obtain ⟨i1, i2, i3, i4, i5⟩ := blocks_lines t sep 0
  obtain ⟨k, rfl⟩ : ∃ j, k = j + 1 := ⟨k - 1, by omega⟩
  have hpos : 0 < (blocks t sep).length := by omega
  obtain ⟨y, hy⟩ : ∃ y, (blocks t sep)[(blocks t sep).length - 1]? = some y :=
    ⟨_, List.getElem?_eq_getElem (by omega)⟩
  have hl := getLast_line t sep hy (by omega)
  have hg := (i2 y (List.mem_of_getElem? hy)).1
  rw [byNumberBack, if_neg (by omega), Nat.add_sub_cancel]
  have hs := isLine_start (sep := sep) (e := t.length) (t := t) (Nat.le_refl _) (Or.inl rfl)
  have := hg.unique (p := t.length) hs (by have := hg.le; omega) (by omega) hs.le (Nat.le_refl _)
  rw [← this.1, ← hl, byNumberBack_eq k _ y hy]
  by_cases h : k + 1 ≤ (blocks t sep).length
  · rw [if_pos h, if_pos (by omega), show (blocks t sep).length - 1 - k = (blocks t sep).length - (k + 1) by omega]
  · rw [if_neg h, if_neg (by omega)]

end Parce

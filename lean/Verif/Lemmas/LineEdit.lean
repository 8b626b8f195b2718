import Verif.Props.Block
import Verif.Props.Edit
/-!
# Lemmas: editing the lines of a text

Every line gets at most one edit, within the line. Then the new text is that of the new lines.
-/
namespace Parce
variable {α : Type} [DecidableEq α]

/-- The blocks are consecutive lines, from position `k` to the end of the text. -/
inductive Tiling (t : List α) (sep : α) : Nat → List Blk → Prop
  | last (b : Blk) : b.pos ≤ b.stop → b.stop = t.length → Tiling t sep b.pos [b]
  | cons (b : Blk) (bs : List Blk) : b.pos ≤ b.stop → t[b.stop]? = some sep → Tiling t sep (b.stop + 1) bs → Tiling t sep b.pos (b :: bs)

theorem Tiling.ne_nil {t : List α} {sep : α} {k : Nat} {bs : List Blk} (h : Tiling t sep k bs) : bs ≠ [] := by
  cases h <;> simp

theorem tiling_from {t : List α} {sep : α} : (n : Nat) → (b : Blk) → t.length - b.stop ≤ n → IsLine t sep b.pos b.stop →
    Tiling t sep b.pos (blocksFrom t sep b)
  | n, b, hn, hb => by
    cases h : nextBlock t sep b with
    | none => rw [blocksFrom_none h]; exact .last b hb.le ((next_none hb).1 h)
    | some b' =>
      have hlt := nextBlock_stop h
      obtain ⟨h1, h2, h3⟩ := next_isLine hb h
      rw [blocksFrom_some h]
      refine .cons b _ hb.le h3 ?_
      rw [← h2]
      cases n with
      | zero => omega
      | succ n => exact tiling_from n b' (by omega) h1

theorem tiling_blocks (t : List α) (sep : α) : Tiling t sep 0 (blocks t sep) := by
  have h := first_good t sep
  have := tiling_from _ (findBlock t sep 0) (Nat.le_refl _) h.1.1
  rw [h.2] at this
  exact this

/-- The edit of a line lies within it. -/
def EditOk (x : Blk × Option (Change α)) : Prop := ∀ c, x.2 = some c → x.1.pos ≤ c.start ∧ c.start ≤ c.stop ∧ c.stop ≤ x.1.stop

/-- The line after its edit. -/
def newLine (t : List α) (x : Blk × Option (Change α)) : List α := match x.2 with
  | none => slice t x.1.pos x.1.stop
  | some c => slice t x.1.pos c.start ++ c.text ++ slice t c.stop x.1.stop

theorem slice_split (t : List α) {a b c : Nat} (h1 : a ≤ b) (h2 : b ≤ c) : slice t a c = slice t a b ++ slice t b c := by
  unfold slice
  rw [show (t.take c).drop b = ((t.take c).drop a).drop (b - a) by rw [List.drop_drop]; congr 1; omega]
  rw [show (t.take b).drop a = ((t.take c).drop a).take (b - a) by
    rw [List.take_drop, List.take_take]
    congr 2; omega]
  rw [List.take_append_drop]

theorem updateFrom_skip (t : List α) {k k' : Nat} (cs : List (Change α)) (h : k ≤ k') (hk : k' ≤ t.length)
    (hc : ∀ c ∈ cs.head?, k' ≤ c.start) : updateFrom t k cs = slice t k k' ++ updateFrom t k' cs := by
  cases cs with
  | nil =>
    simp only [updateFrom]
    have e : ∀ j, t.drop j = slice t j t.length := by intro j; simp [slice]
    rw [e, e, slice_split t h hk]
  | cons c cs =>
    have hc := hc c (by simp)
    simp only [updateFrom]
    have e : ∀ j, (if c.start > j then slice t j c.start else []) = slice t j c.start := by
      intro j
      split
      · rfl
      · rw [slice, eq_comm, List.drop_eq_nil_iff, List.length_take]; omega
    rw [e, e, slice_split t h hc]
    simp only [List.append_assoc]

theorem slice_sep (t : List α) {e : Nat} {sep : α} (h : t[e]? = some sep) : slice t e (e + 1) = [sep] := by
  have he := block_getElem?_lt h
  unfold slice
  rw [List.drop_take, show e + 1 - e = 1 by omega, List.drop_eq_getElem_cons he]
  rw [List.getElem?_eq_getElem he] at h
  injection h with h
  simp [h]

theorem updateFrom_tiling {t : List α} {sep : α} {k : Nat} {bs : List Blk} (h : Tiling t sep k bs) :
    ∀ xs : List (Blk × Option (Change α)), xs.map (·.1) = bs → (∀ x ∈ xs, EditOk x) →
      Chain t.length k (xs.filterMap (·.2)) ∧ (∀ c ∈ xs.filterMap (·.2), k ≤ c.start) ∧
      updateFrom t k (xs.filterMap (·.2)) = joinLines sep (xs.map (newLine t)) := by
  induction h with
  | last b h1 h2 =>
    intro xs hx hok
    match xs, hx with
    | [x], hx =>
      simp only [List.map_cons, List.map_nil, List.cons.injEq, and_true] at hx
      have hok := hok x (by simp)
      obtain ⟨x1, x2⟩ := x
      simp only at hx; subst hx
      cases x2 with
      | none =>
        simp only [List.filterMap_cons, List.filterMap_nil, List.map_cons, List.map_nil, newLine, joinLines, updateFrom]
        exact ⟨.nil _ (by omega), by simp, by simp [slice, h2]⟩
      | some c =>
        obtain ⟨a1, a2, a3⟩ := hok c rfl
        simp only at a1 a2 a3
        simp only [List.filterMap_cons, List.filterMap_nil, List.map_cons, List.map_nil, newLine, joinLines]
        have hch : Chain t.length x1.pos [c] := .cons _ _ _ a1 a2 (by omega) (.nil _ (by omega))
        refine ⟨hch, hch.start_ge, ?_⟩
        rw [updateFrom_skip t [c] a1 (by omega) (by simp)]
        simp only [updateFrom, Nat.lt_irrefl, gt_iff_lt, if_false, List.nil_append, List.append_assoc]
        congr 2
        simp [slice, h2]
  | cons b bs h1 h2 h3 ih =>
    intro xs hx hok
    match xs, hx with
    | x :: xs, hx =>
      simp only [List.map_cons, List.cons.injEq] at hx
      obtain ⟨hx, hxs⟩ := hx
      obtain ⟨c1, c2, c3⟩ := ih xs hxs (fun y hy => hok y (by simp [hy]))
      have hok := hok x (by simp)
      obtain ⟨x1, x2⟩ := x
      simp only at hx; subst hx
      have hlt := block_getElem?_lt h2
      have hne : xs.map (newLine t) ≠ [] := by
        intro e
        have : xs = [] := List.map_eq_nil_iff.1 e
        subst this
        simp only [List.map_nil] at hxs
        exact h3.ne_nil hxs.symm
      have hjoin : ∀ l, joinLines sep (l :: xs.map (newLine t)) = l ++ sep :: joinLines sep (xs.map (newLine t)) := by
        intro l
        cases hm : xs.map (newLine t) with
        | nil => exact absurd hm hne
        | cons a as => rfl
      rw [List.map_cons, hjoin, ← c3]
      have hhead : ∀ k', k' ≤ x1.stop + 1 → ∀ c ∈ (xs.filterMap (·.2)).head?, k' ≤ c.start := by
        intro k' hk c hc
        have := c2 c (List.mem_of_mem_head? hc)
        omega
      cases x2 with
      | none =>
        simp only [List.filterMap_cons, newLine]
        refine ⟨?_, fun c hc => by have := c2 c hc; omega, ?_⟩
        · cases hcs : xs.filterMap (·.2) with
          | nil => exact .nil _ (by omega)
          | cons c cs =>
            rw [hcs] at c1 c2
            cases c1 with
            | cons _ _ _ d1 d2 d3 d4 => exact .cons _ _ _ (by omega) d2 d3 d4
        · rw [updateFrom_skip t _ (show x1.pos ≤ x1.stop by exact h1) (by omega) (hhead _ (by omega)),
            updateFrom_skip t _ (show x1.stop ≤ x1.stop + 1 by omega) (by omega) (hhead _ (by omega)), slice_sep t h2]
          simp
      | some c =>
        obtain ⟨a1, a2, a3⟩ := hok c rfl
        simp only at a1 a2 a3
        simp only [List.filterMap_cons, newLine]
        have hch : Chain t.length x1.pos (c :: xs.filterMap (·.2)) := by
          refine .cons _ _ _ a1 a2 (by omega) ?_
          cases hcs : xs.filterMap (·.2) with
          | nil => exact .nil _ (by omega)
          | cons c' cs =>
            rw [hcs] at c1 c2
            cases c1 with
            | cons _ _ _ d1 d2 d3 d4 => exact .cons _ _ _ (by omega) d2 d3 d4
        refine ⟨hch, hch.start_ge, ?_⟩
        rw [updateFrom_skip t (c :: _) a1 (by omega) (by simp)]
        simp only [updateFrom, Nat.lt_irrefl, gt_iff_lt, if_false, List.nil_append, List.append_assoc]
        congr 2
        rw [updateFrom_skip t _ a3 (by omega) (hhead _ (by omega)),
          updateFrom_skip t _ (show x1.stop ≤ x1.stop + 1 by omega) (by omega) (hhead _ (by omega)), slice_sep t h2]
        simp

/-- The edits of a tiling are at strictly increasing positions and do not overlap. -/
theorem tiling_sorted {t : List α} {sep : α} {k : Nat} {bs : List Blk} (h : Tiling t sep k bs) :
    ∀ xs : List (Blk × Option (Change α)), xs.map (·.1) = bs → (∀ x ∈ xs, EditOk x) →
      (xs.filterMap (·.2)).Pairwise (fun c d => c.stop < d.start) ∧
      ∀ c ∈ xs.filterMap (·.2), k ≤ c.start ∧ c.start ≤ c.stop ∧ c.stop ≤ t.length := by
  induction h with
  | last b h1 h2 =>
    intro xs hx hok
    match xs, hx with
    | [x], hx =>
      simp only [List.map_cons, List.map_nil, List.cons.injEq, and_true] at hx
      have hok := hok x (by simp)
      obtain ⟨x1, x2⟩ := x
      simp only at hx; subst hx
      cases x2 with
      | none => simp
      | some c =>
        obtain ⟨a1, a2, a3⟩ := hok c rfl
        simp only at a1 a2 a3
        simp only [List.filterMap_cons, List.filterMap_nil, List.mem_singleton, List.pairwise_cons, List.not_mem_nil, false_implies,
          implies_true, List.Pairwise.nil, and_self, true_and]
        rintro d rfl
        exact ⟨a1, a2, by omega⟩
  | cons b bs h1 h2 h3 ih =>
    intro xs hx hok
    match xs, hx with
    | x :: xs, hx =>
      simp only [List.map_cons, List.cons.injEq] at hx
      obtain ⟨hx, hxs⟩ := hx
      obtain ⟨c1, c2⟩ := ih xs hxs (fun y hy => hok y (by simp [hy]))
      have hok := hok x (by simp)
      obtain ⟨x1, x2⟩ := x
      simp only at hx; subst hx
      have hlt := block_getElem?_lt h2
      cases x2 with
      | none =>
        simp only [List.filterMap_cons]
        refine ⟨c1, fun c hc => ?_⟩
        have := c2 c hc
        omega
      | some c =>
        obtain ⟨a1, a2, a3⟩ := hok c rfl
        simp only at a1 a2 a3
        simp only [List.filterMap_cons, List.pairwise_cons, List.mem_cons]
        refine ⟨⟨fun d hd => by have := c2 d hd; omega, c1⟩, ?_⟩
        rintro d (rfl | hd)
        · exact ⟨a1, a2, by omega⟩
        · have := c2 d hd; omega

/-- Making the edits in a `with` block. -/
theorem withBlock_lines (t : List α) (sep : α) (xs : List (Blk × Option (Change α))) (hx : xs.map (·.1) = blocks t sep)
    (hok : ∀ x ∈ xs, EditOk x) :
    (withBlock ⟨t, 0, []⟩ ((xs.filterMap (·.2)).map (fun c => Op.set (.range (some c.start) (some c.stop)) c.text))).state =
      ⟨joinLines sep (xs.map (newLine t)), 0, []⟩ ∧
    (withBlock ⟨t, 0, []⟩ ((xs.filterMap (·.2)).map (fun c => Op.set (.range (some c.start) (some c.stop)) c.text))).error = none := by
  obtain ⟨h1, h2, h3⟩ := updateFrom_tiling (tiling_blocks t sep) xs hx hok
  obtain ⟨h4, h5⟩ := tiling_sorted (tiling_blocks t sep) xs hx hok
  generalize xs.filterMap (·.2) = cs at *
  have hreq : ∀ cs : List (Change α), (∀ c ∈ cs, 0 ≤ c.start ∧ c.start ≤ c.stop ∧ c.stop ≤ t.length) →
      requests t.length (cs.map (fun c => Op.set (.range (some c.start) (some c.stop)) c.text)) = some cs := by
    intro cs
    induction cs with
    | nil => intro _; rfl
    | cons c cs ih =>
      intro h
      have hc := h c (by simp)
      have ih := ih (fun d hd => h d (by simp [hd]))
      have hk : keyRegion t.length (.range (some c.start) (some c.stop)) = some (c.start, c.stop) := by
        simp only [keyRegion, pyBound]
        rw [if_neg (by omega), if_neg (by omega)]
        simp only [Int.toNat_natCast, Option.some.injEq, Prod.mk.injEq]
        omega
      simp only [List.map_cons, requests, ih, hk]
      rfl
  have hnest : ∀ cs : List (Change α), Nested 1 (cs.map (fun c => Op.set (.range (some c.start) (some c.stop)) c.text)) := by
    intro cs
    induction cs with
    | nil => rfl
    | cons c cs ih => exact ih
  have hno : NonOverlapping cs := by
    intro r hr r' hr' hlt
    have : ∀ cs : List (Change α), cs.Pairwise (fun c d => c.stop < d.start) → (∀ c ∈ cs, c.start ≤ c.stop) →
        ∀ r ∈ cs, ∀ r' ∈ cs, r.start < r'.start → r.stop ≤ r'.start := by
      intro cs hp hle r hr r' hr' hlt
      obtain ⟨i, hi, rfl⟩ := List.getElem_of_mem hr
      obtain ⟨j, hj, rfl⟩ := List.getElem_of_mem hr'
      rcases Nat.lt_trichotomy i j with h | h | h
      · have := List.pairwise_iff_getElem.1 hp i j hi hj h; omega
      · subst h; omega
      · have := List.pairwise_iff_getElem.1 hp j i hj hi h
        have := hle _ hr'
        have := hle _ hr
        omega
    exact this cs h4 (fun c hc => (h5 c hc).2.1) r hr r' hr' hlt
  have hd : (cs.map (·.start)).Nodup := by
    unfold List.Nodup
    rw [List.pairwise_map]
    refine h4.imp_of_mem (fun {a b} ha hb h => ?_)
    have := h5 a ha
    omega
  have := C01_context_is_splice_distinct t _ cs (hnest cs) (hreq cs h5) hno hd
  refine ⟨?_, this.2⟩
  rw [this.1, ← h3, updateFrom_eq t h1, splice_eq, List.range_eq_range', Nat.sub_zero]

/-- Lines without separators can be read back. -/
theorem linesOf_joinLines (sep : α) : (ls : List (List α)) → ls ≠ [] → (∀ l ∈ ls, sep ∉ l) → linesOf sep (joinLines sep ls) = ls
  | [], h, _ => absurd rfl h
  | [l], _, h => linesOf_noSep sep l (h l (by simp))
  | l :: l' :: ls, _, h => by
    rw [joinLines, linesOf_append sep _ l (h l (by simp)), linesOf_joinLines sep (l' :: ls) (by simp) (fun x hx => h x (by simp at hx ⊢; exact Or.inr hx))]

theorem blocks_texts (t : List α) (sep : α) : (blocks t sep).map (fun b => slice t b.pos b.stop) = linesOf sep t := by
  have := (blocks_lines t sep 0).1
  rw [(first_good t sep).2, List.drop_zero] at this
  exact this

end Parce

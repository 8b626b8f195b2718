import Verif.Lemmas.Replace
import Verif.Props.Document
import Verif.Props.Block
/-!
# C74 to C76: replacing in a document, and the methods of a cursor
-/
namespace Parce
variable {α : Type} [DecidableEq α]

private theorem replaced_same {old : List α} {n : Option Nat} {r z : List α} {new : List α} (h : Replaced old new n r z) (hn : old = new) :
    z = r := by
  induction h with
  | enough => rfl
  | nothing => rfl
  | next _ _ _ ih => rw [ih, hn]

/-- **C74** (partial: `old` is not empty, and a negative start is only allowed if it is within the text
    and the region does not reach the end of the text). `replace` ends, raises nothing, and the text
    of the region becomes what `str.replace` makes of it; the rest stays as it is. -/
theorem C74_replace_partial (d : Doc α) (t : List α) (hd : d.ms = ⟨t, 0, []⟩) (old new : List α) (ho : old ≠ [])
    (start : Int) (stop : Option Int) (count : Int) (a b : Nat) (hr : RegionOK t.length start stop a b)
    (fuel : Nat) (hf : t.length < fuel) :
    ∃ res z, d.replace fuel old new start stop count = some res ∧ res.error = none ∧
      Replaced old new (maxCount count) (slice t a b) z ∧
      res.doc.ms = ⟨t.take a ++ z ++ t.drop b, 0, []⟩ := by
  obtain ⟨h1, h2, h3⟩ := region_eq hr.1
  have hlen : (slice t a b).length = b - a := by rw [slice_length, Nat.min_eq_left h3]
  obtain ⟨ps, g1, g2, g3⟩ := replaceLoop_spec (r := slice t a b) new ho fuel 0 count (by omega) (by omega)
  rw [hlen] at g2
  simp only [List.drop_zero] at g3
  by_cases hon : old = new
  · have hz := replaced_same g3 hon
    rw [hz] at g3
    have := region_block d t hd hr [] (Chain.nil _ (by omega)) [] rfl
    refine ⟨_, _, by simp only [Doc.replace, replaceOps, if_pos hon, Option.map_some], this.2, g3, ?_⟩
    rw [this.1]
    simp [updateText, updateFrom]
  · have hb : ps.map (fun (pos : Nat) => (.set (.range (some (start + pos)) (some (start + pos + old.length))) new : Op α)) =
        (ps.map (oldAt old new)).map (fun c => .set (.range (some (start + c.start)) (some (start + c.stop))) c.text) := by
      rw [List.map_map]
      apply List.map_congr_left
      intro p _
      simp only [Function.comp, oldAt, Int.natCast_add, Int.add_assoc]
    have := region_block d t hd hr _ g2 _ hb
    refine ⟨_, _, ?_, this.2, g3, this.1⟩
    simp only [Doc.replace, replaceOps, if_neg hon, hd, h1, g1, Option.map_some]

/-- The specification allows one result only. -/
theorem C74_replaced_unique {old new : List α} {n : Option Nat} {r x y : List α} (ho : old ≠ []) (h1 : Replaced old new n r x)
    (h2 : Replaced old new n r y) : x = y := h1.unique ho h2

theorem undo_block (d : Doc α) (t : List α) (hd : d.ms = ⟨t, 0, []⟩) (hen : d.enabled = true) (body : List (Op α))
    (hn : Nested 1 body) (he : (d.withBlock .normal body).error = none) (hc : (d.withBlock .normal body).doc.ms.text ≠ t) :
    (d.withBlock .normal body).doc.doUndo.doc.ms = ⟨t, 0, []⟩ := by
  refine (C07_undo_redo d t hd hen body hn (by rw [he]; simp) ?_).1
  rcases withBlockD_cases .normal d t hd body hn with ⟨h1, _, _⟩ | h1 | ⟨cs, u, p, _, _, h3⟩
  · rw [h1, hd] at hc; exact absurd rfl hc
  · rw [h1] at he; cases he
  · rw [h3]
    exact ⟨_, _, _, List.mem_append.2 (Or.inr (List.mem_singleton.2 rfl))⟩

private theorem nested_sets (l : List β) (f : β → Key) (g : β → List α) : Nested 1 (l.map (fun x => (.set (f x) (g x) : Op α))) := by
  induction l with
  | nil => rfl
  | cons c cs ih => exact ih

/-- **C74.** All replacements are undone in one step. -/
theorem C74_undo (d : Doc α) (t : List α) (hd : d.ms = ⟨t, 0, []⟩) (hen : d.enabled = true) (fuel : Nat) (old new : List α)
    (start : Int) (stop : Option Int) (count : Int) (res : DRes α) (h : d.replace fuel old new start stop count = some res)
    (he : res.error = none) (hc : res.doc.ms.text ≠ t) : res.doc.doUndo.doc.ms = ⟨t, 0, []⟩ := by
  unfold Doc.replace replaceOps at h
  split at h
  · simp only [Option.map_some, Option.some.injEq] at h
    subst h
    exact undo_block d t hd hen [] rfl he hc
  · simp only [Option.map_map, Option.map_eq_some_iff] at h
    obtain ⟨ps, _, h⟩ := h
    subst h
    exact undo_block d t hd hen _ (nested_sets ps _ _) he hc

/-- A negative start: what is replaced at the end of the text is not removed. -/
theorem C74_negative_violated :
    ((Doc.new "abc".toList).replace 9 "c".toList "X".toList (-1)).map (fun r => r.doc.ms.text) = some "abXc".toList ∧
    Replaced "c".toList "X".toList none "c".toList "X".toList := by
  refine ⟨by decide, ?_⟩
  exact Replaced.next (x := []) (y := []) (z := []) (by simp) (fun i hi => by simp at hi)
    (.nothing (fun i hi => by have := hi.le; simp at this))

/-- A start far before the text, that means the start of it: the replacement comes too early. -/
theorem C74_before_violated :
    ((Doc.new "abc".toList).replace 9 "b".toList "X".toList (-4)).map (fun r => r.doc.ms.text) = some "Xbc".toList := by
  decide

/-- `replace("", new)` never ends. -/
theorem C74_empty_violated (d : Doc α) (new : List α) (hn : new ≠ []) (start : Int) (stop : Option Int) (fuel : Nat) :
    d.replace fuel [] new start stop 0 = none := by
  have hfind : ∀ (r : List α) p, p ≤ r.length → strFind r ([] : List α) p = some p := by
    intro r p hp
    unfold strFind
    rw [if_pos hp]
    cases r.drop p <;> rfl
  have hloop : ∀ (r : List α) (fuel p : Nat) (count : Int), p ≤ r.length → count ≤ 0 →
      replaceLoop r ([] : List α) fuel (some p) count = none := by
    intro r fuel
    induction fuel with
    | zero => intros; rfl
    | succ fuel ih =>
      intro p count hp hc
      simp only [replaceLoop, List.length_nil, Nat.add_zero]
      rw [if_neg (by omega), hfind r p hp, ih p (count - 1) hp (by omega)]
      rfl
  unfold Doc.replace replaceOps
  rw [if_neg (fun h => hn h.symm)]
  simp only
  rw [hfind _ 0 (Nat.zero_le _), hloop _ _ _ _ (Nat.zero_le _) (by omega)]
  rfl

example : RegionOK 5 1 (some (-1)) 1 4 := ⟨rfl, Or.inl (by decide)⟩
example : RegionOK 5 (-3) (some (-1)) 2 4 := ⟨rfl, Or.inr (by decide)⟩
example : ((Doc.new "aaaaa".toList).replace 6 "aa".toList "b".toList 1 none 1).map (fun r => r.doc.ms.text) = some "abaa".toList := by
  decide
example : ((Doc.new "aaaaa".toList).replace 6 "aa".toList "b".toList).map (fun r => r.doc.ms.text) = some "bba".toList := by
  decide

/-! ### C75 -/

/-- **C75** (partial: a negative start is only allowed if it is within the text and the region does not
    reach the end of the text). `re_sub` replaces all matches in the region, at most so many as given.
    They are found from left to right, the next one after the end of the one before; the rest of the
    text stays as it is. -/
theorem C75_re_sub_partial (d : Doc α) (t : List α) (hd : d.ms = ⟨t, 0, []⟩) (p : Pat α) (repl : List α → Mtch RM → List α)
    (start : Int) (stop : Option Int) (count : Int) (a b : Nat) (hr : RegionOK t.length start stop a b) :
    let res := d.reSub p repl start stop count
    let r := slice t a b
    ∃ ms, FoundAll p r 0 false ms ∧ res.error = none ∧
      let cs := (match maxCount count with | none => ms | some n => ms.take n).map fun (m : Mtch RM) =>
        (⟨m.start, m.stop, repl r m⟩ : Change α)
      NonOverlapping cs ∧ res.doc.ms = ⟨t.take a ++ splice r cs ++ t.drop b, 0, []⟩ := by
  intro res r
  obtain ⟨h1, h2, h3⟩ := region_eq hr.1
  have hall := findIter_all p r (2 * r.length + 2) 0 false (Nat.zero_le _) (by simp)
  refine ⟨_, hall, ?_⟩
  have hup : ∀ {β : Type} (l : List β), (match maxCount count with | none => l | some n => l.take n) = upTo count l := by
    intro β l
    unfold maxCount upTo
    by_cases hc : 0 < count
    · simp only [if_pos hc]
    · simp only [if_neg hc]
  rw [hup]
  have hch := hall.upTo count (repl r)
  have hlen : r.length = b - a := by show (slice t a b).length = _; rw [slice_length, Nat.min_eq_left h3]
  have := region_block d t hd hr _ (by rw [← hlen]; exact hch) (reSubOps d.ms.text p repl start stop count) (by
    simp only [reSubOps, hd, h1, List.map_map]
    rfl)
  rw [updateText_chain _ hch] at this
  exact ⟨this.2, hch.nonOverlapping, this.1⟩

omit [DecidableEq α] in
/-- The specification allows one list of matches only. -/
theorem C75_found_unique {p : Pat α} {r : List α} {ms ms' : List (Mtch RM)} (h : FoundAll p r 0 false ms)
    (h' : FoundAll p r 0 false ms') : ms = ms' := h.unique h'

/-- **C75.** All replacements are undone in one step. -/
theorem C75_undo (d : Doc α) (t : List α) (hd : d.ms = ⟨t, 0, []⟩) (hen : d.enabled = true) (p : Pat α)
    (repl : List α → Mtch RM → List α) (start : Int) (stop : Option Int) (count : Int)
    (he : (d.reSub p repl start stop count).error = none) (hc : (d.reSub p repl start stop count).doc.ms.text ≠ t) :
    (d.reSub p repl start stop count).doc.doUndo.doc.ms = ⟨t, 0, []⟩ :=
  undo_block d t hd hen _ (nested_sets _ _ _) he hc

private theorem blanks_star {t : List Char} {f : Char → Bool} {p q : Nat} :
    Relation.ReflTransGen ((Pat.set f).mat t) p q ↔ p ≤ q ∧ ∀ j, p ≤ j → j < q → ∃ x, t[j]? = some x ∧ f x = true := by
  constructor
  · intro h
    induction h with
    | refl => exact ⟨Nat.le_refl _, fun j h1 h2 => by omega⟩
    | tail _ h2 ih =>
      obtain ⟨rfl, x, h3, h4⟩ := h2
      refine ⟨by omega, fun j h5 h6 => ?_⟩
      rcases Nat.lt_succ_iff_lt_or_eq.1 h6 with h7 | rfl
      · exact ih.2 j h5 h7
      · exact ⟨x, h3, h4⟩
  · rintro ⟨h1, h2⟩
    obtain ⟨k, rfl⟩ := Nat.exists_eq_add_of_le h1
    clear h1
    induction k with
    | zero => exact .refl
    | succ k ih =>
      exact .tail (ih fun j h3 h4 => h2 j h3 (by omega)) ⟨rfl, h2 (p + k) (by omega) (by omega)⟩

private theorem trimPat_mat {t : List Char} {i q : Nat} : trimPat.mat t i q ↔
    i < q ∧ (∀ j, i ≤ j → j < q → t[j]? = some ' ' ∨ t[j]? = some '\t') ∧ (q = t.length ∨ t[q]? = some '\n') := by
  have hb : ∀ j : Nat, (∃ x, t[j]? = some x ∧ (x == ' ' || x == '\t') = true) ↔ (t[j]? = some ' ' ∨ t[j]? = some '\t') := by
    intro j
    constructor
    · rintro ⟨x, h1, h2⟩
      simp only [Bool.or_eq_true, beq_iff_eq] at h2
      rcases h2 with rfl | rfl
      · exact Or.inl h1
      · exact Or.inr h1
    · rintro (h | h)
      · exact ⟨_, h, rfl⟩
      · exact ⟨_, h, rfl⟩
  constructor
  · rintro ⟨r, ⟨s, ⟨rfl, h0⟩, h1⟩, rfl, h2⟩
    obtain ⟨h3, h4⟩ := blanks_star.1 h1
    refine ⟨by omega, fun j h5 h6 => ?_, by simpa using h2⟩
    rw [← hb]
    by_cases h7 : j = i
    · rw [h7]; exact h0
    · exact h4 j (by omega) h6
  · rintro ⟨h1, h2, h3⟩
    refine ⟨q, ⟨i + 1, ⟨rfl, (hb i).2 (h2 i (Nat.le_refl _) h1)⟩, blanks_star.2 ⟨h1, fun j h4 h5 => ?_⟩⟩, rfl, by simpa using h3⟩
    exact (hb j).2 (h2 j (by omega) h5)

/-- **C75** (partial: like above, and the region ends at the end of a line). `trim` removes from the
    region precisely the blanks that are followed only by blanks up to the end of their line. -/
theorem C75_trim_partial (d : Doc Char) (t : List Char) (hd : d.ms = ⟨t, 0, []⟩) (start : Int) (stop : Option Int)
    (a b : Nat) (hr : RegionOK t.length start stop a b) (hb : b = t.length ∨ t[b]? = some '\n') :
    let res := d.trim start stop
    ∃ f : Nat → Bool, (∀ i, f i = true ↔ ¬ (a ≤ i ∧ i < b ∧ TrailingBlank t i)) ∧
      res.error = none ∧ res.doc.ms = ⟨selectPos t f, 0, []⟩ := by
  intro res
  classical
  obtain ⟨_, h2, h3⟩ := region_eq hr.1
  obtain ⟨ms, h4, h5, _, h7⟩ := C75_re_sub_partial d t hd trimPat (fun _ _ => []) start stop 0 a b hr
  refine ⟨fun i => decide (i < a) || decide (b ≤ i) || decide (¬ TrailingBlank t i), fun i => ?_, h5, ?_⟩
  · simp only [Bool.or_eq_true, decide_eq_true_eq]
    constructor
    · rintro h ⟨h8, h9, h10⟩
      rcases h with (h | h) | h
      · omega
      · omega
      · exact h h10
    · intro h
      by_cases h8 : i < a
      · exact Or.inl (Or.inl h8)
      · by_cases h9 : b ≤ i
        · exact Or.inl (Or.inr h9)
        · exact Or.inr fun h10 => h ⟨by omega, by omega, h10⟩
  · refine Eq.trans h7 ?_
    congr 1
    simp only [maxCount, Int.lt_irrefl, if_false]
    rw [splice_remove _ _ (by
      intro c hc
      obtain ⟨m, _, rfl⟩ := List.mem_map.1 hc
      rfl)]
    have hlen : (slice t a b).length = b - a := by rw [slice_length, Nat.min_eq_left h3]
    have hget : ∀ j, a ≤ j → j < b → (slice t a b)[j - a]? = t[j]? := by
      intro j h8 h9
      unfold slice
      rw [List.getElem?_drop, List.getElem?_take, show a + (j - a) = j by omega, if_pos h9]
    have key : ∀ i, i < b - a → (TrailingBlank t (a + i) ↔ ∃ m ∈ ms, m.start ≤ i ∧ i < m.stop) := by
      intro i hi
      constructor
      · rintro ⟨e, h8, h9, h10⟩
        have heb : e ≤ b := by
          by_cases h : e ≤ b
          · exact h
          · exfalso
            rcases h9 b (by omega) (by omega) with h11 | h11
            · rcases hb with h12 | h12
              · rw [h12] at h11; simp at h11
              · rw [h12] at h11; simp at h11
            · rcases hb with h12 | h12
              · rw [h12] at h11; simp at h11
              · rw [h12] at h11; simp at h11
        refine h4.covers (i := i) (q := e - a) (Nat.zero_le _) (trimPat_mat.2 ⟨by omega, fun j h11 h12 => ?_, ?_⟩) (by omega)
        · have := hget (a + j) (by omega) (by omega)
          rw [show a + j - a = j by omega] at this
          rw [this]
          exact h9 (a + j) (by omega) (by omega)
        · by_cases h13 : e = b
          · left; rw [hlen, h13]
          · right
            rw [hget e (by omega) (by omega)]
            rcases h10 with h10 | h10
            · omega
            · exact h10
      · rintro ⟨m, h8, h9, h10⟩
        obtain ⟨h11, h12, h13⟩ := trimPat_mat.1 (h4.mat m h8)
        have hle : m.stop ≤ b - a := by
          rcases h13 with h13 | h13
          · omega
          · have := block_getElem?_lt' h13; omega
        refine ⟨a + m.stop, by omega, fun j h14 h15 => ?_, ?_⟩
        · rw [← hget j (by omega) (by omega)]
          exact h12 (j - a) (by omega) (by omega)
        · by_cases h16 : m.stop = b - a
          · rw [h16, show a + (b - a) = b by omega]; exact hb
          · right
            rw [← hget (a + m.stop) (by omega) (by omega), show a + m.stop - a = m.stop by omega]
            rcases h13 with h13 | h13
            · omega
            · exact h13
    rw [← selectPos_region t h2 h3]
    apply selectPos_congr
    intro i hi
    by_cases h8 : i < a
    · simp [h8]
    · by_cases h9 : b ≤ i
      · simp [h9]
      · simp only [h8, h9, decide_false, Bool.false_or]
        have := key (i - a) (by omega)
        rw [show a + (i - a) = i by omega] at this
        have hany : ((ms.map fun m => (⟨m.start, m.stop, []⟩ : Change Char)).any
            fun c => decide (c.start ≤ i - a ∧ i - a < c.stop)) = decide (TrailingBlank t i) := by
          rw [Bool.eq_iff_iff, decide_eq_true_iff, this, List.any_eq_true]
          constructor
          · rintro ⟨c, hc, h10⟩
            obtain ⟨m, hm, rfl⟩ := List.mem_map.1 hc
            exact ⟨m, hm, by simpa using h10⟩
          · rintro ⟨m, hm, h10⟩
            exact ⟨_, List.mem_map.2 ⟨m, hm, rfl⟩, by simpa using h10⟩
        rw [hany, decide_not]

/-- The end of a region within a line counts as the end of the line. -/
theorem C75_trim_inside_violated :
    ((Doc.new "a b".toList).trim 0 (some 2)).doc.ms.text = "ab".toList ∧ ¬ TrailingBlank "a b".toList 1 := by
  refine ⟨by decide +kernel, ?_⟩
  rintro ⟨e, h1, h2, h3⟩
  have h4 : e ≤ 2 := by
    by_cases h : e ≤ 2
    · exact h
    · have := h2 2 (by omega) (by omega)
      simp at this
  have : e = 2 := by omega
  subst this
  simp at h3

/-- A negative start: what is replaced at the end of the text is not removed. -/
theorem C75_negative_violated :
    ((Doc.new "abc".toList).reSub (.chr 'c') (fun _ _ => "X".toList) (-1)).doc.ms.text = "abXc".toList := by decide +kernel

example : TrailingBlank "a  \n b".toList 1 := ⟨3, by decide, fun j h1 h2 => by
  obtain rfl | rfl : j = 1 ∨ j = 2 := by omega
  all_goals exact Or.inl rfl, Or.inr rfl⟩
example : ((Doc.new "a  \n b \t".toList).trim).doc.ms.text = "a\n b".toList := by decide +kernel
example : ((Doc.new "a  \n b \t".toList).trim 2).doc.ms.text = "a \n b".toList := by decide +kernel
example : ((Doc.new "baac".toList).reSub (.star (.chr 'a')) (fun _ _ => "-".toList)).doc.ms.text = "-b--c-".toList := by decide +kernel
example : ((Doc.new "baac".toList).reSub (.star (.chr 'a')) (fun _ _ => "-".toList) 1 (some 3) 1).doc.ms.text = "b-c".toList := by
  decide +kernel

/-! ### C76 -/

omit [DecidableEq α] in
private theorem cursor_text (t : List α) (c : Cursor) :
    c.text t = slice t c.pos (c.selection t).2 := by
  obtain ⟨p, e⟩ := c
  have e1 : ∀ i : Nat, ¬ ((i : Int) < 0) := by intro i; omega
  cases e with
  | none =>
    obtain ⟨h1, _⟩ := region_eq (t := t) (start := p) (stop := none) (a := min p t.length) (b := t.length) (by
      simp only [keyRegion, pyBound, e1, if_false, Int.toNat_natCast, Option.some.injEq, Prod.mk.injEq, true_and]
      omega)
    show region t p none = slice t p t.length
    rw [h1]
    unfold slice
    rw [List.take_length]
    by_cases hp : p ≤ t.length
    · rw [Nat.min_eq_left hp]
    · rw [Nat.min_eq_right (by omega), List.drop_length, List.drop_eq_nil_of_le (by omega)]
  | some e =>
    obtain ⟨h1, _⟩ := region_eq (t := t) (start := p) (stop := some e) (a := min p t.length)
      (b := max (min p t.length) (min e t.length)) (by
      simp only [keyRegion, pyBound, e1, if_false, Int.toNat_natCast])
    show region t p (some (e : Int)) = slice t p e
    rw [h1]
    unfold slice
    by_cases hp : p < min e t.length
    · rw [Nat.min_eq_left (by omega), Nat.max_eq_right (by omega)]
      by_cases he : e ≤ t.length
      · rw [Nat.min_eq_left he]
      · rw [Nat.min_eq_right (by omega), List.take_length, List.take_of_length_le (by omega)]
    · rw [List.drop_eq_nil_of_le (by simp; omega), List.drop_eq_nil_of_le (by simp; omega)]

omit [DecidableEq α] in
/-- **C76.** `selection` gives the part of the document that the text of the cursor comes from. -/
theorem C76_selection (t : List α) (c : Cursor) :
    c.text t = slice t (c.selection t).1 (c.selection t).2 ∧ (c.selection t).1 = c.pos ∧
    (∀ e, c.stop = some e → (c.selection t).2 = e) ∧ (c.stop = none → (c.selection t).2 = t.length) := by
  refine ⟨cursor_text t c, rfl, fun e he => ?_, fun he => ?_⟩
  · simp only [Cursor.selection, he]
  · simp only [Cursor.selection, he]

omit [DecidableEq α] in
/-- **C76** (partial: for a cursor in the document). There is a selection exactly if there is text in it. -/
theorem C76_has_selection_partial (t : List α) (c : Cursor) (h : c.pos < t.length ∨ (c.selection t).2 ≤ t.length) :
    c.hasSelection t = true ↔ c.text t ≠ [] := by
  rw [cursor_text, ← List.length_pos_iff, slice_length]
  simp only [Cursor.hasSelection, decide_eq_true_eq, show (c.selection t).1 = c.pos from rfl]
  omega

/-- For a cursor beyond the document there is a selection without text. -/
theorem C76_has_selection_violated :
    (⟨5, some 6⟩ : Cursor).hasSelection "abc".toList = true ∧ (⟨5, some 6⟩ : Cursor).text "abc".toList = [] := by decide

omit [DecidableEq α] in
/-- **C76.** `select_all` selects all text, `select_none` and `select(pos)` nothing, `select(pos, end)` the text
    from `pos` to `end`. -/
theorem C76_select (t : List α) (c : Cursor) (p e : Nat) :
    c.selectAll.text t = t ∧ c.selectNone.text t = [] ∧ c.selectNone.pos = c.pos ∧
    (c.select p).text t = [] ∧ (c.select p (some (some e))).text t = slice t p e ∧ (c.select p (some none)).text t = t.drop p := by
  simp only [cursor_text, Cursor.selectAll, Cursor.selectNone, Cursor.select, Cursor.selection]
  simp [slice]

omit [DecidableEq α] in
private theorem dropWhile_spec (f : α → Bool) (l : List α) : ∃ pre, l = pre ++ l.dropWhile f ∧ (∀ y ∈ pre, f y = true) ∧
    (∀ y ∈ (l.dropWhile f).head?, f y = false) := by
  induction l with
  | nil => exact ⟨[], rfl, by simp, by simp⟩
  | cons c l ih =>
    by_cases h : f c = true
    · obtain ⟨pre, h1, h2, h3⟩ := ih
      refine ⟨c :: pre, ?_, ?_, ?_⟩
      · rw [List.dropWhile_cons, if_pos h, List.cons_append, ← h1]
      · intro y hy
        rcases List.mem_cons.1 hy with rfl | hy
        · exact h
        · exact h2 y hy
      · rw [List.dropWhile_cons, if_pos h]; exact h3
    · refine ⟨[], ?_, by simp, ?_⟩
      · rw [List.dropWhile_cons, if_neg h]; rfl
      · rw [List.dropWhile_cons, if_neg h]
        intro y hy
        simp only [List.head?_cons, Option.mem_def, Option.some.injEq] at hy
        subst hy
        simpa using h

omit [DecidableEq α] in
/-- **C76.** `lstrip` moves the start of the selection over the characters to strip, and not further. -/
theorem C76_lstrip (t : List α) (f : α → Bool) (c : Cursor) :
    let c' := c.lstrip t f
    c'.stop = c.stop ∧ ∃ pre, c.text t = pre ++ c'.text t ∧ c'.pos = c.pos + pre.length ∧ (∀ y ∈ pre, f y = true) ∧
      ∀ y ∈ (c'.text t).head?, f y = false := by
  intro c'
  by_cases hx : c.text t = []
  · have hc : c' = c := by simp [c', Cursor.lstrip, hx]
    rw [hc]
    exact ⟨rfl, [], rfl, rfl, by simp, by rw [hx]; simp⟩
  · obtain ⟨pre, h1, h2, h3⟩ := dropWhile_spec f (c.text t)
    have hlen : (c.text t).length - (pyLstrip f (c.text t)).length = pre.length := by
      have := congrArg List.length h1
      rw [List.length_append] at this
      unfold pyLstrip
      omega
    have hc : c' = ⟨c.pos + pre.length, c.stop⟩ := by
      show c.lstrip t f = _
      unfold Cursor.lstrip
      rw [if_neg (by simpa using hx), hlen]
    have ht : c'.text t = (c.text t).dropWhile f := by
      rw [hc, cursor_text]
      have e : (c.text t).drop pre.length = (c.text t).dropWhile f := by
        conv => lhs; rw [h1]
        simp
      rw [← e, cursor_text]
      simp [slice, List.drop_drop, Cursor.selection]
    rw [ht]
    exact ⟨by rw [hc], pre, h1, by rw [hc], h2, h3⟩

omit [DecidableEq α] in
/-- **C76.** `rstrip` moves the end of the selection back over the characters to strip, and not further. -/
theorem C76_rstrip (t : List α) (f : α → Bool) (c : Cursor) :
    let c' := c.rstrip t f
    c'.pos = c.pos ∧ ∃ post, c.text t = c'.text t ++ post ∧ (post = [] → c' = c) ∧ (∀ y ∈ post, f y = true) ∧
      ∀ y ∈ (c'.text t).getLast?, f y = false := by
  intro c'
  by_cases hx : c.text t = []
  · have hc : c' = c := by simp [c', Cursor.rstrip, hx]
    rw [hc]
    exact ⟨rfl, [], by simp, fun _ => rfl, by simp, by rw [hx]; simp⟩
  · obtain ⟨pre, h1, h2, h3⟩ := dropWhile_spec f (c.text t).reverse
    have h1' : c.text t = pyRstrip f (c.text t) ++ pre.reverse := by
      have := congrArg List.reverse h1
      rwa [List.reverse_reverse, List.reverse_append] at this
    have h3' : ∀ y ∈ (pyRstrip f (c.text t)).getLast?, f y = false := by
      intro y hy
      apply h3
      rwa [pyRstrip, List.getLast?_reverse] at hy
    have hlen : (c.text t).length = (pyRstrip f (c.text t)).length + pre.length := by
      have := congrArg List.length h1'
      rwa [List.length_append, List.length_reverse] at this
    by_cases hp : pre = []
    · have hc : c' = c := by
        show c.rstrip t f = c
        unfold Cursor.rstrip
        rw [if_neg (by simpa using hx)]
        simp only
        rw [if_pos (by rw [hlen, hp]; simp)]
      subst hp
      rw [hc]
      simp only [List.reverse_nil, List.append_nil] at h1'
      exact ⟨rfl, [], by simp, fun _ => rfl, by simp, by rw [← h1'] at h3'; exact h3'⟩
    · have hpl : 0 < pre.length := List.length_pos_iff.2 hp
      have hlen2 := hlen
      rw [cursor_text, slice_length] at hlen2
      have hc : c' = ⟨c.pos, some (min (c.selection t).2 t.length - pre.length)⟩ := by
        show c.rstrip t f = _
        unfold Cursor.rstrip
        rw [if_neg (by simpa using hx)]
        simp only
        rw [if_neg (by omega), show (c.text t).length - (pyRstrip f (c.text t)).length = pre.length by omega]
        have hm : (match c.stop with | none => t.length | some e => if e > t.length then t.length else e) =
            min (c.selection t).2 t.length := by
          unfold Cursor.selection
          cases c.stop with
          | none => simp
          | some e =>
            show (if e > t.length then t.length else e) = min e t.length
            split <;> omega
        rw [← hm]
        rfl
      have ht : c'.text t = pyRstrip f (c.text t) := by
        have e : (c.text t).take (pyRstrip f (c.text t)).length = pyRstrip f (c.text t) :=
          (show ∀ x y, c.text t = x ++ y → (c.text t).take x.length = x by intro x y h; rw [h]; simp) _ _ h1'
        have hl3 : (pyRstrip f (c.text t)).length = min (c.selection t).2 t.length - c.pos - pre.length := by
          rw [← cursor_text] at hlen2; omega
        rw [hc, ← e, hl3, cursor_text, cursor_text]
        show slice t c.pos (min (c.selection t).2 t.length - pre.length) = _
        unfold slice
        rw [List.take_drop, List.take_take]
        congr 2
        omega
      rw [ht]
      exact ⟨by rw [hc], pre.reverse, h1', fun h => absurd (by simpa using h) hp, by simpa using h2, h3'⟩

omit [DecidableEq α] in
/-- **C76.** `strip` does both: the selection becomes the part without the characters to strip at its
    start and at its end. -/
theorem C76_strip (t : List α) (f : α → Bool) (c : Cursor) :
    let c' := c.strip t f
    ∃ pre post, c.text t = pre ++ c'.text t ++ post ∧ c'.pos = c.pos + pre.length ∧ (∀ y ∈ pre, f y = true) ∧
      (∀ y ∈ post, f y = true) ∧ (∀ y ∈ (c'.text t).head?, f y = false) ∧ ∀ y ∈ (c'.text t).getLast?, f y = false := by
  intro c'
  obtain ⟨h1, post, h2, _, h3, h4⟩ := C76_rstrip t f c
  obtain ⟨_, pre, h6, h7, h8, h9⟩ := C76_lstrip t f (c.rstrip t f)
  refine ⟨pre, post, ?_, ?_, h8, h3, h9, ?_⟩
  · rw [h2, h6]; rfl
  · show ((c.rstrip t f).lstrip t f).pos = _
    rw [h7, h1]
  · intro y hy
    apply h4
    rw [h6]
    have hne : ((c.rstrip t f).lstrip t f).text t ≠ [] := by
      intro h
      rw [show c'.text t = [] from h] at hy
      simp at hy
    rw [List.getLast?_append]
    have hy' : (((c.rstrip t f).lstrip t f).text t).getLast? = some y := hy
    rw [hy']
    rfl

private theorem end_line (t : List α) (sep : α) (p : Nat) (hp : p ≤ t.length) :
    ∃ s, IsLine t sep s (findEndOfBlock t sep p) ∧ s ≤ p ∧ p ≤ findEndOfBlock t sep p := by
  obtain ⟨h1, h2, h3⟩ := C14_find_block t sep p
  rw [Nat.min_eq_left hp] at h2 h3
  generalize (findBlock t sep p).pos = s at *
  generalize (findBlock t sep p).stop = e at *
  suffices findEndOfBlock t sep p = e by rw [this]; exact ⟨s, h1, h2, h3⟩
  unfold findEndOfBlock
  cases h : find t sep p with
  | none =>
    rcases h1.right with h4 | h4
    · exact h4.symm
    · exact absurd h4 (find_none.1 h e h3)
  | some j =>
    obtain ⟨h4, h5, h6⟩ := find_some h
    have hj := block_getElem?_lt h5
    show j = e
    rcases Nat.lt_trichotomy j e with h7 | h7 | h7
    · exact absurd h5 (h1.inside j (by omega) h7)
    · exact h7
    · rcases h1.right with h8 | h8
      · omega
      · exact absurd h8 (h6 e h3 h7)

/-- **C76.** `select_start_of_block` and `select_end_of_block` extend the selection to whole lines: from the
    start of the line with its start to the end of the line with its end. -/
theorem C76_select_lines (t : List α) (sep : α) (c : Cursor) (e : Nat) (hs : c.stop = some e) (h1 : c.pos ≤ t.length)
    (h2 : e ≤ t.length) :
    let c' := (c.selectStartOfBlock t sep).selectEndOfBlock t sep
    ∃ s e' x, c'.stop = some e' ∧ (IsLine t sep c'.pos s ∧ c'.pos ≤ c.pos ∧ c.pos ≤ s) ∧
      (IsLine t sep x e' ∧ x ≤ e ∧ e ≤ e') := by
  intro c'
  obtain ⟨x, h5, h6, h7⟩ := end_line t sep e h2
  obtain ⟨g1, g2, g3⟩ := C14_find_block t sep c.pos
  rw [Nat.min_eq_left h1] at g2 g3
  refine ⟨_, _, x, ?_, ⟨g1, g2, g3⟩, ⟨h5, h6, h7⟩⟩
  show (c.stop.map (findEndOfBlock t sep)) = _
  rw [hs]
  rfl

/-- **C76.** A selection up to the end of the document stays so, and its start moves to the start of the line. -/
theorem C76_select_lines_end (t : List α) (sep : α) (c : Cursor) (hs : c.stop = none) (h1 : c.pos ≤ t.length) :
    let c' := (c.selectStartOfBlock t sep).selectEndOfBlock t sep
    c'.stop = none ∧ ∃ s, IsLine t sep c'.pos s ∧ c'.pos ≤ c.pos ∧ c.pos ≤ s := by
  intro c'
  obtain ⟨g1, g2, g3⟩ := C14_find_block t sep c.pos
  rw [Nat.min_eq_left h1] at g2 g3
  refine ⟨?_, _, g1, g2, g3⟩
  show (c.stop.map (findEndOfBlock t sep)) = _
  rw [hs]
  rfl

/-- **C76.** `move_start_of_block` and `move_end_of_block` go to the start and to the end of the line of the cursor,
    and nothing is selected any more. -/
theorem C76_move (t : List α) (sep : α) (c : Cursor) (h1 : c.pos ≤ t.length) :
    let s := c.moveStartOfBlock t sep
    let e := c.moveEndOfBlock t sep
    IsLine t sep s.pos e.pos ∧ s.pos ≤ c.pos ∧ c.pos ≤ e.pos ∧ s.stop = some s.pos ∧ e.stop = some e.pos := by
  intro s e
  obtain ⟨x, h5, h6, h7⟩ := end_line t sep c.pos h1
  obtain ⟨g1, g2, g3⟩ := C14_find_block t sep c.pos
  rw [Nat.min_eq_left h1] at g2 g3
  obtain ⟨h8, _⟩ := g1.unique h5 g2 g3 h6 h7
  refine ⟨?_, g2, h7, rfl, rfl⟩
  show IsLine t sep (findBlock t sep c.pos).pos _
  rw [h8]
  exact h5

/-- What the cursor methods do in an example. -/
example : (⟨1, some 6⟩ : Cursor).strip "x  ab  y".toList (· == ' ') = ⟨3, some 5⟩ := by decide
example : (⟨1, none⟩ : Cursor).strip "x  ".toList (· == ' ') = ⟨1, some 1⟩ := by decide
example : (⟨1, some 9⟩ : Cursor).rstrip "x  ".toList (· == ' ') = ⟨1, some 1⟩ := by decide
example : ((⟨3, some 6⟩ : Cursor).selectStartOfBlock "a\nbc\ndef".toList '\n').selectEndOfBlock "a\nbc\ndef".toList '\n' = ⟨2, some 8⟩ := by
  decide
example : (⟨2, some 2⟩ : Cursor).hasSelection "abc".toList = false ∧ (⟨2, some 5⟩ : Cursor).hasSelection "abc".toList = true := by decide

end Parce

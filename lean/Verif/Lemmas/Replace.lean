import Verif.Spec.Replace
import Verif.Lemmas.Document
import Verif.Lemmas.LineEdit
import Verif.Lemmas.Block
import Verif.Props.Re
namespace Parce
variable {α : Type}

/-! ### A block of sorted, disjoint assignments -/

theorem chain_block [DecidableEq α] (d : Doc α) (t : List α) (hd : d.ms = ⟨t, 0, []⟩) (body : List (Op α)) (cs : List (Change α))
    (hn : Nested 1 body) (hr : requests t.length body = some cs) (hc : Chain t.length 0 cs) :
    (d.withBlock .normal body).doc.ms = ⟨updateText t cs, 0, []⟩ ∧ (d.withBlock .normal body).error = none := by
  rw [withBlockD_eq .normal d t hd body cs hn hr]
  have hf := updateText_filter t hc
  rcases applyChangesD_cases .normal d t (cs.filter (fun r => Effective t r))
      (fun r h => hc.valid r (List.mem_filter.1 h).1) with ⟨h1, h2⟩ | ⟨h1, h2⟩ | ⟨h1, h2, cs', h3, h4, h5⟩
  · rw [h2]
    refine ⟨?_, rfl⟩
    have : updateText t cs = t := by
      rw [← hf, h1, ← updateText_chain t (Chain.nil 0 (by omega))]
      simp [updateText, updateFrom]
    simp only [this]
  · exact absurd (hc.filter _).nonOverlapping h1
  · rw [hf] at h5
    rw [h5]
    exact ⟨rfl, rfl⟩

/-- A change moved to the right. -/
def Change.shift (a : Nat) (c : Change α) : Change α := ⟨a + c.start, a + c.stop, c.text⟩

theorem chain_shift {n k a m : Nat} {cs : List (Change α)} (h : Chain n k cs) (hm : a + n ≤ m) :
    Chain m (a + k) (cs.map (Change.shift a)) := by
  induction h with
  | nil k h => exact Chain.nil _ (by omega)
  | cons k c cs h1 h2 h3 _ ih =>
    exact Chain.cons _ _ _ (by simp [Change.shift]; omega) (by simp [Change.shift]; omega) (by simp [Change.shift]; omega) ih

theorem slice_slice (t : List α) {a b k s : Nat} (hab : a ≤ b) (hs : s ≤ b - a) : slice (slice t a b) k s = slice t (a + k) (a + s) := by
  unfold slice
  rw [List.take_drop, List.take_take, List.drop_drop, show min (a + s) b = a + s by omega]

theorem updateFrom_shift [DecidableEq α] (t : List α) {a b k : Nat} {cs : List (Change α)} (hab : a ≤ b) (hb : b ≤ t.length)
    (h : Chain (b - a) k cs) :
    updateFrom t (a + k) (cs.map (Change.shift a)) = updateFrom (slice t a b) k cs ++ t.drop b := by
  induction h with
  | nil k h =>
    simp only [List.map_nil, updateFrom]
    have e : ∀ (l : List α) j, l.drop j = slice l j l.length := by intro l j; simp [slice]
    rw [e t (a + k), e (slice t a b) k, slice_length, Nat.min_eq_left hb, slice_slice t hab (Nat.le_refl _), e t b,
      show a + (b - a) = b by omega, ← slice_split t (by omega) hb]
  | cons k c cs h1 h2 h3 h4 ih =>
    simp only [List.map_cons, updateFrom, Change.shift] at ih ⊢
    rw [ih, slice_slice t hab (by omega)]
    by_cases hk : c.start > k
    · rw [if_pos hk, if_pos (by omega)]; simp
    · rw [if_neg hk, if_neg (by omega)]; simp

theorem updateText_shift [DecidableEq α] (t : List α) {a b : Nat} {cs : List (Change α)} (hab : a ≤ b) (hb : b ≤ t.length)
    (h : Chain (b - a) 0 cs) :
    updateText t (cs.map (Change.shift a)) = t.take a ++ updateText (slice t a b) cs ++ t.drop b := by
  unfold updateText
  rw [updateFrom_skip t (k := 0) (k' := a) _ (by omega) (by omega)]
  · rw [show updateFrom t a (cs.map (Change.shift a)) = updateFrom t (a + 0) (cs.map (Change.shift a)) from rfl,
      updateFrom_shift t hab hb h]
    simp [slice]
  · intro c hc
    cases cs with
    | nil => simp at hc
    | cons c' cs =>
      simp only [List.map_cons, List.head?_cons, Option.mem_def, Option.some.injEq] at hc
      subst hc
      simp [Change.shift]

/-! ### The region -/

theorem region_eq {t : List α} {start : Int} {stop : Option Int} {a b : Nat}
    (h : keyRegion t.length (.range (some start) stop) = some (a, b)) : region t start stop = slice t a b ∧ a ≤ b ∧ b ≤ t.length := by
  have h2 : a ≤ b ∧ b ≤ t.length := by
    simp only [keyRegion, Option.some.injEq, Prod.mk.injEq] at h
    obtain ⟨h3, h4⟩ := h
    cases stop with
    | none => simp only at h4; omega
    | some e => simp only at h4; omega
  refine ⟨?_, h2⟩
  simp only [region, getItem, parseKey_eq, h]
  by_cases hab : a = b
  · subst hab; simp [slice]
  · simp only [if_neg hab]
    by_cases h3 : a = 0 ∧ b = t.length
    · simp only [if_pos h3]; obtain ⟨rfl, rfl⟩ := h3; simp [slice]
    · simp only [if_neg h3]

theorem keyRegion_inside {n : Nat} {start : Int} {stop : Option Int} {a b : Nat} (h : RegionOK n start stop a b) {x y : Nat}
    (hxy : x ≤ y) (hy : y ≤ b - a) : keyRegion n (.range (some (start + x)) (some (start + y))) = some (a + x, a + y) := by
  obtain ⟨h1, h2⟩ := h
  simp only [keyRegion, Option.some.injEq, Prod.mk.injEq] at h1 ⊢
  obtain ⟨h3, h4⟩ := h1
  have hb : b ≤ n := by
    cases stop with
    | none => simp only at h4; omega
    | some e => simp only at h4; omega
  have hab : a ≤ b := by omega
  clear h4
  unfold pyBound at *
  split at h3 <;> split <;> split <;> omega

/-- The block of the assignments to parts of a region. -/
theorem region_block [DecidableEq α] (d : Doc α) (t : List α) (hd : d.ms = ⟨t, 0, []⟩) {start : Int} {stop : Option Int} {a b : Nat}
    (h : RegionOK t.length start stop a b) (cs : List (Change α)) (hc : Chain (b - a) 0 cs) (body : List (Op α))
    (hb : body = cs.map (fun c => .set (.range (some (start + c.start)) (some (start + c.stop))) c.text)) :
    (d.withBlock .normal body).doc.ms = ⟨t.take a ++ updateText (slice t a b) cs ++ t.drop b, 0, []⟩ ∧
    (d.withBlock .normal body).error = none := by
  obtain ⟨_, h1, h2⟩ := region_eq h.1
  have hn : Nested 1 body := by
    subst hb
    clear hc
    induction cs with
    | nil => rfl
    | cons c cs ih => exact ih
  have hr : ∀ k, Chain (b - a) k cs →
      requests t.length (cs.map (fun c => (.set (.range (some (start + c.start)) (some (start + c.stop))) c.text : Op α))) =
        some (cs.map (Change.shift a)) := by
    clear hb hc hn
    intro k hc
    induction hc with
    | nil => rfl
    | cons k c cs h3 h4 h5 _ ih =>
      simp only [List.map_cons, requests, keyRegion_inside h h4 h5, ih]
      rfl
  have := chain_block d t hd body _ hn (by rw [hb]; exact hr 0 hc)
    ((chain_shift (a := a) (m := t.length) hc (by omega)).mono (Nat.zero_le _))
  rw [updateText_shift t h1 h2 hc] at this
  exact this

/-! ### Finding a string -/

theorem strFindIn_spec [DecidableEq α] (old : List α) : ∀ (l : List α) (i : Nat),
    (∀ j, strFindIn old l i = some j → i ≤ j ∧ OccursAt old l (j - i) ∧ ∀ k, k < j - i → ¬ OccursAt old l k) ∧
    (strFindIn old l i = none → ∀ k, ¬ OccursAt old l k)
  | [], i => by
    simp only [strFindIn]
    by_cases h : old.isPrefixOf [] = true
    · rw [if_pos h]
      refine ⟨fun j hj => ?_, fun h => by simp at h⟩
      simp only [Option.some.injEq] at hj
      subst hj
      exact ⟨Nat.le_refl _, ⟨by simpa using h, by simp⟩, fun k hk => by omega⟩
    · rw [if_neg h]
      refine ⟨fun j hj => by simp at hj, fun _ k hk => h ?_⟩
      simpa [OccursAt] using hk.1
  | c :: l, i => by
    simp only [strFindIn]
    by_cases h : old.isPrefixOf (c :: l) = true
    · rw [if_pos h]
      refine ⟨fun j hj => ?_, fun h => by simp at h⟩
      simp only [Option.some.injEq] at hj
      subst hj
      refine ⟨Nat.le_refl _, ⟨?_, by simp⟩, fun k hk => by omega⟩
      simpa using List.isPrefixOf_iff_prefix.1 h
    · rw [if_neg h]
      have h0 : ¬ OccursAt old (c :: l) 0 := fun hk => h (List.isPrefixOf_iff_prefix.2 (by simpa using hk.1))
      obtain ⟨h1, h2⟩ := strFindIn_spec old l (i + 1)
      have hs : ∀ k, OccursAt old (c :: l) (k + 1) ↔ OccursAt old l k := by
        intro k; simp [OccursAt]
      refine ⟨fun j hj => ?_, fun hn k => ?_⟩
      · obtain ⟨h3, h4, h5⟩ := h1 j hj
        refine ⟨by omega, ?_, fun k hk => ?_⟩
        · rw [show j - i = (j - (i + 1)) + 1 by omega, hs]; exact h4
        · cases k with
          | zero => exact h0
          | succ k => rw [hs]; exact h5 k (by omega)
      · cases k with
        | zero => exact h0
        | succ k => rw [hs]; exact h2 hn k

theorem occursAt_drop {old r : List α} {p k : Nat} (hp : p ≤ r.length) : OccursAt old (r.drop p) k ↔ OccursAt old r (p + k) := by
  simp only [OccursAt, List.drop_drop, List.length_drop]
  constructor
  · rintro ⟨h1, h2⟩; exact ⟨h1, by omega⟩
  · rintro ⟨h1, h2⟩; exact ⟨h1, by omega⟩

theorem OccursAt.le {old r : List α} {i : Nat} (h : OccursAt old r i) : i + old.length ≤ r.length := by
  have := h.1.length_le
  have := h.2
  simp only [List.length_drop] at *
  omega

theorem strFind_some [DecidableEq α] {r old : List α} {p j : Nat} (h : strFind r old p = some j) :
    p ≤ j ∧ OccursAt old r j ∧ ∀ k, p ≤ k → k < j → ¬ OccursAt old r k := by
  unfold strFind at h
  split at h
  · next hp =>
    obtain ⟨h1, h2, h3⟩ := (strFindIn_spec old _ _).1 j h
    rw [occursAt_drop hp, show p + (j - p) = j by omega] at h2
    refine ⟨h1, h2, fun k hk1 hk2 => ?_⟩
    have := h3 (k - p) (by omega)
    rwa [occursAt_drop hp, show p + (k - p) = k by omega] at this
  · cases h

theorem strFind_none [DecidableEq α] {r old : List α} {p : Nat} (h : strFind r old p = none) :
    ∀ k, p ≤ k → ¬ OccursAt old r k := by
  intro k hk
  unfold strFind at h
  split at h
  · next hp =>
    have := (strFindIn_spec old _ _).2 h (k - p)
    rwa [occursAt_drop hp, show p + (k - p) = k by omega] at this
  · next hp =>
    intro h2
    have := h2.2
    omega

/-- What is replaced at the positions of the loop. -/
def oldAt (old new : List α) (pos : Nat) : Change α := ⟨pos, pos + old.length, new⟩

theorem replaceLoop_spec [DecidableEq α] {r old : List α} (new : List α) (ho : old ≠ []) : ∀ (fuel p : Nat) (count : Int),
    r.length < fuel + p → p ≤ r.length →
    ∃ ps, replaceLoop r old fuel (strFind r old p) count = some ps ∧ Chain r.length p (ps.map (oldAt old new)) ∧
      Replaced old new (maxCount count) (r.drop p) (updateFrom r p (ps.map (oldAt old new)))
  | fuel, p, count, hf, hp => by
    cases hs : strFind r old p with
    | none =>
      refine ⟨[], by cases fuel <;> rfl, Chain.nil _ hp, ?_⟩
      simp only [List.map_nil, updateFrom]
      refine .nothing fun i hi => ?_
      rw [occursAt_drop hp] at hi
      exact strFind_none hs (p + i) (by omega) hi
    | some j =>
      obtain ⟨h1, h2, h3⟩ := strFind_some hs
      have hlen := h2.le
      have hol : 0 < old.length := List.length_pos_iff.2 ho
      have hsplit : r.drop p = slice r p j ++ old ++ r.drop (j + old.length) := by
        obtain ⟨y, hy⟩ := h2.1
        have e1 : r.drop (j + old.length) = y := by rw [← List.drop_drop, ← hy]; simp
        rw [e1, List.append_assoc, hy]
        have := slice_append_drop r h1 (by omega)
        exact this.symm
      have hx : (slice r p j).length = j - p := by rw [slice_length, Nat.min_eq_left (by omega)]
      have hno : ∀ i, i < (slice r p j).length → ¬ OccursAt old (slice r p j ++ old ++ r.drop (j + old.length)) i := by
        intro i hi
        rw [← hsplit, occursAt_drop hp]
        exact h3 (p + i) (by omega) (by omega)
      have hlim : maxCount count ≠ some 0 := by
        unfold maxCount
        split
        · simp; omega
        · simp
      have hup : ∀ cs : List (Change α), updateFrom r p (oldAt old new j :: cs) =
          slice r p j ++ new ++ updateFrom r (j + old.length) cs := by
        intro cs
        simp only [updateFrom, oldAt]
        by_cases hpj : j > p
        · simp only [hpj, if_true]
        · simp only [hpj, if_false]
          have : slice r p j = [] := by rw [← List.length_eq_zero_iff, hx]; omega
          rw [this]
      cases fuel with
      | zero => omega
      | succ fuel =>
        simp only [replaceLoop]
        by_cases hc : count - 1 = 0
        · rw [if_pos hc]
          refine ⟨[j], rfl, Chain.cons _ _ _ h1 (by simp [oldAt]) (by simpa [oldAt] using hlen)
            (Chain.nil _ (by simpa [oldAt] using hlen)), ?_⟩
          simp only [List.map_cons, List.map_nil, hup]
          rw [hsplit]
          refine .next hlim hno ?_
          have : (maxCount count).map (· - 1) = some 0 := by
            rw [show count = 1 by omega]; rfl
          rw [this]
          simp only [updateFrom]
          exact .enough _
        · rw [if_neg hc]
          obtain ⟨ps, g1, g2, g3⟩ := replaceLoop_spec new ho fuel (j + old.length) (count - 1) (by omega) hlen
          refine ⟨j :: ps, by rw [g1]; rfl, Chain.cons _ _ _ h1 (by simp [oldAt]) (by simpa [oldAt] using hlen) g2, ?_⟩
          simp only [List.map_cons, hup]
          rw [hsplit]
          refine .next hlim hno ?_
          have : (maxCount count).map (· - 1) = maxCount (count - 1) := by
            unfold maxCount
            by_cases h0 : 0 < count
            · rw [if_pos h0, if_pos (by omega)]; simp
            · rw [if_neg h0, if_neg (by omega)]; rfl
          rw [this]
          exact g3

/-- There is one result only. -/
theorem Replaced.unique {old new : List α} {n : Option Nat} {r x y : List α} (ho : old ≠ []) (h1 : Replaced old new n r x)
    (h2 : Replaced old new n r y) : x = y := by
  induction h1 generalizing y with
  | enough r =>
    cases h2 with
    | enough => rfl
    | nothing => rfl
    | next h => exact absurd rfl h
  | nothing h =>
    cases h2 with
    | enough => rfl
    | nothing => rfl
    | @next _ x _ _ _ _ _ => exact absurd ⟨by simp, by simp⟩ (h x.length)
  | @next n x y' z h hno _ ih =>
    generalize hr : x ++ old ++ y' = r at h2
    cases h2 with
    | enough => exact absurd rfl h
    | nothing h3 => exact absurd ⟨by rw [← hr]; simp, by rw [← hr]; simp⟩ (h3 x.length)
    | @next _ x2 y2 z2 h3 hno2 h4 =>
      have hocc : OccursAt old (x2 ++ old ++ y2) x.length := by rw [← hr]; exact ⟨by simp, by simp⟩
      have hocc2 : OccursAt old (x ++ old ++ y') x2.length := by rw [hr]; exact ⟨by simp, by simp⟩
      have hlen : x.length = x2.length := by
        rcases Nat.lt_trichotomy x.length x2.length with h5 | h5 | h5
        · exact absurd hocc (hno2 _ h5)
        · exact h5
        · exact absurd hocc2 (hno _ h5)
      simp only [List.append_assoc] at hr
      have := (List.append_inj hr hlen).1
      subst this
      have := List.append_cancel_left hr
      have := List.append_cancel_left this
      subst this
      rw [ih h4]

/-! ### All matches -/

theorem nextMatch {a : Pat α} {r : List α} {p : Nat} {must : Bool} {m : Mtch RM} (h : rxSearch [a] r p must = some m) :
    NextMatch a r p must m := by
  have hone : ∀ {i : Nat} {b : Pat α}, [a][i]? = some b → i = 0 ∧ b = a := by
    intro i b hb
    cases i with
    | zero => simp at hb; exact ⟨rfl, hb.symm⟩
    | succ i => simp at hb
  obtain ⟨g1, g2, g3, _⟩ := rxSearch_some h
  have g4 : m.start ≤ r.length := by omega
  have hwin : ∀ (P : Nat → Prop), (∀ q, P q) → Wins [a] r m →
      ∃ c, a.First r P m.start m.stop c ∧ m.rest = ⟨0, c.rel m.start⟩ := by
    rintro P hP ⟨b, c, h1, h2, h3, _⟩
    obtain ⟨h4, rfl⟩ := hone h1
    refine ⟨c, ?_, ?_⟩
    · obtain ⟨_, x, h5, h6⟩ := h2
      exact ⟨hP _, x, h5, fun y q' c' h7 _ => h6 y q' c' h7 trivial⟩
    · rw [← h3, ← h4]
  cases must with
  | false =>
    obtain ⟨h1, h2, h3, h4, h5⟩ := C70_first_rule _ _ _ _ h
    refine ⟨h1, g4, fun i q hi hi2 hq => absurd ⟨a, by simp, q, hq⟩ (h4 i hi hi2), hwin _ (fun q hq => ?_) h5⟩
    cases hq.1
  | true =>
    obtain ⟨h1, ⟨h2, b, c, h3, h4, h5, _⟩ | ⟨h2, h3, h4, h5⟩⟩ := C70_advance _ _ _ _ h
    · obtain ⟨h6, rfl⟩ := hone h3
      refine ⟨g1, g4, fun i q hi hi2 hq => by omega, c, ?_, ?_⟩
      · rw [h2]
        obtain ⟨_, x, h5, h7⟩ := h4
        refine ⟨fun hq => by have := hq.2.2; omega, x, h5, fun y q' c' h8 h9 => h7 y q' c' h8 ?_⟩
        have := mat_bounds r b p q' ((C70_way b r p q').1 ⟨y, c', h8⟩)
        have : ¬ q' = p := fun h => h9 ⟨rfl, rfl, h⟩
        omega
      · rw [h2, ← h5, ← h6]
    · refine ⟨g1, g4, fun i q hi hi2 hq => ?_, hwin _ (fun q hq => ?_) h5⟩
      · by_cases hip : i = p
        · subst hip
          exact ⟨rfl, rfl, h3 a (by simp) q hq⟩
        · exact absurd ⟨a, by simp, q, hq⟩ (h4 i (by omega) hi2)
      · have := hq.2.1; omega

theorem noMatch {a : Pat α} {r : List α} {p : Nat} {must : Bool} (h : rxSearch [a] r p must = none) :
    ∀ i q, p ≤ i → i ≤ r.length → a.mat r i q → Again must p i q := by
  intro i q hi hi2 hq
  have hb := mat_bounds r a i q hq
  cases must with
  | false => exact absurd ⟨a, by simp, q, hq⟩ ((C70_none _ _ _).1 h i hi (by omega))
  | true =>
    by_cases hip : i = p
    · subst hip
      refine ⟨rfl, rfl, ?_⟩
      simp only [rxSearch, if_true] at h
      split at h
      · cases h
      · next hm =>
        obtain ⟨c, hc⟩ := (run_mat r a i [] q).2 hq
        have := List.find?_eq_none.1 hm ⟨i, q, ⟨0, Caps.rel i c⟩⟩
          (List.mem_append.2 (Or.inl (List.mem_map.2 ⟨_, hc, rfl⟩)))
        simp only [decide_eq_true_eq] at this
        omega
    · have := rxSearch_none h i (by omega) (by omega)
      exact absurd ⟨a, by simp, q, hq⟩ ((rxMatch_none (by omega)).1 this)

theorem findIter_all (a : Pat α) (r : List α) : ∀ (fuel p : Nat) (must : Bool), p ≤ r.length →
    2 * (r.length - p) + (if must then 0 else 1) < fuel → FoundAll a r p must (findIter a r fuel p must)
  | 0, p, must, _, h => by omega
  | fuel + 1, p, must, hp, hf => by
    simp only [findIter]
    cases hs : rxSearch [a] r p must with
    | none => exact .done (noMatch hs)
    | some m =>
      obtain ⟨h1, h2, h3, h4, _⟩ := rxSearch_some hs
      have := findIter_all a r fuel m.stop (m.start == m.stop) h3 (by
        cases must with
        | true =>
          have := h4 rfl
          simp only [if_true] at hf
          split <;> omega
        | false =>
          simp only [Bool.false_eq_true, if_false] at hf
          by_cases he : m.start = m.stop
          · simp [he]; omega
          · have : ¬ (m.start == m.stop) = true := by simpa using he
            rw [if_neg this]; omega)
      refine .next (nextMatch hs) ?_
      rw [show decide (m.start = m.stop) = (m.start == m.stop) from rfl]
      exact this

theorem NextMatch.bounds {a : Pat α} {r : List α} {p : Nat} {must : Bool} {m : Mtch RM} (h : NextMatch a r p must m) :
    p ≤ m.start ∧ m.start ≤ m.stop ∧ m.stop ≤ r.length ∧ a.mat r m.start m.stop := by
  obtain ⟨c, ⟨_, x, h2, _⟩, _⟩ := h.first
  have := (C70_way a r _ _).1 ⟨x, c, h2⟩
  have hb := mat_bounds r a _ _ this
  have := h.inside
  exact ⟨h.ge, hb.1, by omega, by assumption⟩

theorem FoundAll.chain {a : Pat α} {r : List α} {p : Nat} {must : Bool} {ms : List (Mtch RM)} (h : FoundAll a r p must ms)
    (hp : p ≤ r.length) (f : Mtch RM → List α) : Chain r.length p (ms.map (fun m => ⟨m.start, m.stop, f m⟩)) := by
  induction h with
  | done => exact Chain.nil _ hp
  | next h1 _ ih =>
    have := h1.bounds
    exact Chain.cons _ _ _ this.1 this.2.1 this.2.2.1 (ih this.2.2.1)

theorem Chain.take {n k : Nat} {cs : List (Change α)} (h : Chain n k cs) : ∀ i, Chain n k (cs.take i) := by
  induction h with
  | nil k h => intro i; simpa using Chain.nil k h
  | cons k c cs h1 h2 h3 h4 ih =>
    intro i
    cases i with
    | zero => exact Chain.nil _ (by omega)
    | succ i => exact Chain.cons _ _ _ h1 h2 h3 (ih i)

theorem FoundAll.upTo {a : Pat α} {r : List α} {ms : List (Mtch RM)} (h : FoundAll a r 0 false ms) (count : Int)
    (f : Mtch RM → List α) : Chain r.length 0 ((Parce.upTo count ms).map (fun m => ⟨m.start, m.stop, f m⟩)) := by
  have := h.chain (Nat.zero_le _) f
  unfold Parce.upTo
  split
  · rw [List.map_take]; exact this.take _
  · exact this

/-- A part that is matched and not empty is covered. -/
theorem FoundAll.covers {a : Pat α} {r : List α} {p : Nat} {must : Bool} {ms : List (Mtch RM)} (h : FoundAll a r p must ms)
    {i q : Nat} (hi : p ≤ i) (hm : a.mat r i q) (hq : i < q) : ∃ m ∈ ms, m.start ≤ i ∧ i < m.stop := by
  induction h with
  | done h => have := mat_bounds r a i q hm; have := (h i q hi (by omega) hm).2; omega
  | @next p must m ms h1 _ ih =>
    by_cases h2 : i < m.start
    · have := (h1.leftmost i q hi h2 hm).2; omega
    · by_cases h3 : i < m.stop
      · exact ⟨m, by simp, by omega, h3⟩
      · obtain ⟨m', h4, h5⟩ := ih (by omega)
        exact ⟨m', by simp [h4], h5⟩

theorem FoundAll.mat {a : Pat α} {r : List α} {p : Nat} {must : Bool} {ms : List (Mtch RM)} (h : FoundAll a r p must ms) :
    ∀ m ∈ ms, a.mat r m.start m.stop := by
  induction h with
  | done => intro m hm; simp at hm
  | next h1 _ ih =>
    intro m hm
    rcases List.mem_cons.1 hm with rfl | hm
    · exact h1.bounds.2.2.2
    · exact ih m hm

theorem First_unique {a : Pat α} {t : List α} {P : Nat → Prop} {p q q' : Nat} {c c' : Caps} (h : a.First t P p q c)
    (h' : a.First t P p q' c') : q = q' ∧ c = c' := by
  classical
  have h1 := run_first.2 h
  have h2 := run_first.2 h'
  rw [h1] at h2
  simpa using h2

/-- There is one list of matches only. -/
theorem FoundAll.unique {a : Pat α} {r : List α} {p : Nat} {must : Bool} {ms ms' : List (Mtch RM)} (h : FoundAll a r p must ms)
    (h' : FoundAll a r p must ms') : ms = ms' := by
  induction h generalizing ms' with
  | done h =>
    cases h' with
    | done => rfl
    | next h1 _ =>
      have hb := h1.bounds
      have := h _ _ hb.1 h1.inside hb.2.2.2
      obtain ⟨c, ⟨h2, _⟩, _⟩ := h1.first
      exact absurd this h2
  | @next p must m ms h1 _ ih =>
    have hb := h1.bounds
    obtain ⟨c, h2, h3⟩ := h1.first
    cases h' with
    | done h => exact absurd (h _ _ hb.1 h1.inside hb.2.2.2) h2.1
    | @next _ _ m' ms' h1' h4 =>
      have hb' := h1'.bounds
      obtain ⟨c', h2', h3'⟩ := h1'.first
      have hs : m.start = m'.start := by
        rcases Nat.lt_trichotomy m.start m'.start with h5 | h5 | h5
        · exact absurd (h1'.leftmost _ _ hb.1 h5 hb.2.2.2) h2.1
        · exact h5
        · exact absurd (h1.leftmost _ _ hb'.1 h5 hb'.2.2.2) h2'.1
      rw [← hs] at h2' h3'
      obtain ⟨h6, rfl⟩ := First_unique h2 h2'
      have : m = m' := by
        cases m; cases m'; simp_all
      subst this
      rw [ih h4]

/-! ### Removing -/

theorem splice_remove (r : List α) (cs : List (Change α)) (h : ∀ c ∈ cs, c.text = []) :
    splice r cs = selectPos r (fun i => !cs.any (fun c => decide (c.start ≤ i ∧ i < c.stop))) := by
  have he : ∀ i, (cs.filter (fun r => r.start == i)).flatMap (fun r => r.text) = [] := by
    intro i
    rw [List.flatMap_eq_nil_iff]
    intro c hc
    exact h c (List.mem_filter.1 hc).1
  unfold splice selectPos
  simp only [he, List.nil_append]
  rw [List.range_succ, List.flatMap_append]
  have : r[r.length]? = none := by simp
  simp only [List.flatMap_cons, List.flatMap_nil, this, Option.toList_none, ite_self, List.append_nil]
  apply flatMap_congr'
  intro i _
  by_cases hc : cs.any (fun c => decide (c.start ≤ i ∧ i < c.stop)) = true
  · simp only [hc, if_true, Bool.not_true, Bool.false_eq_true, if_false]
  · simp only [Bool.not_eq_true] at hc
    simp only [hc, Bool.false_eq_true, if_false, Bool.not_false, if_true]

theorem selectPos_congr (t : List α) {f g : Nat → Bool} (h : ∀ i, i < t.length → f i = g i) : selectPos t f = selectPos t g := by
  unfold selectPos
  apply flatMap_congr'
  intro i hi
  rw [h i (List.mem_range.1 hi)]

/-- What is selected of a text in which only positions of a region are left out. -/
theorem selectPos_region (t : List α) {a b : Nat} (hab : a ≤ b) (hb : b ≤ t.length) (f : Nat → Bool) :
    selectPos t (fun i => decide (i < a) || decide (b ≤ i) || f (i - a)) =
      t.take a ++ selectPos (slice t a b) f ++ t.drop b := by
  have e0 : ∀ (l : List α) (x k : Nat), x + k ≤ l.length → (List.range' x k).flatMap (fun i => l[i]?.toList) = slice l x (x + k) :=
    fun l x k h => flatMap_range'_getElem l k x h
  unfold selectPos
  rw [List.range_eq_range']
  have s1 := flatMap_range'_split (fun i => if (decide (i < a) || decide (b ≤ i) || f (i - a)) = true then t[i]?.toList else [])
    0 a t.length (by omega) (by omega)
  have s2 := flatMap_range'_split (fun i => if (decide (i < a) || decide (b ≤ i) || f (i - a)) = true then t[i]?.toList else [])
    a b t.length hab hb
  simp only [Nat.sub_zero] at s1
  rw [s1, s2, ← List.append_assoc]
  congr 1
  · congr 1
    · rw [flatMap_range'_congr _ (fun i => t[i]?.toList), e0 t 0 a (by omega)]
      · simp [slice]
      · intro i _ hi
        simp [show i < a by omega]
    · rw [List.range_eq_range', slice_length, Nat.min_eq_left hb]
      rw [show List.range' a (b - a) = (List.range' 0 (b - a)).map (a + ·) by simp [List.map_add_range']]
      rw [List.flatMap_map]
      apply flatMap_congr'
      intro i hi
      rw [List.mem_range'_1] at hi
      have : (slice t a b)[i]? = t[a + i]? := by
        unfold slice
        rw [List.getElem?_drop, List.getElem?_take]
        simp; omega
      rw [this, show a + i - a = i by omega]
      simp [show ¬ a + i < a by omega, show ¬ b ≤ a + i by omega]
  · rw [flatMap_range'_congr _ (fun i => t[i]?.toList), e0 t b (t.length - b) (by omega)]
    · simp [slice, show b + (t.length - b) = t.length by omega]
    · intro i hi _
      simp [hi]

end Parce

import Verif.Spec.Changes
/-!
# Property C32: merged changes
-/
namespace Parce
variable {α L : Type}

theorem covers_drop {old new : List α} {s : Nat} {r a : Int} (h : Covers old new s r a) (k : Nat) :
    old.drop (s + r.toNat + k) = new.drop (s + a.toNat + k) := by
  have := congrArg (List.drop k) h.2.2.2.2.2
  rwa [List.drop_drop, List.drop_drop] at this

/-- **C32** (partial: the new change must not start before the changes so far; see
    `C32_violated`). Merging a further accurate change gives an accurate change. -/
theorem C32_merge_partial (t0 : List α) (c : Chg α L) (r : ChReq α L) (s : Nat) (m k : Int)
    (hs : c.start = some s) (hc : Covers t0 c.text s c.removed c.added)
    (hm : r.removed.getD ((c.text.length : Int) - r.start) = m) (hk : r.added.getD ((r.text.length : Int) - r.start) = k)
    (hr : Covers c.text r.text r.start m k) (hle : s ≤ r.start) :
    (c.add r).start = some s ∧ (c.add r).text = r.text ∧
    Covers t0 r.text s (c.add r).removed (c.add r).added := by
  obtain ⟨text, root, start, rem, add⟩ := c
  obtain ⟨rtext, rroot, n, rrem, radd⟩ := r
  simp only at hs hc hm hk hr hle
  subst hs
  simp only [Chg.add, hk, hm]
  obtain ⟨c1, c2, c3, c4, c5, c6⟩ := id hc
  obtain ⟨r1, r2, r3, r4, r5, r6⟩ := id hr
  refine ⟨by simp only [Option.some.injEq]; omega, trivial, ?_⟩
  have htake : t0.take s = rtext.take s := by
    have := congrArg (List.take s) r5
    rw [List.take_take, List.take_take, Nat.min_eq_left hle] at this
    rw [c5, this]
  have hl0 : t0.length + add.toNat = text.length + rem.toNat := by
    have := congrArg List.length c6
    simp only [List.length_drop] at this
    omega
  have hl1 : text.length + k.toNat = rtext.length + m.toNat := by
    have := congrArg List.length r6
    simp only [List.length_drop] at this
    omega
  have hoff : mergeOffset s add n m =
      (if (n : Int) > s + add then (n : Int) - s - add else 0) - max 0 (min ((n : Int) + m) (s + add) - n) := by
    unfold mergeOffset
    rw [Int.max_eq_left (a := (n : Int)) (b := (s : Int)) (by omega)]
    by_cases h0 : (n : Int) + m < s
    · omega
    · rw [if_neg h0]
  rw [hoff]
  by_cases h1 : (n : Int) > s + add
  · rw [if_pos h1]
    have h2 : max 0 (min ((n : Int) + m) (s + add) - n) = 0 := by omega
    rw [h2]
    refine ⟨by omega, by omega, by omega, by omega, htake, ?_⟩
    have e1 := covers_drop hc (n + m.toNat - (s + add.toNat))
    have e2 := covers_drop hr 0
    have h3 : s + (rem + (m + ((n : Int) - s - add - 0))).toNat = s + rem.toNat + (n + m.toNat - (s + add.toNat)) := by omega
    have h4 : s + (add + (k + ((n : Int) - s - add - 0))).toNat = n + k.toNat + 0 := by omega
    rw [h3, h4, e1, ← e2]
    congr 1
    omega
  · rw [if_neg h1]
    by_cases h2 : (n : Int) + m ≤ s + add
    · have h3 : max 0 (min ((n : Int) + m) (s + add) - n) = m := by omega
      rw [h3]
      refine ⟨by omega, by omega, by omega, by omega, htake, ?_⟩
      have e1 := covers_drop hc 0
      have e2 := covers_drop hr (s + add.toNat - (n + m.toNat))
      have h4 : s + (rem + (m + (0 - m))).toNat = s + rem.toNat + 0 := by omega
      have h5 : s + (add + (k + (0 - m))).toNat = n + k.toNat + (s + add.toNat - (n + m.toNat)) := by omega
      rw [h4, h5, e1, ← e2]
      congr 1
      omega
    · have h3 : max 0 (min ((n : Int) + m) (s + add) - n) = s + add - n := by omega
      rw [h3]
      refine ⟨by omega, by omega, by omega, by omega, htake, ?_⟩
      have e1 := covers_drop hc (n + m.toNat - (s + add.toNat))
      have e2 := covers_drop hr 0
      have h4 : s + (rem + (m + (0 - (↑s + add - n)))).toNat = s + rem.toNat + (n + m.toNat - (s + add.toNat)) := by omega
      have h5 : s + (add + (k + (0 - (↑s + add - n)))).toNat = n + k.toNat + 0 := by omega
      rw [h4, h5, e1, ← e2]
      congr 1
      omega

/-- **C32**, a sequence of any length in which no change starts before the first one. (In the
    first request `removed` must be given; see `C32_removed_none`.) -/
theorem C32_sequence_partial (t0 : List α) (r : ChReq α L) (rs : List (ChReq α L)) (h : Chained t0 (r :: rs))
    (hfirst : r.removed ≠ none) (hge : ∀ q ∈ rs, r.start ≤ q.start) :
    (mergeAll (r :: rs)).start = some r.start ∧ (mergeAll (r :: rs)).text = ((r :: rs).getLast (by simp)).text ∧
    Covers t0 (mergeAll (r :: rs)).text r.start (mergeAll (r :: rs)).removed (mergeAll (r :: rs)).added := by
  have key : ∀ (rs : List (ChReq α L)) (c : Chg α L), c.start = some r.start →
      Covers t0 c.text r.start c.removed c.added → Chained c.text rs → (∀ q ∈ rs, r.start ≤ q.start) →
      (rs.foldl Chg.add c).start = some r.start ∧
      (rs.foldl Chg.add c).text = (rs.getLast?.map (·.text)).getD c.text ∧
      Covers t0 (rs.foldl Chg.add c).text r.start (rs.foldl Chg.add c).removed (rs.foldl Chg.add c).added := by
    intro rs
    induction rs with
    | nil => intro c h1 h2 _ _; exact ⟨h1, rfl, h2⟩
    | cons q qs ih =>
      intro c h1 h2 h3 h4
      obtain ⟨hq, h5⟩ := h3
      obtain ⟨e1, e2, e3⟩ := C32_merge_partial t0 c q r.start _ _ h1 h2 rfl rfl hq (h4 q (by simp))
      rw [List.foldl_cons]
      obtain ⟨f1, f2, f3⟩ := ih (c.add q) e1 (by rw [e2]; exact e3) (by rw [e2]; exact h5)
        (fun q' hq' => h4 q' (by simp [hq']))
      refine ⟨f1, ?_, f3⟩
      rw [f2, e2]
      cases qs with
      | nil => rfl
      | cons q2 qs => rw [List.getLast?_cons_cons]; simp [List.getLast?_eq_some_getLast]
  obtain ⟨hr, h2⟩ := h
  obtain ⟨m, hm⟩ := Option.ne_none_iff_exists'.1 hfirst
  have h3 := key rs (Chg.init.add r) rfl (by simpa [Chg.add, Chg.init, hm] using hr) h2 hge
  refine ⟨h3.1, ?_, h3.2.2⟩
  have := h3.2.1
  unfold mergeAll
  rw [List.foldl_cons, this]
  cases rs with
  | nil => rfl
  | cons q qs => simp [List.getLast?_eq_some_getLast]

private def rq (s : String) (start : Nat) (m k : Int) : ChReq Char Nat := ⟨s.toList, none, start, some m, some k⟩

/-- "abcdef" → "abXcdef" → "abXcZZf" → "abYZZf". -/
example : Chained "abcdef".toList [rq "abXcdef" 2 0 1, rq "abXcZZf" 4 2 2, rq "abYZZf" 2 2 1] ∧
    (mergeAll [rq "abXcdef" 2 0 1, rq "abXcZZf" 4 2 2, rq "abYZZf" 2 2 1]).removed = 3 ∧
    (mergeAll [rq "abXcdef" 2 0 1, rq "abXcZZf" 4 2 2, rq "abYZZf" 2 2 1]).added = 3 := by
  refine ⟨⟨by decide, by decide, by decide, trivial⟩, by decide, by decide⟩

/-- "abcdef" → "abXcdef" → "abXcYZ" where the second request does not tell the numbers. -/
example : Chained "abcdef".toList [rq "abXcdef" 2 0 1, ⟨"abXcYZ".toList, none, 4, none, none⟩] ∧
    (mergeAll [rq "abXcdef" 2 0 1, ⟨"abXcYZ".toList, none, 4, none, none⟩]).removed = 4 ∧
    (mergeAll [rq "abXcdef" 2 0 1, ⟨"abXcYZ".toList, none, 4, none, none⟩]).added = 4 := by
  refine ⟨⟨by decide, by decide, trivial⟩, by decide, by decide⟩

/-- **C32 is violated by the code** when the first request does not tell `removed`: the old text is
    not known then and a wrong (negative) number is computed, unless it starts at 0. -/
theorem C32_removed_none (r : ChReq α L) (h : r.removed = none) : (mergeAll [r]).removed = -(r.start : Int) := by
  simp [mergeAll, Chg.add, Chg.init, h]

/-- The start of merged changes never decreases, wherever the new change is. -/
theorem C32_start_never_decreases (c : Chg α L) (r : ChReq α L) (s : Nat) (h : c.start = some s) :
    (c.add r).start = some s := by
  simp only [Chg.add, h, Option.some.injEq]
  omega

/-- **C32** (partial: a pure insertion before the changes so far, and only the lengths). The merged
    lengths are those of an accurate change that starts at the insertion; only the start is
    wrong. -/
theorem C32_insert_before_partial (t0 : List α) (c : Chg α L) (r : ChReq α L) (s : Nat) (k : Int)
    (hs : c.start = some s) (hc : Covers t0 c.text s c.removed c.added)
    (hm : r.removed = some 0) (hk : r.added.getD ((r.text.length : Int) - r.start) = k)
    (hr : Covers c.text r.text r.start 0 k) (hlt : r.start < s) :
    Covers t0 r.text r.start (c.add r).removed (c.add r).added := by
  obtain ⟨text, root, start, rem, add⟩ := c
  obtain ⟨rtext, rroot, n, rrem, radd⟩ := r
  simp only at hs hc hm hk hr hlt
  subst hs hm
  simp only [Chg.add, hk, Option.getD_some]
  obtain ⟨c1, c2, c3, c4, c5, c6⟩ := id hc
  obtain ⟨r1, r2, r3, r4, r5, r6⟩ := id hr
  have hoff : mergeOffset s add n 0 = (s : Int) - n := by
    unfold mergeOffset
    rw [if_pos (by omega)]
    omega
  rw [hoff]
  have hl1 : text.length + k.toNat = rtext.length := by
    have := congrArg List.length r6
    simp only [List.length_drop] at this
    omega
  refine ⟨by omega, by omega, by omega, by omega, ?_, ?_⟩
  · have := congrArg (List.take n) c5
    rw [List.take_take, List.take_take, Nat.min_eq_left (by omega)] at this
    rw [this, r5]
  · have e1 := covers_drop hc 0
    have e2 := covers_drop hr (s + add.toNat - n)
    have h4 : n + (rem + (0 + ((s : Int) - n))).toNat = s + rem.toNat + 0 := by omega
    have h5 : n + (add + (k + ((s : Int) - n))).toNat = n + k.toNat + (s + add.toNat - n) := by omega
    rw [h4, h5, e1, ← e2]
    congr 1
    simp only [Int.toNat_zero]
    omega

/-- "abcdef" → "abcdZf" → "aYbcdZf". -/
example : Chained "abcdef".toList [rq "abcdZf" 4 1 1, rq "aYbcdZf" 1 0 1] ∧
    (mergeAll [rq "abcdZf" 4 1 1, rq "aYbcdZf" 1 0 1]).removed = 4 ∧
    (mergeAll [rq "abcdZf" 4 1 1, rq "aYbcdZf" 1 0 1]).added = 5 := by
  refine ⟨⟨by decide, by decide, trivial⟩, by decide, by decide⟩

/-- **C32 is violated by the code**: a change before the earlier one, "abc" → "abX" → "YbX", is
    merged to a change that starts at 2. -/
theorem C32_violated : Chained "abc".toList [rq "abX" 2 1 1, rq "YbX" 0 1 1] ∧
    (mergeAll [rq "abX" 2 1 1, rq "YbX" 0 1 1]).start = some 2 ∧
    ¬ Covers "abc".toList "YbX".toList 2 (mergeAll [rq "abX" 2 1 1, rq "YbX" 0 1 1]).removed
      (mergeAll [rq "abX" 2 1 1, rq "YbX" 0 1 1]).added := by
  refine ⟨⟨by decide, by decide, trivial⟩, rfl, ?_⟩
  intro h
  exact absurd h.2.2.2.2.1 (by decide)

/-- **C32 is violated by the code** whenever a further change modifies a character before the
    start of the changes so far. -/
theorem C32_violated_always (t0 : List α) (c : Chg α L) (r : ChReq α L) (s i : Nat) (hs : c.start = some s)
    (hi : i < s) (hdiff : t0[i]? ≠ r.text[i]?) :
    ∃ s', (c.add r).start = some s' ∧ ∀ m k, ¬ Covers t0 r.text s' m k := by
  refine ⟨s, C32_start_never_decreases c r s hs, ?_⟩
  intro m k h
  apply hdiff
  have := congrArg (fun l => l[i]?) h.2.2.2.2.1
  simpa [hi] using this

/-- **C32.** The merged root lexicon is the last one asked for. -/
theorem C32_root (reqs : List (ChReq α L)) : (mergeAll reqs).root = lastRoot reqs := by
  have key : ∀ (rs : List (ChReq α L)) (c : Chg α L),
      (rs.foldl Chg.add c).root = (match lastRoot rs with
        | some l => some l
        | none => c.root) := by
    intro rs
    induction rs with
    | nil => intro c; rfl
    | cons q qs ih =>
      intro c
      rw [List.foldl_cons, ih]
      have h1 : (c.add q).root = (match q.root with
        | some l => some l
        | none => c.root) := by
        simp only [Chg.add]
        split <;> rfl
      rw [h1]
      simp only [lastRoot, List.reverse_cons, List.findSome?_append]
      cases qs.reverse.findSome? (·.root) with
      | some l => rfl
      | none => cases hq : q.root <;> simp [List.findSome?, hq]
  rw [mergeAll, key]
  cases lastRoot reqs <;> rfl

/-- **C32.** Something is to be done exactly when there was a request. -/
theorem C32_has_changes (reqs : List (ChReq α L)) : (mergeAll reqs).hasChanges = !reqs.isEmpty := by
  cases reqs with
  | nil => rfl
  | cons r rs =>
    have key : ∀ (rs : List (ChReq α L)) (c : Chg α L), c.start.isSome = true → (rs.foldl Chg.add c).start.isSome = true := by
      intro rs
      induction rs with
      | nil => intro c h; exact h
      | cons q qs ih =>
        intro c h
        obtain ⟨s, hs⟩ := Option.isSome_iff_exists.1 h
        exact ih _ (by rw [C32_start_never_decreases c q s hs]; rfl)
    have := key rs (Chg.init.add r) rfl
    simp [mergeAll, Chg.hasChanges, this]

/-- **C32.** `new_position` maps a position outside the changed region to the position of the same
    text, and a position inside to the end of the region. -/
theorem C32_new_position (t0 : List α) (c : Chg α L) (s : Nat) (hs : c.start = some s)
    (hc : Covers t0 c.text s c.removed c.added) (pos : Nat) :
    (pos < s → c.newPosition pos = pos ∧ t0.take pos = c.text.take pos) ∧
    (s + c.removed ≤ pos → 0 ≤ c.newPosition pos ∧ t0.drop pos = c.text.drop (c.newPosition pos).toNat) ∧
    (s ≤ pos → (pos : Int) < s + c.removed → c.newPosition pos = s + c.added) := by
  simp only [Chg.newPosition, hs]
  obtain ⟨c1, c2, c3, c4, c5, c6⟩ := id hc
  refine ⟨fun h => ?_, fun h => ?_, fun h1 h2 => ?_⟩
  · rw [if_pos (by omega)]
    refine ⟨rfl, ?_⟩
    have := congrArg (List.take pos) c5
    rwa [List.take_take, List.take_take, Nat.min_eq_left (by omega)] at this
  · rw [if_neg (by omega), if_neg (by omega)]
    refine ⟨by omega, ?_⟩
    have := covers_drop hc (pos - (s + c.removed.toNat))
    have h1 : s + c.removed.toNat + (pos - (s + c.removed.toNat)) = pos := by omega
    rw [h1] at this
    rw [this]
    congr 1
    omega
  · rw [if_neg (by omega), if_pos h2]

example : Covers "abcdef".toList "abXYf".toList 2 3 2 ∧
    (⟨"abXYf".toList, none, some 2, 3, 2⟩ : Chg Char Nat).newPosition 5 = 4 := by decide

end Parce

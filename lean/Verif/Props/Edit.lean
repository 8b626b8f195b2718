import Verif.Lemmas.EditOps
/-!
# Text editing: properties C01 to C06

`withBlock s body` is `with s: body`; the body is any properly nested list of statements
(`Nested 1 body`). `requests n body` lists the replacements the body asks for.
A clean string is `⟨t, 0, []⟩`: text `t`, no open context, no pending request.
-/
namespace Parce
deriving instance DecidableEq for Except
variable {α : Type} [DecidableEq α]

/-- C01. The requests that really change something are applied as one simultaneous
    replacement, and the context is clean afterwards. -/
theorem C01_context_is_splice (t : List α) (body : List (Op α)) (reqs : List (Change α))
    (hn : Nested 1 body) (hr : requests t.length body = some reqs)
    (hno : NonOverlapping (reqs.filter (fun r => Effective t r))) :
    (withBlock ⟨t, 0, []⟩ body).state = ⟨splice t (reqs.filter (fun r => Effective t r)), 0, []⟩ ∧
    (withBlock ⟨t, 0, []⟩ body).error = none := by
  rw [withBlock_eq t body reqs hn hr]
  exact applyChanges_ok _ hno (fun r h => requests_valid _ _ _ hr r (List.mem_filter.1 h).1)

/-- C01 for distinct start positions: then requests without effect need not be singled out. -/
theorem C01_context_is_splice_distinct (t : List α) (body : List (Op α)) (reqs : List (Change α))
    (hn : Nested 1 body) (hr : requests t.length body = some reqs)
    (hno : NonOverlapping reqs) (hd : (reqs.map (·.start)).Nodup) :
    (withBlock ⟨t, 0, []⟩ body).state = ⟨splice t reqs, 0, []⟩ ∧
    (withBlock ⟨t, 0, []⟩ body).error = none := by
  rw [← splice_filter_effective t reqs (requests_valid _ _ _ hr) hno hd]
  apply C01_context_is_splice t body reqs hn hr
  intro r h r' h'
  exact hno r (List.mem_filter.1 h).1 r' (List.mem_filter.1 h').1

/-- C01, where requests that do not change anything matter: assigning the text that is
    already there is ignored, it does not count as a request for that start position. -/
theorem C01_noop_same_start_ignored :
    (withBlock ⟨"abcd".toList, 0, []⟩
      [.set (.range (some 0) (some 1)) "a".toList, .set (.range (some 0) (some 2)) "C".toList]).state.text
      = "Ccd".toList ∧
    splice "abcd".toList [⟨0, 1, "a".toList⟩, ⟨0, 2, "C".toList⟩] = "aCcd".toList := by
  decide

/-- The body used in the examples: two insertions at 1, a deletion, nested in a block. -/
def exBody : List (Op Char) :=
  [.set (.range (some 4) (some 6)) "".toList, .enter, .set (.range (some 1) (some 1)) "x".toList,
   .set (.range (some 1) (some 2)) "yz".toList, .leave, .set (.index (-1)) "END".toList]

example : Nested 1 exBody ∧
    requests 8 exBody = some [⟨4, 6, []⟩, ⟨1, 1, ['x']⟩, ⟨1, 2, ['y', 'z']⟩, ⟨7, 8, ['E', 'N', 'D']⟩] ∧
    splice "abcdefgh".toList [⟨4, 6, []⟩, ⟨1, 1, ['x']⟩, ⟨1, 2, ['y', 'z']⟩, ⟨7, 8, ['E', 'N', 'D']⟩]
      = "axyzcdgEND".toList ∧
    (withBlock ⟨"abcdefgh".toList, 0, []⟩ exBody).state.text = "axyzcdgEND".toList := by
  refine ⟨by simp [exBody, Nested], by decide, by decide, by decide⟩
example : NonOverlapping (α := Char)
    [⟨4, 6, []⟩, ⟨1, 1, ['x']⟩, ⟨1, 2, ['y', 'z']⟩, ⟨7, 8, ['E', 'N', 'D']⟩] := by
  unfold NonOverlapping; decide

/-- C02. An accepted context with at least one effective request sends one notification,
    it describes the change of the text, and it spans exactly from the first start to the
    last end of the effective requests. -/
theorem C02_report_accurate (t : List α) (body : List (Op α)) (reqs : List (Change α))
    (hn : Nested 1 body) (hr : requests t.length body = some reqs)
    (hno : NonOverlapping (reqs.filter (fun r => Effective t r)))
    (hne : reqs.filter (fun r => Effective t r) ≠ []) :
    ∃ pos removed added,
      (withBlock ⟨t, 0, []⟩ body).notified = [(pos, removed, added)] ∧
      Describes t (withBlock ⟨t, 0, []⟩ body).state.text (pos, removed, added) ∧
      (∃ r ∈ reqs, Effective t r ∧ r.start = pos) ∧
      (∃ r ∈ reqs, Effective t r ∧ r.stop = pos + removed) ∧
      (∀ r ∈ reqs, Effective t r → pos ≤ r.start ∧ r.stop ≤ pos + removed) := by
  rw [withBlock_eq t body reqs hn hr]
  obtain ⟨p, rm, ad, h1, h2, ⟨r3, m3, h3⟩, ⟨r4, m4, h4⟩, h5⟩ := applyChanges_notified
    (⟨t, 0, reqs.filter (fun r => Effective t r)⟩ : MS α) hno
    (fun r h => requests_valid _ _ _ hr r (List.mem_filter.1 h).1) hne
  simp only [List.mem_filter, decide_eq_true_eq] at m3 m4 h5
  exact ⟨p, rm, ad, h1, h2, ⟨r3, m3.1, m3.2, h3⟩, ⟨r4, m4.1, m4.2, h4⟩,
    fun r a b => h5 r ⟨a, b⟩⟩

/-- C02: from the old text, the triple and the inserted text the new text can be rebuilt. -/
theorem C02_rebuild (old new : List α) (pos removed added : Nat)
    (h : Describes old new (pos, removed, added)) :
    new = old.take pos ++ (new.drop pos).take added ++ old.drop (pos + removed) := by
  obtain ⟨_, _, h3, h4⟩ := h
  simp only at h3 h4
  rw [h3, h4, ← List.drop_drop, List.append_assoc, List.take_append_drop, List.take_append_drop]

/-- C02: a context without effective requests changes nothing and is silent. -/
theorem C02_silent_without_effect (t : List α) (body : List (Op α)) (reqs : List (Change α))
    (hn : Nested 1 body) (hr : requests t.length body = some reqs)
    (hne : ∀ r ∈ reqs, ¬ Effective t r) :
    withBlock ⟨t, 0, []⟩ body = ⟨⟨t, 0, []⟩, none, []⟩ := by
  rw [withBlock_eq t body reqs hn hr, List.filter_eq_nil_iff.2 (by simpa using hne)]
  rfl

example : (withBlock ⟨"abcdefgh".toList, 0, []⟩ exBody).notified = [(1, 7, 9)] ∧
    Describes "abcdefgh".toList "axyzcdgEND".toList (1, 7, 9) := by
  refine ⟨by decide, by decide, by decide, by decide, by decide⟩

/-- C03. Two bodies that ask for the same replacements, at distinct starts, in a different
    order, give the same text and the same verdict. -/
theorem C03_order_irrelevant (t : List α) (body body' : List (Op α)) (reqs reqs' : List (Change α))
    (hn : Nested 1 body) (hr : requests t.length body = some reqs)
    (hn' : Nested 1 body') (hr' : requests t.length body' = some reqs')
    (hp : reqs.Perm reqs') (hd : (reqs.map (·.start)).Nodup) :
    (withBlock ⟨t, 0, []⟩ body).state.text = (withBlock ⟨t, 0, []⟩ body').state.text ∧
    (withBlock ⟨t, 0, []⟩ body).error = (withBlock ⟨t, 0, []⟩ body').error := by
  have hpf : (reqs.filter (fun r => Effective t r)).Perm (reqs'.filter (fun r => Effective t r)) :=
    hp.filter _
  by_cases hno : NonOverlapping (reqs.filter (fun r => Effective t r))
  · have h1 := C01_context_is_splice t body reqs hn hr hno
    have h2 := C01_context_is_splice t body' reqs' hn' hr' ((nonOverlapping_perm hpf).1 hno)
    rw [h1.1, h1.2, h2.1, h2.2]
    refine ⟨splice_perm t hpf ?_, rfl⟩
    exact List.Nodup.sublist (List.Sublist.map _ List.filter_sublist) hd
  · rw [withBlock_eq t body reqs hn hr, withBlock_eq t body' reqs' hn' hr',
      applyChanges_overlap _ hno, applyChanges_overlap _ (fun h => hno ((nonOverlapping_perm hpf).2 h))]
    exact ⟨rfl, rfl⟩

example : requests (α := Char) 8 [.set (.index 3) "X".toList, .set (.index 1) "Y".toList]
      = some [⟨3, 4, ['X']⟩, ⟨1, 2, ['Y']⟩] ∧
    requests (α := Char) 8 [.set (.index 1) "Y".toList, .set (.index 3) "X".toList]
      = some [⟨1, 2, ['Y']⟩, ⟨3, 4, ['X']⟩] := by decide
example : ([⟨3, 4, ['X']⟩, ⟨1, 2, ['Y']⟩] : List (Change Char)).Perm [⟨1, 2, ['Y']⟩, ⟨3, 4, ['X']⟩] :=
  .swap _ _ _

/-- C04. If a context raises, whatever the reason (overlap, bad index, or an exception of
    the user's code at any nesting depth), the text is unchanged and nothing is notified. -/
theorem C04_failing_context_changes_nothing (t : List α) (body : List (Op α)) (hn : Nested 1 body)
    (he : (withBlock ⟨t, 0, []⟩ body).error ≠ none) :
    (withBlock ⟨t, 0, []⟩ body).state.text = t ∧ (withBlock ⟨t, 0, []⟩ body).state.ctx = 0 ∧
    (withBlock ⟨t, 0, []⟩ body).notified = [] := by
  cases hr : requests t.length body with
  | none =>
    obtain ⟨e, h⟩ := withBlock_error t body [] hn hr
    rw [h]; exact ⟨rfl, rfl, rfl⟩
  | some reqs =>
    rw [withBlock_eq t body reqs hn hr] at he ⊢
    by_cases hno : NonOverlapping (reqs.filter (fun r => Effective t r))
    · refine absurd (applyChanges_ok _ hno ?_).2 he
      exact fun r h => requests_valid _ _ _ hr r (List.mem_filter.1 h).1
    · rw [applyChanges_overlap _ hno]; exact ⟨rfl, rfl, rfl⟩

/-- C04. The context raises exactly when an index is out of range, user code raises, or the
    effective requests overlap. -/
theorem C04_raises_iff (t : List α) (body : List (Op α)) (hn : Nested 1 body) :
    (withBlock ⟨t, 0, []⟩ body).error ≠ none ↔
      requests t.length body = none ∨
      ∃ reqs, requests t.length body = some reqs ∧
        ∃ r ∈ reqs, ∃ r' ∈ reqs, Effective t r ∧ Effective t r' ∧ r.start < r'.start ∧ r'.start < r.stop := by
  cases hr : requests t.length body with
  | none =>
    obtain ⟨e, h⟩ := withBlock_error t body [] hn hr
    rw [h]; simp
  | some reqs =>
    rw [withBlock_eq t body reqs hn hr]
    by_cases hno : NonOverlapping (reqs.filter (fun r => Effective t r))
    · have h2 := (applyChanges_ok (⟨t, 0, reqs.filter (fun r => Effective t r)⟩ : MS α) hno
        (fun r h => requests_valid _ _ _ hr r (List.mem_filter.1 h).1)).2
      rw [h2]
      simp only [ne_eq, not_true_eq_false, reduceCtorEq, Option.some.injEq, false_or, false_iff,
        not_exists, not_and]
      rintro _ rfl r m r' m' e e' h3
      have := hno r (by simp [m, e]) r' (by simp [m', e']) h3
      omega
    · rw [applyChanges_overlap _ hno]
      simp only [ne_eq, reduceCtorEq, not_false_eq_true, Option.some.injEq, false_or, true_iff]
      refine ⟨reqs, rfl, ?_⟩
      simp only [NonOverlapping, List.mem_filter, decide_eq_true_eq] at hno
      simp only [Classical.not_forall, Nat.not_le] at hno
      obtain ⟨r, ⟨m, e⟩, r', ⟨m', e'⟩, h1, h2⟩ := hno
      exact ⟨r, m, r', m', e, e', h1, h2⟩

/-- C04. After an exception from the body (anything but the overlap check at the end) the
    string is exactly as before the context, so it accepts new edits as if nothing happened. -/
theorem C04_exception_exit_is_clean (t : List α) (body : List (Op α)) (hn : Nested 1 body)
    (hr : requests t.length body = none) :
    (withBlock ⟨t, 0, []⟩ body).state = ⟨t, 0, []⟩ ∧ (withBlock ⟨t, 0, []⟩ body).error ≠ none := by
  obtain ⟨e, h⟩ := withBlock_error t body [] hn hr
  rw [h]; simp

example : requests (α := Char) 3 [.set (.index 0) "XY".toList, .enter, .set (.index 7) "Z".toList, .leave] = none ∧
    (withBlock ⟨"abc".toList, 0, []⟩
      [.set (.index 0) "XY".toList, .enter, .set (.index 7) "Z".toList, .leave]).error = some .indexError ∧
    (withBlock ⟨"abc".toList, 0, []⟩
      [.set (.index 0) "XY".toList, .enter, .raise, .leave]).error = some .user ∧
    (withBlock ⟨"abcdef".toList, 0, []⟩
      [.set (.range (some 0) (some 3)) "X".toList, .set (.range (some 2) (some 4)) "Y".toList]).error = some .overlap := by
  decide

/-- C05 is violated: after a rejected overlapping context, a valid edit raises and has no
    effect. (The same edit on a clean string works.) -/
theorem C05_violated :
    let bad : List (Op Char) :=
      [.set (.range (some 0) (some 3)) "X".toList, .set (.range (some 2) (some 4)) "Y".toList]
    let r := withBlock ⟨"abcdef".toList, 0, []⟩ bad
    let r2 := setItem r.state (.index 5) "Z".toList
    r.error = some .overlap ∧ r2.error = some .overlap ∧ r2.state.text = "abcdef".toList ∧
    (setItem (⟨"abcdef".toList, 0, []⟩ : MS Char) (.index 5) "Z".toList).state.text = "abcdeZ".toList := by
  decide

/-- C05 is violated for every rejected context and every later effective edit: the string
    stays unusable. -/
theorem C05_violated_always (t : List α) (body : List (Op α)) (hn : Nested 1 body)
    (he : (withBlock ⟨t, 0, []⟩ body).error = some .overlap) (hr : requests t.length body ≠ none)
    (k : Key) (new : List α) (r : Nat × Nat) (hk : keyRegion t.length k = some r)
    (heff : Effective t ⟨r.1, r.2, new⟩) :
    (setItem (withBlock ⟨t, 0, []⟩ body).state k new).error = some .overlap ∧
    (setItem (withBlock ⟨t, 0, []⟩ body).state k new).state.text = t := by
  obtain ⟨reqs, hr⟩ := Option.ne_none_iff_exists'.1 hr
  rw [withBlock_eq t body reqs hn hr] at he ⊢
  have hno : ¬ NonOverlapping (reqs.filter (fun r => Effective t r)) := by
    intro hno
    have := (applyChanges_ok (⟨t, 0, reqs.filter (fun r => Effective t r)⟩ : MS α) hno
        (fun r h => requests_valid _ _ _ hr r (List.mem_filter.1 h).1)).2
    rw [this] at he
    simp at he
  rw [applyChanges_overlap _ hno]
  rw [setItem_ctx _ k new r hk, if_pos heff]
  simp only [if_true]
  rw [applyChanges_overlap]
  · exact ⟨rfl, rfl⟩
  · exact overlap_mono hno

/-- C05, what does hold: whatever requests a rejected context left behind (`pend`), leaving
    any further context with an exception cleans up, so that a later edit has its normal
    effect. Missing: recovery without such an exception, which the code does not provide
    (`C05_violated_always`). -/
theorem C05_recovery_partial (t : List α) (pend : List (Change α)) (body : List (Op α))
    (hn : Nested 1 body) (hr : requests t.length body = none) (k : Key) (new : List α) :
    setItem (withBlock ⟨t, 0, pend⟩ body).state k new = setItem ⟨t, 0, []⟩ k new := by
  obtain ⟨e, h⟩ := withBlock_error t body pend hn hr
  rw [h]

example : (setItem (withBlock (withBlock ⟨"abcdef".toList, 0, []⟩
      [.set (.range (some 0) (some 3)) "X".toList, .set (.range (some 2) (some 4)) "Y".toList]).state
      [.set (.index 99) []]).state (.index 5) "Z".toList).state.text = "abcdeZ".toList := by decide

/-- C06. Reading with a slice gives the elements at the positions the slice selects. -/
theorem C06_read_slice (t : List α) (a b : Option Int) :
    getItem t (.range a b) = .ok (selectPos t (inSlice t.length a b)) := by
  rw [getItem_eq]
  simp only [keyRegion]
  congr 1
  symm
  apply selectPos_slice
  · omega
  · cases a <;> cases b <;> simp only <;> omega
  · intro i hi
    cases a with
    | none =>
      cases b with
      | none => simp [inSlice]; omega
      | some b => simp only [inSlice, Bool.and_eq_true, decide_eq_true_eq, true_and]; omega
    | some a =>
      cases b with
      | none =>
        simp only [inSlice, Bool.and_eq_true, decide_eq_true_eq, and_true]
        rw [Nat.max_eq_right (by omega)]; omega
      | some b => simp only [inSlice, Bool.and_eq_true, decide_eq_true_eq]; omega

/-- C06. Reading with an integer gives the element at that position, counted from the end
    when negative, and IndexError when there is none. -/
theorem C06_read_index (t : List α) (i : Int) :
    getItem t (.index i) =
      match (if 0 ≤ pyBound t.length i then t[(pyBound t.length i).toNat]? else none) with
      | none => .error .indexError
      | some c => .ok [c] := by
  rw [getItem_eq]
  simp only [keyRegion]
  by_cases h : 0 ≤ pyBound t.length i ∧ pyBound t.length i < t.length
  · rw [if_pos h, if_pos h.1]
    have hlt : (pyBound t.length i).toNat < t.length := by omega
    rw [List.getElem?_eq_getElem hlt]
    simp only [slice]
    have : (pyBound t.length i).toNat < (List.take ((pyBound t.length i).toNat + 1) t).length := by
      rw [List.length_take]; omega
    rw [List.drop_eq_getElem_cons this, List.drop_eq_nil_of_le (by rw [List.length_take]; omega)]
    simp
  · rw [if_neg h]
    by_cases h1 : 0 ≤ pyBound t.length i
    · rw [if_pos h1, List.getElem?_eq_none (by omega)]
    · rw [if_neg h1]

/-- C06. Writing outside a context replaces exactly the region: `text[:a] + new + text[b:]`. -/
theorem C06_write (t : List α) (k : Key) (new : List α) (a b : Nat)
    (hk : keyRegion t.length k = some (a, b)) :
    (setItem ⟨t, 0, []⟩ k new).state = ⟨t.take a ++ new ++ t.drop b, 0, []⟩ ∧
    (setItem ⟨t, 0, []⟩ k new).error = none := by
  have hv := keyRegion_valid hk
  rw [setItem_ctx _ k new (a, b) hk]
  by_cases he : Effective t ⟨a, b, new⟩
  · rw [if_pos he]
    simp only [if_true, List.nil_append]
    have h1 := (getChanges_eq ([⟨a, b, new⟩] : List (Change α))).1 (by simp [NonOverlapping])
    simp only [applyChanges, List.isEmpty_cons, Bool.false_eq_true, if_false, h1, and_true]
    simp only [List.map_cons, List.map_nil, sortedKeys, insertKey, merged, BEq.rfl,
      List.filter_cons_of_pos, List.filter_nil, maxStop, List.flatMap_cons, List.flatMap_nil,
      List.append_nil, updateText, updateFrom, Nat.max_zero, MS.mk.injEq, and_true]
    congr 2
    split
    · simp [slice]
    · have : a = 0 := by omega
      rw [this]; simp
  · rw [if_neg he]
    simp only [and_true, MS.mk.injEq]
    simp only [Effective, ne_eq, Decidable.not_not] at he
    rw [← he, slice]
    simp only at hv
    have h7 : List.take b t = List.take a t ++ List.drop a (List.take b t) := by
      conv => lhs; rw [← List.take_append_drop a (List.take b t)]
      rw [List.take_take, Nat.min_eq_left hv.1]
    rw [← h7, List.take_append_drop]

/-- C06. Writing to an index outside the text raises IndexError and changes nothing. -/
theorem C06_write_out_of_range (s : MS α) (k : Key) (new : List α)
    (hk : keyRegion s.text.length k = none) :
    setItem s k new = ⟨s, some .indexError, []⟩ := setItem_error s k new hk

/-- C06. An integer key is out of range exactly when it selects no position. -/
theorem C06_index_region (n : Nat) (i : Int) :
    keyRegion n (.index i) = none ↔ i < -n ∨ n ≤ i := by
  simp only [keyRegion, pyBound]
  split <;> split <;> simp <;> omega

/-- C06. `insert` and `append` on a clean string. -/
theorem C06_insert_append (t new : List α) (pos : Nat) (hp : pos ≤ t.length) :
    (insertText ⟨t, 0, []⟩ pos new).state.text = t.take pos ++ new ++ t.drop pos ∧
    (appendText ⟨t, 0, []⟩ new).state.text = t ++ new := by
  have h : ∀ p : Nat, p ≤ t.length → keyRegion t.length (.range (some (p : Int)) (some (p : Int))) = some (p, p) := by
    intro p hp
    simp only [keyRegion, pyBound]
    rw [if_neg (by omega)]
    congr 2 <;> omega
  unfold appendText insertText
  rw [(C06_write t _ new pos pos (h pos hp)).1, (C06_write t _ new _ _ (h t.length (Nat.le_refl _))).1]
  simp

/-- C06. `set_text` gives that text; inside a context it raises and changes nothing. -/
theorem C06_set_text (t new : List α) (s : MS α) (hs : s.ctx ≠ 0) :
    (setText ⟨t, 0, []⟩ new).state = ⟨new, 0, []⟩ ∧ setText s new = ⟨s, some .inContext, []⟩ := by
  constructor
  · simp only [setText]
    rw [if_neg (by simp), (C06_write t _ new 0 t.length (by simp [keyRegion])).1]
    simp
  · simp [setText, hs]

example : keyRegion 5 (.range (some (-3)) (some 99)) = some (2, 5) ∧
    getItem "abcde".toList (.range (some (-3)) (some 99)) = .ok "cde".toList ∧
    getItem "abcde".toList (.range (some 4) (some 2)) = .ok [] ∧
    keyRegion 5 (.range (some 4) (some 2)) = some (4, 4) ∧
    keyRegion 5 (.index (-6)) = none := by decide
example : getItem "abcde".toList (.index (-2)) = .ok "d".toList := by decide

end Parce

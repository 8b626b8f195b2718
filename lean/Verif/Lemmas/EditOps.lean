import Verif.Lemmas.Edit
namespace Parce
variable {α : Type}

theorem parseKey_eq (n : Nat) (k : Key) :
    parseKey n k = match keyRegion n k with | none => .error .indexError | some r => .ok r := by
  cases k with
  | index i =>
    have h0 : (if i < 0 then i + (n : Int) else i) = pyBound n i := rfl
    simp only [parseKey, keyRegion, h0]
    by_cases h : 0 ≤ pyBound n i ∧ pyBound n i < (n : Int)
    · simp only [if_pos h]
    · simp only [if_neg h]
  | range a b =>
    simp only [parseKey, keyRegion]
    congr 1
    have h1 : ∀ x : Int, clampBound n 0 (some x) = min (pyBound n x).toNat n := by
      intro x; simp only [clampBound, pyBound]; split <;> omega
    have h2 : ∀ x : Int, clampBound n n (some x) = min (pyBound n x).toNat n := by
      intro x; simp only [clampBound, pyBound]; split <;> omega
    have h3 : clampBound n 0 none = 0 := rfl
    have h4 : clampBound n n none = n := rfl
    cases a <;> cases b <;> simp only [h1, h2, h3, h4] <;> congr 1 <;> split <;> omega

theorem keyRegion_valid {n : Nat} {k : Key} {r : Nat × Nat} (h : keyRegion n k = some r) :
    r.1 ≤ r.2 ∧ r.2 ≤ n := by
  cases k with
  | index i =>
    simp only [keyRegion] at h
    split at h
    · cases h; simp only; omega
    · simp at h
  | range a b =>
    simp only [keyRegion, Option.some.injEq] at h
    subst h
    cases a <;> cases b <;> simp only <;> omega

theorem slice_length (t : List α) (a b : Nat) : (slice t a b).length = min b t.length - a := by
  simp [slice]

theorem setItem_cond [DecidableEq α] (t new : List α) (a b : Nat) (h1 : a ≤ b) (h2 : b ≤ t.length) :
    ((new ≠ [] ∨ a ≠ b) ∧ (b - a ≠ new.length ∨ slice t a b ≠ new)) ↔ slice t a b ≠ new := by
  have hl := slice_length t a b
  constructor
  · rintro ⟨_, h | h⟩
    · intro h5; subst h5; omega
    · exact h
  · intro h
    refine ⟨?_, Or.inr h⟩
    by_cases hab : a = b
    · left
      intro h5
      subst h5 hab
      apply h
      rw [List.eq_nil_iff_length_eq_zero, hl]
      omega
    · exact Or.inr hab

instance [DecidableEq α] (t : List α) (r : Change α) : Decidable (Effective t r) :=
  inferInstanceAs (Decidable (slice t r.start r.stop ≠ r.text))

theorem setItem_ctx [DecidableEq α] (s : MS α) (k : Key) (new : List α) (r : Nat × Nat)
    (h : keyRegion s.text.length k = some r) :
    setItem s k new =
      if Effective s.text ⟨r.1, r.2, new⟩ then
        (if s.ctx = 0 then applyChanges { s with pending := s.pending ++ [⟨r.1, r.2, new⟩] }
         else ⟨{ s with pending := s.pending ++ [⟨r.1, r.2, new⟩] }, none, []⟩)
      else ⟨s, none, []⟩ := by
  obtain ⟨a, b⟩ := r
  have hv := keyRegion_valid h
  have h5 := setItem_cond s.text new a b hv.1 hv.2
  simp only [setItem, parseKey_eq, h]
  by_cases he : slice s.text a b ≠ new
  · have he' : Effective s.text ⟨a, b, new⟩ := he
    simp only [if_pos (h5.2 he), if_pos he']
  · have he' : ¬ Effective s.text ⟨a, b, new⟩ := he
    simp only [if_neg (fun h' => he (h5.1 h')), if_neg he']

theorem setItem_error [DecidableEq α] (s : MS α) (k : Key) (new : List α)
    (h : keyRegion s.text.length k = none) : setItem s k new = ⟨s, some .indexError, []⟩ := by
  simp [setItem, parseKey_eq, h]

/-- Inside a context every properly nested program only collects its effective requests. -/
theorem runOps_inside [DecidableEq α] : ∀ (os : List (Op α)) (s : MS α) (reqs : List (Change α)),
    0 < s.ctx → Nested s.ctx os → requests s.text.length os = some reqs →
    runOps s os = ⟨⟨s.text, 1, s.pending ++ reqs.filter (fun r => Effective s.text r)⟩, none, []⟩
  | [], s, reqs, h0, hn, hr => by
    simp only [requests, Option.some.injEq] at hr
    subst hr
    simp only [Nested] at hn
    simp [runOps, ← hn]
  | .set k new :: os, s, reqs, h0, hn, hr => by
    simp only [requests] at hr
    cases hk : keyRegion s.text.length k with
    | none => simp [hk] at hr
    | some r =>
      cases hrest : requests s.text.length os with
      | none => simp [hk, hrest] at hr
      | some rest =>
        simp [hk, hrest] at hr
        subst hr
        simp only [Nested] at hn
        simp only [runOps, Op.step]
        rw [setItem_ctx s k new r hk]
        by_cases he : Effective s.text ⟨r.1, r.2, new⟩
        · rw [if_pos he, if_neg (by omega)]
          simp only
          have ih := runOps_inside os
            (⟨s.text, s.ctx, s.pending ++ [(⟨r.1, r.2, new⟩ : Change α)]⟩ : MS α) rest h0 hn hrest
          simp only at ih
          rw [ih]
          simp [he]
        · rw [if_neg he]
          simp only
          rw [runOps_inside os _ rest h0 hn hrest]
          simp [he]
  | .enter :: os, s, reqs, h0, hn, hr => by
    simp only [requests, Nested] at hr hn
    simp only [runOps, Op.step, enter]
    rw [runOps_inside os ⟨s.text, s.ctx + 1, s.pending⟩ reqs (by simp) hn hr]
    rfl
  | .leave :: os, s, reqs, h0, hn, hr => by
    simp only [requests, Nested] at hr hn
    simp only [runOps, Op.step, exit, Bool.false_eq_true, if_false, gt_iff_lt, hn.1, if_true]
    rw [runOps_inside os ⟨s.text, s.ctx - 1, s.pending⟩ reqs (by simp; omega) hn.2 hr]
    rfl
  | .raise :: os, s, reqs, h0, hn, hr => by simp [requests] at hr

/-- Inside a context, a program with an invalid key or a `raise` stops with an error. -/
theorem runOps_inside_error [DecidableEq α] : ∀ (os : List (Op α)) (s : MS α),
    0 < s.ctx → Nested s.ctx os → requests s.text.length os = none →
    ∃ p c e, 0 < c ∧ runOps s os = ⟨⟨s.text, c, p⟩, some e, []⟩
  | [], s, h0, hn, hr => by simp [requests] at hr
  | .set k new :: os, s, h0, hn, hr => by
    simp only [Nested] at hn
    simp only [requests] at hr
    simp only [runOps, Op.step]
    cases hk : keyRegion s.text.length k with
    | none =>
      rw [setItem_error s k new hk]
      exact ⟨s.pending, s.ctx, .indexError, h0, rfl⟩
    | some r =>
      cases hrest : requests s.text.length os with
      | some rest => simp [hk, hrest] at hr
      | none =>
        rw [setItem_ctx s k new r hk]
        by_cases he : Effective s.text ⟨r.1, r.2, new⟩
        · rw [if_pos he, if_neg (by omega)]
          simp only
          obtain ⟨p, c, e, h1, h2⟩ := runOps_inside_error os ⟨s.text, s.ctx, s.pending ++ [⟨r.1, r.2, new⟩]⟩ h0 hn hrest
          rw [h2]
          exact ⟨p, c, e, h1, rfl⟩
        · rw [if_neg he]
          simp only
          obtain ⟨p, c, e, h1, h2⟩ := runOps_inside_error os s h0 hn hrest
          rw [h2]
          exact ⟨p, c, e, h1, rfl⟩
  | .enter :: os, s, h0, hn, hr => by
    simp only [requests, Nested] at hr hn
    simp only [runOps, Op.step, enter]
    obtain ⟨p, c, e, h1, h2⟩ := runOps_inside_error os ⟨s.text, s.ctx + 1, s.pending⟩ (by simp) hn hr
    rw [h2]
    exact ⟨p, c, e, h1, rfl⟩
  | .leave :: os, s, h0, hn, hr => by
    simp only [requests, Nested] at hr hn
    simp only [runOps, Op.step, exit, Bool.false_eq_true, if_false, gt_iff_lt, hn.1, if_true]
    obtain ⟨p, c, e, h1, h2⟩ := runOps_inside_error os ⟨s.text, s.ctx - 1, s.pending⟩ (by simp; omega) hn.2 hr
    rw [h2]
    exact ⟨p, c, e, h1, rfl⟩
  | .raise :: os, s, h0, hn, hr => by
    exact ⟨s.pending, s.ctx, .user, h0, rfl⟩

theorem runOps_append [DecidableEq α] : ∀ (os os' : List (Op α)) (s : MS α),
    runOps s (os ++ os') =
      match (runOps s os).error with
      | some _ => runOps s os
      | none => { runOps (runOps s os).state os' with
          notified := (runOps s os).notified ++ (runOps (runOps s os).state os').notified }
  | [], os', s => by simp [runOps]
  | o :: os, os', s => by
    simp only [List.cons_append, runOps]
    cases h : (o.step s).error with
    | some e => simp [h]
    | none =>
      simp only
      rw [runOps_append os os' (o.step s).state]
      cases h2 : (runOps (o.step s).state os).error with
      | some e => simp [h2]
      | none => simp [h2]

theorem requests_valid (n : Nat) : ∀ (os : List (Op α)) (reqs : List (Change α)),
    requests n os = some reqs → ∀ r ∈ reqs, ValidReq n r
  | [], reqs, h => by simp [requests] at h; subst h; simp
  | .set k new :: os, reqs, h => by
    simp only [requests] at h
    cases hk : keyRegion n k with
    | none => simp [hk] at h
    | some r =>
      cases hrest : requests n os with
      | none => simp [hk, hrest] at h
      | some rest =>
        simp [hk, hrest] at h
        subst h
        intro x hx
        rcases List.mem_cons.1 hx with rfl | hx
        · exact keyRegion_valid hk
        · exact requests_valid n os rest hrest x hx
  | .enter :: os, reqs, h => requests_valid n os reqs h
  | .leave :: os, reqs, h => requests_valid n os reqs h
  | .raise :: os, reqs, h => by simp [requests] at h

theorem runOps_enter [DecidableEq α] (s : MS α) (os : List (Op α)) :
    runOps s (.enter :: os) = runOps (enter s) os := by
  simp [runOps, Op.step]

theorem runOps_leave [DecidableEq α] (s : MS α) (h : s.ctx = 1) :
    runOps s [.leave] = applyChanges { s with ctx := 0 } := by
  simp only [runOps, Op.step, exit, h]
  simp only [Bool.false_eq_true, if_false, gt_iff_lt, Nat.lt_irrefl]
  cases hr : (applyChanges (⟨s.text, 0, s.pending⟩ : MS α)).error with
  | none =>
    simp only [List.append_nil]
    generalize applyChanges (⟨s.text, 0, s.pending⟩ : MS α) = r at *
    obtain ⟨a, b, c⟩ := r
    simp only at hr
    simp [hr]
  | some e => simp

theorem applyChanges_ok (s : MS α) (hno : NonOverlapping s.pending)
    (hv : ∀ r ∈ s.pending, ValidReq s.text.length r) :
    (applyChanges s).state = { s with text := splice s.text s.pending, pending := [] } ∧
    (applyChanges s).error = none := by
  unfold applyChanges
  split
  · rename_i he
    rw [List.isEmpty_iff] at he
    refine ⟨?_, rfl⟩
    have : splice s.text ([] : List (Change α)) = s.text := by
      have := updateText_merged s.text ([] : List (Change α)) (by simp) (by simp [NonOverlapping])
      rw [← this]; simp [sortedKeys, updateText, updateFrom]
    obtain ⟨t, c, p⟩ := s
    simp only at *
    subst he
    simp [this]
  · rw [(getChanges_eq s.pending).1 hno]
    simp only [and_true]
    rw [updateText_merged s.text s.pending hv hno]

theorem applyChanges_overlap (s : MS α) (hno : ¬ NonOverlapping s.pending) :
    applyChanges s = ⟨s, some .overlap, []⟩ := by
  unfold applyChanges
  rw [if_neg, (getChanges_eq s.pending).2 hno]
  intro h
  rw [List.isEmpty_iff] at h
  apply hno
  rw [h]
  simp [NonOverlapping]

/-- `with s: body` for a body whose keys are all valid. -/
theorem withBlock_eq [DecidableEq α] (t : List α) (body : List (Op α)) (reqs : List (Change α))
    (hn : Nested 1 body) (hr : requests t.length body = some reqs) :
    withBlock ⟨t, 0, []⟩ body =
      applyChanges ⟨t, 0, reqs.filter (fun r => Effective t r)⟩ := by
  unfold withBlock
  rw [List.cons_append, runOps_enter, runOps_append]
  have h := runOps_inside body (⟨t, 1, []⟩ : MS α) reqs (by simp) hn hr
  simp only [List.nil_append] at h
  have he : enter (⟨t, 0, []⟩ : MS α) = ⟨t, 1, []⟩ := rfl
  rw [he, h]
  simp only [List.nil_append]
  rw [runOps_leave _ rfl]
  unfold unwind
  simp only
  rw [if_neg]
  rintro ⟨h1, h2⟩
  unfold applyChanges at h2
  split at h2
  · simp at h2
  · split at h2 <;> simp at h2

theorem withBlock_error [DecidableEq α] (t : List α) (body : List (Op α)) (pend : List (Change α) := [])
    (hn : Nested 1 body) (hr : requests t.length body = none) :
    ∃ e, withBlock ⟨t, 0, pend⟩ body = ⟨⟨t, 0, []⟩, some e, []⟩ := by
  obtain ⟨p, c, e, h1, h2⟩ := runOps_inside_error body (enter ⟨t, 0, pend⟩) (by simp [enter]) hn hr
  refine ⟨e, ?_⟩
  unfold withBlock
  rw [List.cons_append, runOps_enter, runOps_append, h2]
  simp [unwind, h1, exit, enter]

/-! ### The report -/

theorem sumChanges_spec (t : List α) {k : Nat} {cs : List (Change α)} (h : Chain t.length k cs) :
    ∀ added : Nat,
    k ≤ (sumChanges k added cs).1 ∧ (sumChanges k added cs).1 ≤ t.length ∧
    added ≤ (sumChanges k added cs).2 ∧
    (updateFrom t k cs).drop ((sumChanges k added cs).2 - added) =
      t.drop (sumChanges k added cs).1 ∧
    (sumChanges k added cs).2 - added ≤ (updateFrom t k cs).length := by
  induction h with
  | nil k h => intro added; simp [sumChanges, updateFrom, h]
  | cons k c cs h1 h2 h3 h5 ih =>
    intro added
    obtain ⟨i1, i2, i3, i4, i5⟩ := ih (added + (c.start - k) + c.text.length)
    simp only [sumChanges, updateFrom]
    have hl : (if c.start > k then slice t k c.start else []).length = c.start - k := by
      split
      · rw [slice_length]; omega
      · simp only [List.length_nil]; omega
    refine ⟨by omega, i2, by omega, ?_, ?_⟩
    · rw [List.drop_append, List.drop_eq_nil_of_le, List.nil_append]
      · rw [List.length_append, hl, ← i4]
        congr 1
        omega
      · rw [List.length_append, hl]; omega
    · simp only [List.length_append, hl]; omega

theorem describes_report (t : List α) {cs : List (Change α)} (h : Chain t.length 0 cs) (hne : cs ≠ []) :
    Describes t (updateText t cs) (reportOf cs) := by
  cases h with
  | nil => exact absurd rfl hne
  | cons _ c cs h1 h2 h3 h5 =>
    have hc : Chain t.length c.start (c :: cs) := Chain.cons _ c cs (Nat.le_refl _) h2 h3 h5
    obtain ⟨i1, i2, i3, i4, i5⟩ := sumChanges_spec t hc 0
    have e1 : updateText t (c :: cs) = t.take c.start ++ updateFrom t c.start (c :: cs) := by
      simp only [updateText, updateFrom, gt_iff_lt, Nat.lt_irrefl, if_false, List.nil_append]
      rw [← List.append_assoc]
      congr 2
      split
      · simp [slice]
      · rename_i h0
        have : c.start = 0 := by omega
        rw [this]; simp
    have e2 : reportOf (c :: cs) = (c.start, (sumChanges c.start 0 (c :: cs)).1 - c.start,
        (sumChanges c.start 0 (c :: cs)).2) := by simp [reportOf]
    rw [e1, e2]
    simp only [Describes]
    have hcl : (t.take c.start).length = c.start := by rw [List.length_take]; omega
    simp only [Nat.sub_zero] at i4 i5
    refine ⟨by omega, ?_, ?_, ?_⟩
    · rw [List.length_append, hcl]; omega
    · rw [List.take_append, hcl, Nat.sub_self, List.take_zero, List.append_nil, List.take_take]
      simp
    · rw [List.drop_append (l₁ := t.take c.start), hcl,
        List.drop_eq_nil_of_le (as := t.take c.start) (by rw [hcl]; omega), List.nil_append,
        Nat.add_sub_cancel_left, i4]
      congr 1; omega

/-! ### Requests without effect -/

theorem updateFrom_filter [DecidableEq α] (t : List α) {k : Nat} {cs : List (Change α)}
    (h : Chain t.length k cs) :
    updateFrom t k cs = updateFrom t k (cs.filter (fun r => Effective t r)) := by
  induction h with
  | nil => rfl
  | cons k c cs h1 h2 h3 h5 ih =>
    by_cases he : Effective t c
    · rw [List.filter_cons_of_pos (by simpa using he)]
      simp only [updateFrom]
      rw [ih]
    · rw [List.filter_cons_of_neg (by simpa using he)]
      have he' : c.text = slice t c.start c.stop := by
        simp only [Effective, ne_eq, Decidable.not_not] at he
        exact he.symm
      simp only [updateFrom]
      rw [ih, he']
      -- merge the copied pieces
      have hcopy : ∀ {a b : Nat}, a ≤ b → b ≤ t.length → ∀ ds : List (Change α),
          (∀ d ∈ ds, b ≤ d.start) → slice t a b ++ updateFrom t b ds = updateFrom t a ds := by
        intro a b hab hb ds hds
        have hslice : ∀ m, b ≤ m → slice t a b ++ slice t b m = slice t a m := by
          intro m hm
          simp only [slice]
          have h7 : List.take m t = List.take b t ++ List.drop b (List.take m t) := by
            conv => lhs; rw [← List.take_append_drop b (List.take m t)]
            rw [List.take_take, Nat.min_eq_left hm]
          conv => rhs; rw [h7]
          rw [List.drop_append_of_le_length (by rw [List.length_take]; omega)]
        cases ds with
        | nil =>
          simp only [updateFrom]
          have := hslice t.length hb
          simpa [slice] using this
        | cons d ds =>
          have hd := hds d (by simp)
          simp only [updateFrom]
          rw [← List.append_assoc, ← List.append_assoc]
          congr 2
          by_cases hbd : d.start > b
          · rw [if_pos hbd, if_pos (by omega)]
            exact hslice _ (by omega)
          · rw [if_neg hbd]
            have : d.start = b := by omega
            rw [this]
            by_cases hba : b > a
            · rw [if_pos hba]; simp
            · rw [if_neg hba]
              have : a = b := by omega
              subst this
              simp [slice]
      have hge := h5.start_ge
      rw [List.append_assoc, hcopy h2 h3]
      · by_cases hk : c.start > k
        · rw [if_pos hk]
          apply hcopy h1 (by omega)
          intro d hd
          have := hge d (List.mem_filter.1 hd).1
          omega
        · rw [if_neg hk]
          have : c.start = k := by omega
          rw [this]; rfl
      · intro d hd
        exact hge d (List.mem_filter.1 hd).1

theorem filter_start_singleton {p : List (Change α)} (hd : (p.map (·.start)).Nodup) {r : Change α}
    (hr : r ∈ p) : p.filter (fun x => x.start == r.start) = [r] := by
  induction p with
  | nil => simp at hr
  | cons a p ih =>
    simp only [List.map_cons, List.nodup_cons] at hd
    rcases List.mem_cons.1 hr with rfl | hr
    · rw [List.filter_cons_of_pos (by simp), List.filter_eq_nil_iff.2]
      intro x hx
      simp only [beq_iff_eq]
      intro h
      exact hd.1 (h ▸ List.mem_map_of_mem hx)
    · rw [List.filter_cons_of_neg, ih hd.2 hr]
      simp only [beq_iff_eq]
      intro h
      exact hd.1 (h ▸ List.mem_map_of_mem hr)

theorem merged_of_nodup {p : List (Change α)} (hd : (p.map (·.start)).Nodup) {r : Change α}
    (hr : r ∈ p) : merged p r.start = r := by
  simp [merged, filter_start_singleton hd hr, maxStop]

/-- With distinct starts, requests without effect may be dropped. -/
theorem splice_filter_effective [DecidableEq α] (t : List α) (p : List (Change α))
    (hv : ∀ r ∈ p, ValidReq t.length r) (hno : NonOverlapping p) (hd : (p.map (·.start)).Nodup) :
    splice t (p.filter (fun r => Effective t r)) = splice t p := by
  have hno' : NonOverlapping (p.filter (fun r => Effective t r)) := by
    intro r hr r' hr'
    exact hno r (List.mem_filter.1 hr).1 r' (List.mem_filter.1 hr').1
  have hd' : ((p.filter (fun r => Effective t r)).map (·.start)).Nodup :=
    List.Nodup.sublist (List.Sublist.map _ List.filter_sublist) hd
  rw [← updateText_merged t p hv hno, ← updateText_merged t _ _ hno']
  · unfold updateText
    rw [updateFrom_filter t (chain_of_nonOverlapping p hv hno)]
    congr 1
    rw [List.filter_map]
    have hkeys : sortedKeys ((p.filter (fun r => Effective t r)).map (·.start)) =
        (sortedKeys (p.map (·.start))).filter
          ((fun r => decide (Effective t r)) ∘ merged p) := by
      apply sorted_ext _ _ (pairwise_sortedKeys _)
      · exact List.Pairwise.filter _ (pairwise_sortedKeys _)
      · intro x
        rw [mem_sortedKeys, List.mem_filter, mem_sortedKeys, List.mem_map, List.mem_map]
        constructor
        · rintro ⟨r, hr, rfl⟩
          rw [List.mem_filter] at hr
          refine ⟨⟨r, hr.1, rfl⟩, ?_⟩
          simp only [Function.comp_apply]
          rw [merged_of_nodup hd hr.1]
          exact hr.2
        · rintro ⟨⟨r, hr, rfl⟩, h2⟩
          simp only [Function.comp_apply] at h2
          rw [merged_of_nodup hd hr] at h2
          exact ⟨r, List.mem_filter.2 ⟨hr, h2⟩, rfl⟩
    rw [hkeys]
    apply List.map_congr_left
    intro s hs
    rw [← hkeys, mem_sortedKeys, List.mem_map] at hs
    obtain ⟨r, hr, rfl⟩ := hs
    rw [merged_of_nodup hd' hr, merged_of_nodup hd (List.mem_filter.1 hr).1]
  · intro r hr
    exact hv r (List.mem_filter.1 hr).1

theorem filter_perm_nodup {p q : List (Change α)} (h : p.Perm q) (hd : (p.map (·.start)).Nodup)
    (i : Nat) : p.filter (fun x => x.start == i) = q.filter (fun x => x.start == i) := by
  by_cases hi : ∃ r ∈ p, r.start = i
  · obtain ⟨r, hr, rfl⟩ := hi
    rw [filter_start_singleton hd hr,
      filter_start_singleton ((h.map _).nodup_iff.1 hd) (h.mem_iff.1 hr)]
  · rw [List.filter_eq_nil_iff.2, List.filter_eq_nil_iff.2]
    · intro x hx
      simp only [beq_iff_eq]
      exact fun hh => hi ⟨x, h.mem_iff.2 hx, hh⟩
    · intro x hx
      simp only [beq_iff_eq]
      exact fun hh => hi ⟨x, hx, hh⟩

theorem splice_perm (t : List α) {p q : List (Change α)} (h : p.Perm q)
    (hd : (p.map (·.start)).Nodup) : splice t p = splice t q := by
  unfold splice
  apply flatMap_congr'
  intro i _
  rw [filter_perm_nodup h hd i]
  have : p.any (fun r => decide (r.start ≤ i ∧ i < r.stop)) =
      q.any (fun r => decide (r.start ≤ i ∧ i < r.stop)) := by
    rw [Bool.eq_iff_iff, List.any_eq_true, List.any_eq_true]
    constructor
    · rintro ⟨r, hr, h2⟩; exact ⟨r, h.mem_iff.1 hr, h2⟩
    · rintro ⟨r, hr, h2⟩; exact ⟨r, h.mem_iff.2 hr, h2⟩
  rw [this]

theorem nonOverlapping_perm {p q : List (Change α)} (h : p.Perm q) :
    NonOverlapping p ↔ NonOverlapping q := by
  constructor
  · intro h1 r hr r' hr'
    exact h1 r (h.mem_iff.2 hr) r' (h.mem_iff.2 hr')
  · intro h1 r hr r' hr'
    exact h1 r (h.mem_iff.1 hr) r' (h.mem_iff.1 hr')

/-! ### Extent of the report -/

theorem sumChanges_extent {n k : Nat} {cs : List (Change α)} (h : Chain n k cs) (added : Nat) :
    (cs = [] → (sumChanges k added cs).1 = k) ∧
    (cs ≠ [] → ∃ c ∈ cs, (sumChanges k added cs).1 = c.stop) ∧
    (∀ d ∈ cs, d.stop ≤ (sumChanges k added cs).1) ∧ k ≤ (sumChanges k added cs).1 := by
  induction h generalizing added with
  | nil k h => simp [sumChanges]
  | cons k c cs h1 h2 h3 h5 ih =>
    obtain ⟨i1, i2, i3, i4⟩ := ih (added + (c.start - k) + c.text.length)
    simp only [sumChanges]
    refine ⟨by simp, ?_, ?_, by omega⟩
    · intro _
      by_cases hc : cs = []
      · exact ⟨c, by simp, i1 hc⟩
      · obtain ⟨d, hd, h⟩ := i2 hc
        exact ⟨d, by simp [hd], h⟩
    · intro d hd
      rcases List.mem_cons.1 hd with h9 | h9
      · subst h9; omega
      · exact i3 d h9

theorem applyChanges_notified (s : MS α) (hno : NonOverlapping s.pending)
    (hv : ∀ r ∈ s.pending, ValidReq s.text.length r) (hne : s.pending ≠ []) :
    ∃ pos removed added, (applyChanges s).notified = [(pos, removed, added)] ∧
      Describes s.text (applyChanges s).state.text (pos, removed, added) ∧
      (∃ r ∈ s.pending, r.start = pos) ∧ (∃ r ∈ s.pending, r.stop = pos + removed) ∧
      (∀ r ∈ s.pending, pos ≤ r.start ∧ r.stop ≤ pos + removed) := by
  have hch := chain_of_nonOverlapping s.pending hv hno
  have hk : sortedKeys (s.pending.map (·.start)) ≠ [] := by
    obtain ⟨r, hr⟩ := List.exists_mem_of_ne_nil _ hne
    exact List.ne_nil_of_mem ((mem_sortedKeys _ _).2 (List.mem_map_of_mem hr))
  have hne' : (sortedKeys (s.pending.map (·.start))).map (merged s.pending) ≠ [] := by
    simpa using hk
  have hd := describes_report s.text hch hne'
  unfold applyChanges
  rw [if_neg (by simpa using hne), (getChanges_eq s.pending).1 hno]
  simp only
  refine ⟨_, _, _, rfl, hd, ?_⟩
  clear hd
  have hfst : ∀ r ∈ s.pending,
      r.stop ≤ (merged s.pending r.start).stop := by
    intro r hr
    simp only [merged]
    apply le_maxStop
    simp [hr]
  have hin : ∀ r ∈ s.pending, merged s.pending r.start ∈
      (sortedKeys (s.pending.map (·.start))).map (merged s.pending) := by
    intro r hr
    exact List.mem_map_of_mem ((mem_sortedKeys _ _).2 (List.mem_map_of_mem hr))
  have hout : ∀ c ∈ (sortedKeys (s.pending.map (·.start))).map (merged s.pending),
      (∃ r ∈ s.pending, r.start = c.start) ∧ (∃ r ∈ s.pending, r.stop = c.stop) := by
    intro c hc
    obtain ⟨x, hx, h9⟩ := List.mem_map.1 hc
    subst h9
    obtain ⟨r, hr, h8⟩ := List.mem_map.1 ((mem_sortedKeys _ _).1 hx)
    refine ⟨⟨r, hr, h8⟩, ?_⟩
    simp only [merged]
    obtain ⟨r', hr', h7⟩ := maxStop_mem (s.pending.filter (fun r => r.start == x))
      (List.ne_nil_of_mem (List.mem_filter.2 ⟨hr, by simpa using h8⟩))
    exact ⟨r', (List.mem_filter.1 hr').1, h7⟩
  have hstart : ∀ x, (merged s.pending x).start = x := fun x => rfl
  generalize (sortedKeys (s.pending.map (·.start))).map (merged s.pending) = cs at *
  cases hch with
  | nil => exact absurd rfl hne'
  | cons _ c cs h1 h2 h3 h5 =>
    have hc : Chain s.text.length c.start (c :: cs) := Chain.cons _ c cs (Nat.le_refl _) h2 h3 h5
    obtain ⟨_, i2, i3, i4⟩ := sumChanges_extent hc 0
    obtain ⟨d, hd, hd2⟩ := i2 (by simp)
    simp only [reportOf, List.head?_cons, Option.map_some, Option.getD_some]
    refine ⟨(hout c (by simp)).1, ?_, ?_⟩
    · obtain ⟨r, hr, h⟩ := (hout d hd).2
      exact ⟨r, hr, by omega⟩
    · intro r hr
      have h6 := hin r hr
      have h7 := i3 _ h6
      have h8 := hfst r hr
      refine ⟨?_, by omega⟩
      rcases List.mem_cons.1 h6 with h9 | h9
      · have := congrArg Change.start h9
        rw [hstart] at this
        omega
      · have := h5.start_ge _ h9
        rw [hstart] at this
        omega

/-- A request list stays overlapping when more requests are added. -/
theorem overlap_mono {p q : List (Change α)} (h : ¬ NonOverlapping p) : ¬ NonOverlapping (p ++ q) := by
  intro h2
  apply h
  intro r hr r' hr'
  exact h2 r (List.mem_append_left _ hr) r' (List.mem_append_left _ hr')

theorem selectPos_slice (t : List α) (p : Nat → Bool) (a b : Nat) (hab : a ≤ b) (hb : b ≤ t.length)
    (h : ∀ i, i < t.length → (p i = true ↔ a ≤ i ∧ i < b)) :
    selectPos t p = slice t a b := by
  have hl : (List.range t.length) = List.range' 0 a ++ (List.range' a (b - a) ++ List.range' b (t.length - b)) := by
    have h1 := List.range'_append (s := a) (m := b - a) (n := t.length - b) (step := 1)
    rw [Nat.one_mul, show a + (b - a) = b by omega, show (b - a) + (t.length - b) = t.length - a by omega] at h1
    have h2 := List.range'_append (s := 0) (m := a) (n := t.length - a) (step := 1)
    rw [Nat.one_mul, Nat.zero_add, show a + (t.length - a) = t.length by omega] at h2
    rw [List.range_eq_range', h1, h2]
  unfold selectPos
  rw [hl, List.flatMap_append, List.flatMap_append]
  have e1 : (List.range' 0 a).flatMap (fun i => if p i = true then t[i]?.toList else []) = [] := by
    rw [List.flatMap_eq_nil_iff]
    intro i hi
    rw [List.mem_range'_1] at hi
    rw [if_neg]
    rw [h i (by omega)]; omega
  have e3 : (List.range' b (t.length - b)).flatMap (fun i => if p i = true then t[i]?.toList else []) = [] := by
    rw [List.flatMap_eq_nil_iff]
    intro i hi
    rw [List.mem_range'_1] at hi
    rw [if_neg]
    rw [h i (by omega)]; omega
  rw [e1, e3, List.nil_append, List.append_nil]
  clear e1 e3 hl
  generalize hm : b - a = m
  induction m generalizing a with
  | zero =>
    simp only [List.range'_zero, List.flatMap_nil]
    symm
    rw [List.eq_nil_iff_length_eq_zero, slice_length]; omega
  | succ m ih =>
    rw [List.range'_succ, List.flatMap_cons, if_pos ((h a (by omega)).2 (by omega))]
    have h2 := ih (a + 1) (by omega)
    have hcong : (List.range' (a+1) m).flatMap (fun i => if p i = true then t[i]?.toList else []) =
        slice t (a + 1) b := by
      -- the condition on the tail only needs positions beyond `a`
      have : (List.range' (a+1) m).flatMap (fun i => if p i = true then t[i]?.toList else []) =
          (List.range' (a+1) m).flatMap (fun i => if (p i && decide (a < i)) = true then t[i]?.toList else []) := by
        apply flatMap_congr'
        intro i hi
        rw [List.mem_range'_1] at hi
        have : a < i := by omega
        simp [this]
      rw [this]
      clear this h2
      have key : ∀ (q : Nat → Bool) (m a : Nat), a ≤ b → b - a = m →
          (∀ i, a ≤ i → i < b → q i = true) →
          (List.range' a m).flatMap (fun i => if q i = true then t[i]?.toList else []) = slice t a b := by
        intro q m
        induction m with
        | zero =>
          intro a ha hm hq
          simp only [List.range'_zero, List.flatMap_nil]
          symm
          rw [List.eq_nil_iff_length_eq_zero, slice_length]; omega
        | succ m ih =>
          intro a ha hm hq
          rw [List.range'_succ, List.flatMap_cons, if_pos (hq a (by omega) (by omega)),
            ih (a+1) (by omega) (by omega) (fun i h1 h2 => hq i (by omega) h2)]
          have hal : a < t.length := by omega
          rw [List.getElem?_eq_getElem hal]
          simp only [slice, Option.toList_some, List.singleton_append]
          have : a < (List.take b t).length := by rw [List.length_take]; omega
          rw [List.drop_eq_getElem_cons this]
          simp
      apply key _ m (a+1) (by omega) (by omega)
      intro i h1 h3
      have := (h i (by omega)).2 (by omega)
      simp [this]; omega
    rw [hcong]
    have hal : a < t.length := by omega
    rw [List.getElem?_eq_getElem hal]
    simp only [slice, Option.toList_some, List.singleton_append]
    have : a < (List.take b t).length := by rw [List.length_take]; omega
    rw [List.drop_eq_getElem_cons this]
    simp

theorem getItem_eq (t : List α) (k : Key) :
    getItem t k = match keyRegion t.length k with
      | none => .error .indexError
      | some (a, b) => .ok (slice t a b) := by
  simp only [getItem, parseKey_eq]
  cases h : keyRegion t.length k with
  | none => rfl
  | some r =>
    obtain ⟨a, b⟩ := r
    have hv := keyRegion_valid h
    simp only at hv ⊢
    by_cases h1 : a = b
    · rw [if_pos h1]
      subst h1
      congr 1
      symm
      rw [List.eq_nil_iff_length_eq_zero, slice_length]; omega
    · rw [if_neg h1]
      by_cases h2 : a = 0 ∧ b = t.length
      · rw [if_pos h2, h2.1, h2.2]; simp [slice]
      · rw [if_neg h2]

end Parce

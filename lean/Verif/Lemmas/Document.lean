import Verif.Lemmas.EditOps
import Verif.Model.Document
namespace Parce
variable {α : Type}

theorem slice_append_slice (t : List α) {a b m : Nat} (hab : a ≤ b) (hbm : b ≤ m) (hb : b ≤ t.length) :
    slice t a b ++ slice t b m = slice t a m := by
  simp only [slice]
  have h7 : List.take m t = List.take b t ++ List.drop b (List.take m t) := by
    conv => lhs; rw [← List.take_append_drop b (List.take m t)]
    rw [List.take_take, Nat.min_eq_left hbm]
  conv => rhs; rw [h7]
  rw [List.drop_append_of_le_length (by rw [List.length_take]; omega)]

theorem slice_append_drop (t : List α) {a b : Nat} (hab : a ≤ b) (hb : b ≤ t.length) :
    slice t a b ++ t.drop b = t.drop a := by
  have := slice_append_slice t hab hb hb
  simpa [slice] using this

theorem copy_eq (t : List α) (k s : Nat) (h : k ≤ s) :
    (if s > k then slice t k s else []) = slice t k s := by
  split
  · rfl
  · have : k = s := by omega
    subst this
    simp [slice]

/-! ### Reversed changes -/

theorem reverse_spec (t : List α) {k : Nat} {cs : List (Change α)} (h : Chain t.length k cs) :
    ∀ (head : Int) (P : List α), (P.length : Int) = head + k →
      Chain (P ++ updateFrom t k cs).length P.length (reverseFrom t head cs) ∧
      updateFrom (P ++ updateFrom t k cs) P.length (reverseFrom t head cs) = t.drop k := by
  induction h with
  | nil k h =>
    intro head P hP
    simp only [reverseFrom, updateFrom]
    refine ⟨Chain.nil _ (by simp), by simp⟩
  | cons k c cs h1 h2 h3 h5 ih =>
    intro head P hP
    have e0 : P ++ updateFrom t k (c :: cs) =
        (P ++ slice t k c.start ++ c.text) ++ updateFrom t c.stop cs := by
      simp only [updateFrom]
      rw [copy_eq t k c.start h1]
      simp
    have hsl : (slice t k c.start).length = c.start - k := by rw [slice_length]; omega
    have hlen : (P ++ slice t k c.start ++ c.text).length = P.length + (c.start - k) + c.text.length := by
      simp only [List.length_append, hsl]
    obtain ⟨i1, i2⟩ := ih (head + c.start + c.text.length - c.stop) (P ++ slice t k c.start ++ c.text)
      (by rw [hlen]; omega)
    rw [e0]
    have hh : (head + c.start).toNat = P.length + (c.start - k) := by omega
    have hl2 : (P ++ slice t k c.start ++ c.text).length = (head + c.start).toNat + c.text.length := by
      rw [hlen, hh]
    rw [hl2] at i1 i2
    simp only [reverseFrom]
    refine ⟨Chain.cons _ _ _ ?_ ?_ ?_ i1, ?_⟩
    · simp only; omega
    · simp only; omega
    · simp only
      rw [List.length_append, hl2]; omega
    · simp only [updateFrom]
      rw [i2, copy_eq _ _ _ (by omega), hh]
      have e3 : slice ((P ++ slice t k c.start ++ c.text) ++ updateFrom t c.stop cs) P.length
          (P.length + (c.start - k)) = slice t k c.start := by
        simp only [List.append_assoc]
        rw [slice, List.take_length_add_append, List.drop_left']
        · rw [← hsl, List.take_left']
          rfl
        · rfl
      rw [e3, slice_append_slice t h1 h2 (by omega), slice_append_drop t (by omega) h3]

theorem reverseChanges_spec (t : List α) {cs : List (Change α)} (h : Chain t.length 0 cs) :
    Chain (updateText t cs).length 0 (reverseChanges t cs) ∧
    updateText (updateText t cs) (reverseChanges t cs) = t := by
  have := reverse_spec t h 0 [] (by simp)
  simpa [updateText, reverseChanges] using this

/-! ### Replaying changes -/

theorem Chain.nonOverlapping {n k : Nat} {cs : List (Change α)} (h : Chain n k cs) :
    NonOverlapping cs := by
  induction h with
  | nil => simp [NonOverlapping]
  | cons k c cs h1 h2 h3 h5 ih =>
    have hge := h5.start_ge
    intro r hr r' hr' hlt
    rcases List.mem_cons.1 hr with h | h <;> rcases List.mem_cons.1 hr' with h' | h'
    · subst h h'; omega
    · subst h; exact hge r' h'
    · subst h'
      have := hge r h; omega
    · exact ih r h r' h' hlt

theorem Chain.valid {n k : Nat} {cs : List (Change α)} (h : Chain n k cs) :
    ∀ c ∈ cs, ValidReq n c := by
  induction h with
  | nil => simp
  | cons k c cs h1 h2 h3 h5 ih =>
    intro d hd
    rcases List.mem_cons.1 hd with h | h
    · subst h; exact ⟨h2, h3⟩
    · exact ih d h

theorem Chain.mono {n k k' : Nat} {cs : List (Change α)} (h : Chain n k cs) (hk : k' ≤ k) :
    Chain n k' cs := by
  cases h with
  | nil _ h => exact Chain.nil _ (by omega)
  | cons _ c cs h1 h2 h3 h5 => exact Chain.cons _ c cs (by omega) h2 h3 h5

theorem Chain.filter {n k : Nat} {cs : List (Change α)} (h : Chain n k cs) (p : Change α → Bool) :
    Chain n k (cs.filter p) := by
  induction h with
  | nil k h => exact Chain.nil k h
  | cons k c cs h1 h2 h3 h5 ih =>
    rw [List.filter_cons]
    split
    · exact Chain.cons _ _ _ h1 h2 h3 ih
    · exact ih.mono (by omega)

/-- For a chain the generator of `_update_text` is the independent `splice`. -/
theorem updateText_chain (t : List α) {cs : List (Change α)} (h : Chain t.length 0 cs) :
    updateText t cs = splice t cs := by
  rw [updateText, updateFrom_eq t h, splice_eq, List.range_eq_range']
  rfl

theorem updateText_filter [DecidableEq α] (t : List α) {cs : List (Change α)}
    (h : Chain t.length 0 cs) :
    splice t (cs.filter (fun r => Effective t r)) = updateText t cs := by
  rw [← updateText_chain t (h.filter _), updateText, updateText, ← updateFrom_filter t h]

theorem requests_replay {n k : Nat} {cs : List (Change α)} (h : Chain n k cs) :
    requests n (replay cs) = some cs := by
  induction h with
  | nil => rfl
  | cons k c cs h1 h2 h3 h5 ih =>
    unfold replay at *
    simp only [List.map_cons, requests]
    have : keyRegion n (.range (some (c.start : Int)) (some (c.stop : Int))) = some (c.start, c.stop) := by
      simp only [keyRegion, pyBound]
      rw [if_neg (by omega), if_neg (by omega)]
      congr 2 <;> omega
    rw [this, ih]
    rfl

theorem nested_replay (cs : List (Change α)) : Nested 1 (replay cs) := by
  unfold replay
  induction cs with
  | nil => rfl
  | cons c cs ih => simpa [Nested] using ih

/-! ### Documents project to mutable strings -/

theorem runOpsD_inside [DecidableEq α] (m : Mode) : ∀ (os : List (Op α)) (d : Doc α),
    0 < d.ms.ctx → Nested d.ms.ctx os →
    runOpsD m d os = ⟨{ d with ms := (runOps d.ms os).state }, (runOps d.ms os).error, []⟩
  | [], d, h0, hn => rfl
  | .set k new :: os, d, h0, hn => by
    simp only [Nested] at hn
    simp only [runOpsD, runOps, Op.stepD, Op.step, Doc.setItem, setItem]
    cases parseKey d.ms.text.length k with
    | error e => rfl
    | ok r =>
      obtain ⟨a, b⟩ := r
      simp only
      rw [if_neg (show ¬ d.ms.ctx = 0 by omega), if_neg (show ¬ d.ms.ctx = 0 by omega)]
      by_cases hc : (new ≠ [] ∨ a ≠ b) ∧ (b - a ≠ new.length ∨ slice d.ms.text a b ≠ new)
      · rw [if_pos hc, if_pos hc]
        simp only
        have ih := runOpsD_inside m os
          { d with ms := { d.ms with pending := d.ms.pending ++ [(⟨a, b, new⟩ : Change α)] } } h0 hn
        simp only at ih
        rw [ih]
        rfl
      · rw [if_neg hc, if_neg hc]
        simp only
        rw [runOpsD_inside m os _ h0 hn]
        rfl
  | .enter :: os, d, h0, hn => by
    simp only [Nested] at hn
    simp only [runOpsD, runOps, Op.stepD, Op.step]
    rw [runOpsD_inside m os { d with ms := enter d.ms } (by simp [enter]) hn]
    rfl
  | .leave :: os, d, h0, hn => by
    simp only [Nested] at hn
    simp only [runOpsD, runOps, Op.stepD, Op.step, Doc.exit, exit, Bool.false_eq_true, if_false,
      gt_iff_lt, hn.1, if_true]
    rw [runOpsD_inside m os { d with ms := { d.ms with ctx := d.ms.ctx - 1 } } (by simp; omega) hn.2]
    rfl
  | .raise :: os, d, h0, hn => rfl

theorem runOpsD_append [DecidableEq α] (m : Mode) : ∀ (os os' : List (Op α)) (d : Doc α),
    runOpsD m d (os ++ os') =
      match (runOpsD m d os).error with
      | some _ => runOpsD m d os
      | none => { runOpsD m (runOpsD m d os).doc os' with
          events := (runOpsD m d os).events ++ (runOpsD m (runOpsD m d os).doc os').events }
  | [], os', d => by simp [runOpsD]
  | o :: os, os', d => by
    simp only [List.cons_append, runOpsD]
    cases h : (o.stepD m d).error with
    | some e => simp [h]
    | none =>
      simp only
      rw [runOpsD_append m os os' (o.stepD m d).doc]
      cases h2 : (runOpsD m (o.stepD m d).doc os).error with
      | some e => simp [h2]
      | none => simp [h2]

theorem runOpsD_leave [DecidableEq α] (m : Mode) (d : Doc α) (h : d.ms.ctx = 1) :
    runOpsD m d [.leave] = Doc.applyChanges m { d with ms := { d.ms with ctx := 0 } } := by
  simp only [runOpsD, Op.stepD, Doc.exit, h]
  simp only [Bool.false_eq_true, if_false, gt_iff_lt, Nat.lt_irrefl]
  generalize Doc.applyChanges m { d with ms := { d.ms with ctx := 0 } } = r
  obtain ⟨a, b, c⟩ := r
  cases b with
  | none => simp
  | some e => simp

theorem updateText_ctx (m : Mode) (d : Doc α) (cs : List (Change α)) :
    (d.updateText m cs).1.ms = { d.ms with text := updateText d.ms.text cs } := by
  unfold Doc.updateText Doc.setModified Doc.storeUndo Doc.setAllModified
  cases m <;> cases d.enabled <;> simp

theorem applyChangesD_ctx (m : Mode) (d : Doc α) : (d.applyChanges m).doc.ms.ctx = d.ms.ctx := by
  unfold Doc.applyChanges
  split
  · rfl
  · split
    · rfl
    · simp only [updateText_ctx]

/-- A block on a clean document whose keys are valid. -/
theorem withBlockD_eq [DecidableEq α] (m : Mode) (d : Doc α) (t : List α) (hd : d.ms = ⟨t, 0, []⟩)
    (body : List (Op α)) (reqs : List (Change α)) (hn : Nested 1 body)
    (hr : requests t.length body = some reqs) :
    d.withBlock m body =
      Doc.applyChanges m { d with ms := ⟨t, 0, reqs.filter (fun r => Effective t r)⟩ } := by
  have he : runOpsD m d (.enter :: body ++ [.leave]) =
      runOpsD m { d with ms := ⟨t, 1, []⟩ } (body ++ [.leave]) := by
    simp [runOpsD, Op.stepD, enter, hd]
  unfold Doc.withBlock
  rw [he, runOpsD_append, runOpsD_inside m body _ (by simp) hn]
  have h := runOps_inside body (⟨t, 1, []⟩ : MS α) reqs (by simp) hn hr
  simp only [List.nil_append] at h
  simp only [h, List.nil_append]
  rw [runOpsD_leave m _ rfl]
  unfold unwindD
  simp only
  rw [if_neg]
  rintro ⟨h1, h2⟩
  rw [applyChangesD_ctx] at h2
  simp at h2

/-- A block on a clean document that raises before its end. -/
theorem withBlockD_error [DecidableEq α] (m : Mode) (d : Doc α) (t : List α) (hd : d.ms = ⟨t, 0, []⟩)
    (body : List (Op α)) (hn : Nested 1 body) (hr : requests t.length body = none) :
    ∃ e, d.withBlock m body = ⟨d, some e, []⟩ ∧ e ≠ .overlap := by
  have he : runOpsD m d (.enter :: body ++ [.leave]) =
      runOpsD m { d with ms := ⟨t, 1, []⟩ } (body ++ [.leave]) := by
    simp [runOpsD, Op.stepD, enter, hd]
  obtain ⟨p, c, e, h1, h2⟩ := runOps_inside_error body (⟨t, 1, []⟩ : MS α) (by simp) hn hr
  have h3 : ∀ (os : List (Op α)) (s : MS α), 0 < s.ctx → Nested s.ctx os →
      (runOps s os).error ≠ some .overlap := by
    intro os
    induction os with
    | nil => intro s _ _; simp [runOps]
    | cons o os ih =>
      intro s h0 hn
      cases o with
      | set k new =>
        simp only [Nested] at hn
        simp only [runOps, Op.step, setItem]
        cases hk : parseKey s.text.length k with
        | error e =>
          rw [parseKey_eq] at hk
          cases hk2 : keyRegion s.text.length k with
          | none => rw [hk2] at hk; simp only at hk; cases hk; simp
          | some r => rw [hk2] at hk; simp at hk
        | ok r =>
          simp only
          rw [if_neg (show ¬ s.ctx = 0 by omega)]
          by_cases hc : (new ≠ [] ∨ r.1 ≠ r.2) ∧ (r.2 - r.1 ≠ new.length ∨ slice s.text r.1 r.2 ≠ new)
          · rw [if_pos hc]; exact ih _ h0 hn
          · rw [if_neg hc]; exact ih _ h0 hn
      | enter =>
        simp only [Nested] at hn
        exact ih (enter s) (by simp [enter]) hn
      | leave =>
        simp only [Nested] at hn
        simp only [runOps, Op.step, exit, Bool.false_eq_true, if_false, gt_iff_lt, hn.1, if_true]
        exact ih _ (by simp; omega) hn.2
      | raise => simp [runOps, Op.step]
  refine ⟨e, ?_, ?_⟩
  · unfold Doc.withBlock
    rw [he, runOpsD_append, runOpsD_inside m body _ (by simp) hn]
    simp only [h2]
    simp [unwindD, h1, Doc.exit, ← hd]
  · have := h3 body (⟨t, 1, []⟩ : MS α) (by simp) hn
    rw [h2] at this
    simpa using this

/-! ### What an accepted batch does -/

/-- `d'` results from applying the sorted changes `cs` to the clean document `d`. -/
theorem applyChangesD_cases (m : Mode) (d : Doc α) (t : List α) (p : List (Change α))
    (hv : ∀ r ∈ p, ValidReq t.length r) :
    let r := Doc.applyChanges m { d with ms := ⟨t, 0, p⟩ }
    (p = [] ∧ r = ⟨{ d with ms := ⟨t, 0, []⟩ }, none, []⟩) ∨
    (¬ NonOverlapping p ∧ r.error = some .overlap) ∨
    (p ≠ [] ∧ NonOverlapping p ∧ ∃ cs, Chain t.length 0 cs ∧ updateText t cs = splice t p ∧
      r = ⟨{ (Doc.updateText m { d with ms := ⟨t, 0, p⟩ } cs).1 with ms := ⟨splice t p, 0, []⟩ }, none,
        (Doc.updateText m { d with ms := ⟨t, 0, p⟩ } cs).2 ++
          [.textChange (reportOf cs).1 (reportOf cs).2.1 (reportOf cs).2.2]⟩) := by
  intro r
  by_cases hp : p = []
  · left
    subst hp
    exact ⟨rfl, rfl⟩
  · right
    by_cases hno : NonOverlapping p
    · right
      refine ⟨hp, hno, _, chain_of_nonOverlapping p hv hno, updateText_merged t p hv hno, ?_⟩
      simp only [r, Doc.applyChanges]
      rw [if_neg (by simpa using hp), (getChanges_eq p).1 hno]
      simp only [updateText_ctx, updateText_merged t p hv hno]
    · left
      refine ⟨hno, ?_⟩
      simp only [r, Doc.applyChanges]
      rw [if_neg (by simpa using hp), (getChanges_eq p).2 hno]

/-- Outcome of a block on a clean document. -/
theorem withBlockD_cases [DecidableEq α] (m : Mode) (d : Doc α) (t : List α) (hd : d.ms = ⟨t, 0, []⟩)
    (body : List (Op α)) (hn : Nested 1 body) :
    ((d.withBlock m body).doc = d ∧ (d.withBlock m body).events = [] ∧
      (d.withBlock m body).error ≠ some .overlap) ∨
    (d.withBlock m body).error = some .overlap ∨
    (∃ cs u p, Chain t.length 0 cs ∧ updateText t cs = u ∧
      d.withBlock m body = ⟨{ (Doc.updateText m { d with ms := ⟨t, 0, p⟩ } cs).1 with ms := ⟨u, 0, []⟩ }, none,
        (Doc.updateText m { d with ms := ⟨t, 0, p⟩ } cs).2 ++
          [.textChange (reportOf cs).1 (reportOf cs).2.1 (reportOf cs).2.2]⟩) := by
  cases hr : requests t.length body with
  | none =>
    left
    obtain ⟨e, h, h2⟩ := withBlockD_error m d t hd body hn hr
    rw [h]; simpa using h2
  | some reqs =>
    rw [withBlockD_eq m d t hd body reqs hn hr]
    rcases applyChangesD_cases m d t (reqs.filter (fun r => Effective t r))
      (fun r h => requests_valid _ _ _ hr r (List.mem_filter.1 h).1) with ⟨h1, h2⟩ | ⟨h1, h2⟩ | ⟨h1, h2, cs, h3, h4, h5⟩
    · left
      rw [h2]
      refine ⟨?_, rfl, by simp⟩
      rw [← hd]
    · right; left; exact h2
    · right; right
      exact ⟨cs, _, _, h3, h4, h5⟩

/-- Outcome of replaying a chain of changes on a clean document: no error, and either all
    changes were without effect or a new entry is stored. -/
theorem replay_cases [DecidableEq α] (m : Mode) (d : Doc α) (t : List α) (hd : d.ms = ⟨t, 0, []⟩)
    (ch : List (Change α)) (hch : Chain t.length 0 ch) :
    (d.withBlock m (replay ch) = ⟨d, none, []⟩ ∧ updateText t ch = t) ∨
    (∃ cs p, Chain t.length 0 cs ∧ updateText t cs = updateText t ch ∧
      d.withBlock m (replay ch) =
        ⟨{ (Doc.updateText m { d with ms := ⟨t, 0, p⟩ } cs).1 with ms := ⟨updateText t ch, 0, []⟩ }, none,
        (Doc.updateText m { d with ms := ⟨t, 0, p⟩ } cs).2 ++
          [.textChange (reportOf cs).1 (reportOf cs).2.1 (reportOf cs).2.2]⟩) := by
  rw [withBlockD_eq m d t hd _ ch (nested_replay ch) (requests_replay hch)]
  have hf := updateText_filter t hch
  rcases applyChangesD_cases m d t (ch.filter (fun r => Effective t r))
      (fun r h => hch.valid r (List.mem_filter.1 h).1) with ⟨h1, h2⟩ | ⟨h1, h2⟩ | ⟨h1, h2, cs, h3, h4, h5⟩
  · left
    rw [h2]
    refine ⟨?_, ?_⟩
    · rw [← hd]
    · rw [← hf, h1]
      rw [← updateText_chain t (Chain.nil 0 (by omega))]
      simp [updateText, updateFrom]
  · exact absurd (hch.filter _).nonOverlapping h1
  · right
    rw [hf] at h4 h5
    exact ⟨cs, _, h3, h4, h5⟩

/-! ### The undo and redo stacks -/

/-- Replaying the entries one after the other on `t` gives the texts `us`. -/
inductive StackOK : List α → List (Entry α) → List (List α) → Prop
  | nil (t) : StackOK t [] []
  | cons (t : List α) (e : Entry α) (u : List α) (st : List (Entry α)) (us : List (List α)) :
      Chain t.length 0 e.changes → updateText t e.changes = u → StackOK u st us →
      StackOK t (e :: st) (u :: us)

/-- Entries with flag False lead to the saved text. -/
def FlagsOK (saved : List α) (st : List (Entry α)) (us : List (List α)) : Prop :=
  ∀ x ∈ st.zip us, x.1.modified = false → x.2 = saved

theorem StackOK.setAll {t : List α} {st : List (Entry α)} {us : List (List α)} (h : StackOK t st us) :
    StackOK t (st.map (fun e => { e with modified := true })) us := by
  induction h with
  | nil t => exact StackOK.nil t
  | cons t e u st us h1 h2 h3 ih => exact StackOK.cons _ _ _ _ _ h1 h2 ih

theorem FlagsOK.setAll (saved : List α) (st : List (Entry α)) (us : List (List α)) :
    FlagsOK saved (st.map (fun e => { e with modified := true })) us := by
  intro x hx
  rw [List.zip_map_left] at hx
  obtain ⟨y, hy, h⟩ := List.mem_map.1 hx
  subst h
  simp

/-- The invariant of documents reached by undoable actions. -/
structure DocInv (init tip saved : List α) (d : Doc α) : Prop where
  clean : d.ms = ⟨d.ms.text, 0, []⟩
  enabled : d.enabled = true
  stacks : ∃ past future, StackOK d.ms.text d.undo past ∧ StackOK d.ms.text d.redo future ∧
    (past.getLast?.getD d.ms.text) = init ∧ (future.getLast?.getD d.ms.text) = tip ∧
    FlagsOK saved d.undo past ∧ FlagsOK saved d.redo future
  saved : d.modified = false → d.ms.text = saved

theorem getLast?_cons_getD (a : List α) (l : List (List α)) (b : List α) :
    ((a :: l).getLast?).getD b = (l.getLast?).getD a := by
  rw [List.getLast?_cons]
  rfl

/-- Setting `modified` keeps the invariant when the text is the saved text or the flag is
    only raised. -/
theorem DocInv.setModified {init tip saved : List α} {d : Doc α} (h : DocInv init tip saved d) (m : Bool)
    (saved' : List α) (h1 : m = true → saved' = saved) (h2 : m = false → saved' = d.ms.text) :
    DocInv init tip saved' (d.setModified .normal m).1 := by
  obtain ⟨hc, he, ⟨past, future, s1, s2, l1, l2, f1, f2⟩, hs⟩ := h
  cases m with
  | true =>
    have : saved' = saved := h1 rfl
    subst this
    simp only [Doc.setModified, if_true]
    exact ⟨hc, he, ⟨past, future, s1, s2, l1, l2, f1, f2⟩, by simp⟩
  | false =>
    have : saved' = d.ms.text := h2 rfl
    subst this
    simp only [Doc.setModified, if_true, Bool.false_eq_true, if_false, Doc.setAllModified]
    exact ⟨hc, he, ⟨past, future, s1.setAll, s2.setAll, l1, l2, FlagsOK.setAll _ _ _, FlagsOK.setAll _ _ _⟩,
      fun _ => rfl⟩

theorem FlagsOK.cons {saved : List α} {e : Entry α} {u : List α} {st : List (Entry α)} {us : List (List α)}
    (h1 : e.modified = false → u = saved) (h : FlagsOK saved st us) : FlagsOK saved (e :: st) (u :: us) := by
  intro x hx
  rw [List.zip_cons_cons] at hx
  rcases List.mem_cons.1 hx with h2 | h2
  · subst h2; exact h1
  · exact h x h2

theorem FlagsOK.tail {saved : List α} {e : Entry α} {u : List α} {st : List (Entry α)} {us : List (List α)}
    (h : FlagsOK saved (e :: st) (u :: us)) : (e.modified = false → u = saved) ∧ FlagsOK saved st us := by
  refine ⟨h (e, u) (by simp), ?_⟩
  intro x hx
  exact h x (by rw [List.zip_cons_cons]; exact List.mem_cons_of_mem _ hx)

/-- An accepted edit. -/
theorem DocInv.edit {init tip saved : List α} {d : Doc α} (h : DocInv init tip saved d)
    {t : List α} (ht : d.ms.text = t) {cs : List (Change α)} (hch : Chain t.length 0 cs) (u : List α)
    (hu : updateText t cs = u) (p : List (Change α)) :
    DocInv init u saved
      { (Doc.updateText .normal { d with ms := ⟨t, 0, p⟩ } cs).1 with ms := ⟨u, 0, []⟩ } := by
  obtain ⟨hc, he, ⟨past, future, s1, s2, l1, l2, f1, f2⟩, hs⟩ := h
  subst ht
  obtain ⟨r1, r2⟩ := reverseChanges_spec d.ms.text hch
  rw [hu] at r1 r2
  simp only [Doc.updateText, he, if_true, Doc.storeUndo, Doc.setModified]
  refine ⟨rfl, rfl, ⟨d.ms.text :: past, [], ?_, StackOK.nil _, ?_, rfl, ?_, by simp [FlagsOK]⟩, by simp⟩
  · exact StackOK.cons _ _ _ _ _ r1 r2 s1
  · rw [getLast?_cons_getD]; exact l1
  · exact FlagsOK.cons hs f1

theorem DocInv.popUndo [DecidableEq α] {init tip saved : List α} {d : Doc α} (h : DocInv init tip saved d) :
    DocInv init tip saved d.doUndo.doc ∧ d.doUndo.error = none ∧
    (∀ e es, d.undo = e :: es → d.doUndo.doc.ms.text = updateText d.ms.text e.changes ∧
      d.doUndo.doc.modified = e.modified ∧ d.doUndo.doc.undo.length = es.length) := by
  obtain ⟨hc, he, ⟨past, future, s1, s2, l1, l2, f1, f2⟩, hs⟩ := h
  unfold Doc.doUndo
  rw [if_neg (by rw [hc]; simp)]
  generalize hst : d.undo = st at *
  cases s1 with
  | nil =>
    simp only
    refine ⟨⟨hc, he, ⟨[], future, by rw [hst]; exact StackOK.nil _, s2, l1, l2, by rw [hst]; exact f1, f2⟩, hs⟩,
      trivial, by simp⟩
  | cons _ e u st us c1 c2 c3 =>
    obtain ⟨fe, f1⟩ := FlagsOK.tail f1
    rw [getLast?_cons_getD] at l1
    simp only [Doc.applyEntry]
    rcases replay_cases .undo { d with undo := st } d.ms.text hc e.changes c1 with ⟨h1, h2⟩ | ⟨cs, p, h1, h2, h3⟩
    · rw [h1]
      simp only
      have hut : u = d.ms.text := by rw [← c2, h2]
      have hI : DocInv init tip (if e.modified then saved else d.ms.text)
          ({ d with undo := st }.setModified .normal e.modified).1 := by
        apply DocInv.setModified (saved := saved)
        · exact ⟨hc, he, ⟨us, future, by rw [← hut]; exact c3, s2, by rw [← hut]; exact l1, l2, f1, f2⟩, hs⟩
        · intro hm; simp [hm]
        · intro hm; simp [hm]
      have hsv : (if e.modified then saved else d.ms.text) = saved := by
        cases hm : e.modified with
        | true => simp
        | false => simp; rw [← fe hm, hut]
      rw [hsv] at hI
      refine ⟨hI, trivial, ?_⟩
      intro e' es' heq
      cases heq
      rw [h2]
      cases hm : e.modified <;> simp [Doc.setModified, Doc.setAllModified]
    · rw [h3]
      simp only
      rw [c2] at h2 h3 ⊢
      obtain ⟨r1, r2⟩ := reverseChanges_spec d.ms.text h1
      rw [h2] at r1 r2
      simp only [Doc.updateText, he, if_true, Doc.storeUndo, Doc.setModified, reduceCtorEq, if_false]
      have hI : DocInv init tip saved
          (⟨⟨u, 0, []⟩, updateCursors cs d.cursors, d.revision + 1, true, st,
            ⟨reverseChanges d.ms.text cs, d.modified⟩ :: d.redo, true⟩ : Doc α) := by
        refine ⟨rfl, rfl, ⟨us, d.ms.text :: future, c3, StackOK.cons _ _ _ _ _ r1 r2 s2, l1, ?_, f1,
          FlagsOK.cons hs f2⟩, by simp⟩
        rw [getLast?_cons_getD]; exact l2
      have hI2 := hI.setModified e.modified saved (fun _ => rfl) (fun hm => (fe hm).symm)
      refine ⟨?_, trivial, ?_⟩
      · cases hm : e.modified <;> simpa [hm, Doc.setModified, Doc.setAllModified, he] using hI2
      · intro e' es' heq
        cases heq
        cases hm : e.modified <;> simp [Doc.setAllModified, c2]

theorem DocInv.popRedo [DecidableEq α] {init tip saved : List α} {d : Doc α} (h : DocInv init tip saved d) :
    DocInv init tip saved d.doRedo.doc ∧ d.doRedo.error = none ∧
    (∀ e es, d.redo = e :: es → d.doRedo.doc.ms.text = updateText d.ms.text e.changes ∧
      d.doRedo.doc.modified = e.modified ∧ d.doRedo.doc.redo.length = es.length) := by
  obtain ⟨hc, he, ⟨past, future, s1, s2, l1, l2, f1, f2⟩, hs⟩ := h
  unfold Doc.doRedo
  rw [if_neg (by rw [hc]; simp)]
  generalize hst : d.redo = st at *
  cases s2 with
  | nil =>
    simp only
    refine ⟨⟨hc, he, ⟨past, [], s1, by rw [hst]; exact StackOK.nil _, l1, l2, f1, by rw [hst]; exact f2⟩, hs⟩,
      trivial, by simp⟩
  | cons _ e u st us c1 c2 c3 =>
    obtain ⟨fe, f2⟩ := FlagsOK.tail f2
    rw [getLast?_cons_getD] at l2
    simp only [Doc.applyEntry]
    rcases replay_cases .redo { d with redo := st } d.ms.text hc e.changes c1 with ⟨h1, h2⟩ | ⟨cs, p, h1, h2, h3⟩
    · rw [h1]
      simp only
      have hut : u = d.ms.text := by rw [← c2, h2]
      have hI : DocInv init tip (if e.modified then saved else d.ms.text)
          ({ d with redo := st }.setModified .normal e.modified).1 := by
        apply DocInv.setModified (saved := saved)
        · exact ⟨hc, he, ⟨past, us, s1, by rw [← hut]; exact c3, l1, by rw [← hut]; exact l2, f1, f2⟩, hs⟩
        · intro hm; simp [hm]
        · intro hm; simp [hm]
      have hsv : (if e.modified then saved else d.ms.text) = saved := by
        cases hm : e.modified with
        | true => simp
        | false => simp; rw [← fe hm, hut]
      rw [hsv] at hI
      refine ⟨hI, trivial, ?_⟩
      intro e' es' heq
      cases heq
      rw [h2]
      cases hm : e.modified <;> simp [Doc.setModified, Doc.setAllModified]
    · rw [h3]
      simp only
      rw [c2] at h2 h3 ⊢
      obtain ⟨r1, r2⟩ := reverseChanges_spec d.ms.text h1
      rw [h2] at r1 r2
      simp only [Doc.updateText, he, if_true, Doc.storeUndo, Doc.setModified, reduceCtorEq, if_false]
      have hI : DocInv init tip saved
          (⟨⟨u, 0, []⟩, updateCursors cs d.cursors, d.revision + 1, true,
            ⟨reverseChanges d.ms.text cs, d.modified⟩ :: d.undo, st, true⟩ : Doc α) := by
        refine ⟨rfl, rfl, ⟨d.ms.text :: past, us, StackOK.cons _ _ _ _ _ r1 r2 s1, c3, ?_, l2,
          FlagsOK.cons hs f1, f2⟩, by simp⟩
        rw [getLast?_cons_getD]; exact l1
      have hI2 := hI.setModified e.modified saved (fun _ => rfl) (fun hm => (fe hm).symm)
      refine ⟨?_, trivial, ?_⟩
      · cases hm : e.modified <;> simpa [hm, Doc.setModified, Doc.setAllModified, he] using hI2
      · intro e' es' heq
        cases heq
        cases hm : e.modified <;> simp [Doc.setAllModified, c2]

theorem setModified_ms (m : Mode) (d : Doc α) (b : Bool) :
    (d.setModified m b).1.ms = d.ms ∧ (d.setModified m b).1.enabled = d.enabled ∧
    (d.setModified m b).1.undo.map (·.changes) = d.undo.map (·.changes) ∧
    (d.setModified m b).1.redo.map (·.changes) = d.redo.map (·.changes) := by
  unfold Doc.setModified Doc.setAllModified
  cases m <;> cases b <;> simp [Function.comp_def]

/-- Applying an entry to a clean document. -/
theorem applyEntry_spec [DecidableEq α] (m : Mode) (d : Doc α) (t : List α) (hd : d.ms = ⟨t, 0, []⟩)
    (hen : d.enabled = true) (e : Entry α) (hch : Chain t.length 0 e.changes) :
    (d.applyEntry m e).doc.ms = ⟨updateText t e.changes, 0, []⟩ ∧ (d.applyEntry m e).error = none ∧
    (d.applyEntry m e).doc.enabled = true ∧
    (m = .undo →
      ((d.applyEntry m e).doc.redo.map (·.changes) = d.redo.map (·.changes) ∧ updateText t e.changes = t) ∨
      ∃ rev, (d.applyEntry m e).doc.redo.map (·.changes) = rev :: d.redo.map (·.changes) ∧
        Chain (updateText t e.changes).length 0 rev ∧ updateText (updateText t e.changes) rev = t) := by
  unfold Doc.applyEntry
  rcases replay_cases m d t hd e.changes hch with ⟨h1, h2⟩ | ⟨cs, p, h1, h2, h3⟩
  · rw [h1]
    simp only
    obtain ⟨s1, s2, s3, s4⟩ := setModified_ms .normal d e.modified
    refine ⟨by rw [s1, hd, h2], trivial, by rw [s2, hen], fun _ => Or.inl ⟨s4, h2⟩⟩
  · rw [h3]
    simp only
    generalize hd' : ({ (Doc.updateText m { d with ms := ⟨t, 0, p⟩ } cs).1 with
      ms := ⟨updateText t e.changes, 0, []⟩ } : Doc α) = d'
    obtain ⟨s1, s2, s3, s4⟩ := setModified_ms .normal d' e.modified
    obtain ⟨r1, r2⟩ := reverseChanges_spec t h1
    rw [h2] at r1 r2
    refine ⟨by rw [s1, ← hd'], trivial, ?_, ?_⟩
    · rw [s2, ← hd']
      simp only [Doc.updateText, hen, if_true]
      rw [(setModified_ms m _ true).2.1]
      cases m <;> rfl
    · intro hm
      subst hm
      refine Or.inr ⟨reverseChanges t cs, ?_, r1, r2⟩
      rw [s4, ← hd']
      simp [Doc.updateText, hen, Doc.storeUndo, Doc.setModified]

theorem setModified_events (m : Mode) (d : Doc α) (b : Bool) :
    ∀ e ∈ (d.setModified m b).2, ∃ x, e = .modificationChanged x := by
  unfold Doc.setModified
  intro e he
  split at he
  · simp only at he
    split at he
    · exact ⟨b, by simpa using he⟩
    · simp at he
  · simp at he

theorem updateText_events (m : Mode) (d : Doc α) (cs : List (Change α)) :
    ∃ ev, (∀ e ∈ ev, ∃ b, e = .modificationChanged b) ∧
      (d.updateText m cs).2 = ev ++ undoStateEvents d (d.updateText m cs).1 := by
  unfold Doc.updateText
  exact ⟨_, setModified_events m _ true, rfl⟩

theorem updateText_stacks (d : Doc α) (cs : List (Change α)) :
    (d.updateText .undo cs).1.undo = d.undo ∧ (d.updateText .redo cs).1.redo = d.redo := by
  unfold Doc.updateText Doc.setModified Doc.storeUndo
  cases he : d.enabled <;> simp

/-- Events of one call of `_apply_changes` during undo or redo. -/
theorem applyChanges_events (d : Doc α) (b : Bool) :
    (.undoAvailable b ∉ (d.applyChanges .undo).events) ∧ (.redoAvailable b ∉ (d.applyChanges .redo).events) := by
  constructor
  · unfold Doc.applyChanges
    split
    · simp
    · split
      · simp
      · rename_i cs _
        obtain ⟨ev, h1, h2⟩ := updateText_events .undo d cs
        have h3 : Ev.undoAvailable b ∉ ev := fun hx => by obtain ⟨m, h⟩ := h1 _ hx; cases h
        simp only [h2, undoStateEvents, Doc.canUndo, (updateText_stacks d cs).1]
        simp [h3]
  · unfold Doc.applyChanges
    split
    · simp
    · split
      · simp
      · rename_i cs _
        obtain ⟨ev, h1, h2⟩ := updateText_events .redo d cs
        have h3 : Ev.redoAvailable b ∉ ev := fun hx => by obtain ⟨m, h⟩ := h1 _ hx; cases h
        simp only [h2, undoStateEvents, Doc.canRedo, (updateText_stacks d cs).2]
        simp [h3]

end Parce

import Verif.Lemmas.Cursor
/-!
# Undo, redo, modified state, events and cursors: properties C07 to C12
-/
namespace Parce
variable {α : Type} [DecidableEq α]

/-- Every history satisfies the invariant. -/
theorem history_inv {init tip saved : List α} {d : Doc α} (h : History init tip saved d) :
    DocInv init tip saved d := by
  induction h with
  | new t =>
    exact ⟨rfl, rfl, ⟨[], [], StackOK.nil _, StackOK.nil _, rfl, rfl, by simp [FlagsOK, Doc.new],
      by simp [FlagsOK, Doc.new]⟩, fun _ => rfl⟩
  | @edit init tip saved d body h hn ho hc ih =>
    rcases withBlockD_cases .normal d _ ih.clean body hn with ⟨h1, h2, h3⟩ | h1 | ⟨cs, u, p, h1, h2, h3⟩
    · rw [h2] at hc
      obtain ⟨_, _, _, hc⟩ := hc
      simp at hc
    · exact absurd h1 ho
    · rw [h3]; exact ih.edit rfl h1 u h2 p
  | @noEdit init tip saved d body h hn ho hc ih =>
    rcases withBlockD_cases .normal d _ ih.clean body hn with ⟨h1, h2, h3⟩ | h1 | ⟨cs, u, p, h1, h2, h3⟩
    · rw [h1]; exact ih
    · exact absurd h1 ho
    · exfalso; apply hc; rw [h3]; exact ⟨_, _, _, List.mem_append_right _ (List.mem_singleton.2 rfl)⟩
  | undo h ih => exact ih.popUndo.1
  | redo h ih => exact ih.popRedo.1
  | save h ih => exact ih.setModified false _ (by simp) (fun _ => rfl)
  | touch h ih => exact ih.setModified true _ (fun _ => rfl) (by simp)
  | clear h ih =>
    obtain ⟨hc, he, _, hs⟩ := ih
    exact ⟨hc, he, ⟨[], [], StackOK.nil _, StackOK.nil _, rfl, rfl, by simp [FlagsOK, Doc.clearUndoRedo],
      by simp [FlagsOK, Doc.clearUndoRedo]⟩, hs⟩

/-- C07. On a clean document with any history, `undo()` after an accepted edit block that
    changed something restores precisely the text from before, and `redo()` then restores
    the text from after it. -/
theorem C07_undo_redo (d : Doc α) (t : List α) (hd : d.ms = ⟨t, 0, []⟩) (hen : d.enabled = true)
    (body : List (Op α)) (hn : Nested 1 body)
    (ho : (d.withBlock .normal body).error ≠ some .overlap)
    (hc : textChanged (d.withBlock .normal body).events) :
    let d1 := (d.withBlock .normal body).doc
    let d2 := d1.doUndo.doc
    let d3 := d2.doRedo.doc
    d2.ms = ⟨t, 0, []⟩ ∧ d3.ms = ⟨d1.ms.text, 0, []⟩ ∧ d1.doUndo.error = none ∧ d2.doRedo.error = none := by
  intro d1 d2 d3
  rcases withBlockD_cases .normal d t hd body hn with ⟨h1, h2, h3⟩ | h1 | ⟨cs, u, p, h1, h2, h3⟩
  · rw [h2] at hc
    obtain ⟨_, _, _, hc⟩ := hc
    simp at hc
  · exact absurd h1 ho
  · -- forget the older history: only the new entry matters
    obtain ⟨r1, r2⟩ := reverseChanges_spec t h1
    rw [h2] at r1 r2
    have e1 : d1 = ⟨⟨u, 0, []⟩, updateCursors cs d.cursors, d.revision + 1, true,
        ⟨reverseChanges t cs, d.modified⟩ :: d.undo, [], true⟩ := by
      show (d.withBlock .normal body).doc = _
      rw [h3]
      simp [Doc.updateText, hen, Doc.storeUndo, Doc.setModified]
    have u1 : d1.doUndo = Doc.applyEntry .undo { d1 with undo := d.undo } ⟨reverseChanges t cs, d.modified⟩ := by
      rw [e1]; simp [Doc.doUndo]
    have hd1 : ({ d1 with undo := d.undo } : Doc α).ms = ⟨u, 0, []⟩ := by rw [e1]
    obtain ⟨a1, a2, a3, a4⟩ := applyEntry_spec .undo { d1 with undo := d.undo } u hd1 (by rw [e1])
      ⟨reverseChanges t cs, d.modified⟩ r1
    rw [← u1] at a1 a2 a3 a4
    simp only [r2] at a1 a4
    have hd1t : d1.ms.text = u := by rw [e1]
    have hd1r : d1.redo = [] := by rw [e1]
    have hd2 : d2.ms = ⟨t, 0, []⟩ := a1
    refine ⟨a1, ?_⟩
    rw [hd1t]
    rcases a4 trivial with ⟨b1, b2⟩ | ⟨rev, b1, b2, b3⟩
    · have hr2 : d2.redo = [] := by simpa [hd1r] using b1
      have : d2.doRedo = ⟨d2, none, []⟩ := by simp [Doc.doRedo, hd2, hr2]
      simp only [d3, this]
      exact ⟨by rw [hd2, b2], a2, trivial⟩
    · rw [hd1r] at b1
      have b1 : d2.redo.map (·.changes) = [rev] := b1
      obtain ⟨e, he, hrev⟩ : ∃ e, d2.redo = [e] ∧ e.changes = rev := by
        cases h : d2.redo with
        | nil => rw [h] at b1; simp at b1
        | cons e es =>
          rw [h] at b1
          simp only [List.map_cons, List.cons.injEq, List.map_eq_nil_iff] at b1
          exact ⟨e, by rw [b1.2], b1.1⟩
      have hre : d2.doRedo = Doc.applyEntry .redo { d2 with redo := [] } e := by
        simp [Doc.doRedo, hd2, he]
      obtain ⟨c1, c2, _, _⟩ := applyEntry_spec .redo { d2 with redo := [] } t hd2 a3 e (by rw [hrev]; exact b2)
      rw [← hre] at c1 c2
      refine ⟨?_, a2, c2⟩
      rw [hrev, b3] at c1
      exact c1

/-- The document of the example: fresh "hello", then replace, insert and delete at once. -/
def exDoc : Doc Char := Doc.new "hello world".toList
def exEdit : List (Op Char) :=
  [.set (.range (some 6) none) [], .set (.range (some 0) (some 1)) "J".toList,
   .set (.range (some 5) (some 6)) [], .set (.range (some 1) (some 1)) "xy".toList]

example : Nested 1 exEdit ∧ (exDoc.withBlock .normal exEdit).error = none ∧
    (exDoc.withBlock .normal exEdit).doc.ms.text = "Jxyello".toList ∧
    (exDoc.withBlock .normal exEdit).doc.doUndo.doc.ms.text = "hello world".toList ∧
    (exDoc.withBlock .normal exEdit).doc.doUndo.doc.doRedo.doc.ms.text = "Jxyello".toList ∧
    Ev.textChange 0 11 7 ∈ (exDoc.withBlock .normal exEdit).events := by
  refine ⟨by simp [exEdit, Nested], ?_⟩
  decide

/-- C08. Undo and redo never raise in a history, every undo shortens the undo stack, and
    undoing until nothing can be undone ends with the initial text. -/
theorem C08_undo_all {init tip saved : List α} {d : Doc α} (h : History init tip saved d) :
    d.doUndo.error = none ∧
    (∀ n, (Doc.undoN n d).canUndo = false → (Doc.undoN n d).ms.text = init) ∧
    (Doc.undoN d.undo.length d).canUndo = false := by
  have hI := history_inv h
  have hN : ∀ n d, DocInv init tip saved d → DocInv init tip saved (Doc.undoN n d) := by
    intro n
    induction n with
    | zero => exact fun d h => h
    | succ n ih => exact fun d h => ih _ h.popUndo.1
  refine ⟨hI.popUndo.2.1, ?_, ?_⟩
  · intro n hc
    obtain ⟨_, _, ⟨past, future, s1, _, l1, _⟩, _⟩ := hN n d hI
    generalize (Doc.undoN n d) = d' at *
    cases hu : d'.undo with
    | nil => rw [hu] at s1; cases s1; exact l1
    | cons e es => simp [Doc.canUndo, hu] at hc
  · clear h hN
    generalize hl : d.undo.length = l
    induction l generalizing d with
    | zero => simp only [Doc.undoN, Doc.canUndo, List.length_eq_zero_iff.1 hl]; rfl
    | succ l ih =>
      have hp := hI.popUndo
      cases hu : d.undo with
      | nil => rw [hu] at hl; simp at hl
      | cons e es =>
        rw [hu] at hl
        simp only [Doc.undoN]
        apply ih hp.1
        have := (hp.2.2 e es hu).2.2
        simp at hl; omega

/-- C08. Redoing until nothing can be redone ends with the text after the last edit block
    that changed the text. -/
theorem C08_redo_all {init tip saved : List α} {d : Doc α} (h : History init tip saved d) :
    d.doRedo.error = none ∧
    (∀ n, (Doc.redoN n d).canRedo = false → (Doc.redoN n d).ms.text = tip) ∧
    (Doc.redoN d.redo.length d).canRedo = false := by
  have hI := history_inv h
  have hN : ∀ n d, DocInv init tip saved d → DocInv init tip saved (Doc.redoN n d) := by
    intro n
    induction n with
    | zero => exact fun d h => h
    | succ n ih => exact fun d h => ih _ h.popRedo.1
  refine ⟨hI.popRedo.2.1, ?_, ?_⟩
  · intro n hc
    obtain ⟨_, _, ⟨past, future, _, s2, _, l2, _⟩, _⟩ := hN n d hI
    generalize (Doc.redoN n d) = d' at *
    cases hu : d'.redo with
    | nil => rw [hu] at s2; cases s2; exact l2
    | cons e es => simp [Doc.canRedo, hu] at hc
  · clear h hN
    generalize hl : d.redo.length = l
    induction l generalizing d with
    | zero => simp only [Doc.redoN, Doc.canRedo, List.length_eq_zero_iff.1 hl]; rfl
    | succ l ih =>
      have hp := hI.popRedo
      cases hu : d.redo with
      | nil => rw [hu] at hl; simp at hl
      | cons e es =>
        rw [hu] at hl
        simp only [Doc.redoN]
        apply ih hp.1
        have := (hp.2.2 e es hu).2.2
        simp at hl; omega

/-- A concrete non-trivial history: edit, edit, undo. -/
def exHist : Doc Char :=
  ((exDoc.withBlock .normal exEdit).doc.withBlock .normal [.set (.index 0) "Z".toList]).doc.doUndo.doc

example : History "hello world".toList "Zxyello".toList "hello world".toList exHist := by
  have h1 := History.edit exEdit (History.new "hello world".toList) (by simp [exEdit, Nested]) (by decide)
    ⟨0, 11, 7, by decide⟩
  have h2 := History.edit [.set (.index 0) "Z".toList] h1 (by simp [Nested]) (by decide) ⟨0, 1, 1, by decide⟩
  have e : (((Doc.new "hello world".toList).withBlock .normal exEdit).doc.withBlock .normal
    [.set (.index 0) "Z".toList]).doc.ms.text = "Zxyello".toList := by decide
  rw [e] at h2
  exact h2.undo
example : exHist.canUndo = true ∧ exHist.canRedo = true ∧ exHist.ms.text = "Jxyello".toList ∧
    (Doc.undoN 1 exHist).canUndo = false ∧ (Doc.redoN 1 exHist).ms.text = "Zxyello".toList := by decide

/-- C09. In every history, `modified == False` implies that the text is the text at the last
    moment the user set `modified` to False (or the initial text). -/
theorem C09_unmodified_is_saved {init tip saved : List α} {d : Doc α} (h : History init tip saved d)
    (hm : d.modified = false) : d.ms.text = saved := (history_inv h).saved hm

/-- C09. An edit block that changes the text sets `modified`, and undoing it brings the
    previous value back. -/
theorem C09_undo_restores_flag {init tip saved : List α} {d : Doc α} (h : History init tip saved d)
    (body : List (Op α)) (hn : Nested 1 body) (ho : (d.withBlock .normal body).error ≠ some .overlap)
    (hc : textChanged (d.withBlock .normal body).events) :
    (d.withBlock .normal body).doc.modified = true ∧
    (d.withBlock .normal body).doc.doUndo.doc.modified = d.modified := by
  have hI := history_inv h
  have hI2 := history_inv (h.edit body hn ho hc)
  rcases withBlockD_cases .normal d _ hI.clean body hn with ⟨h1, h2, h3⟩ | h1 | ⟨cs, u, p, h1, h2, h3⟩
  · rw [h2] at hc
    obtain ⟨_, _, _, hc⟩ := hc
    simp at hc
  · exact absurd h1 ho
  · refine ⟨by rw [h3]; simp [Doc.updateText, Doc.setModified], ?_⟩
    have := hI2.popUndo.2.2 ⟨reverseChanges d.ms.text cs, d.modified⟩ d.undo
      (by rw [h3]; simp [Doc.updateText, hI.enabled, Doc.storeUndo, Doc.setModified])
    exact this.2.1

/-- C09. Setting `modified` emits the event exactly when the value changes. -/
theorem C09_event (d : Doc α) (m : Bool) :
    (d.setModified .normal m).1.modified = m ∧
    (d.setModified .normal m).2 = (if m = d.modified then [] else [.modificationChanged m]) := by
  constructor
  · cases m <;> simp [Doc.setModified, Doc.setAllModified]
  · by_cases h : m = d.modified
    · simp [Doc.setModified, h]
    · simp [Doc.setModified, h]

example : (exDoc.withBlock .normal exEdit).doc.modified = true ∧
    (exDoc.withBlock .normal exEdit).doc.doUndo.doc.modified = false := by decide

/-- C10. A block that changes the text discards the redo history and makes undo available;
    a block that changes nothing leaves the document as it is. -/
theorem C10_edit_discards_redo (d : Doc α) (t : List α) (hd : d.ms = ⟨t, 0, []⟩) (hen : d.enabled = true)
    (body : List (Op α)) (hn : Nested 1 body) (ho : (d.withBlock .normal body).error ≠ some .overlap) :
    (textChanged (d.withBlock .normal body).events →
      (d.withBlock .normal body).doc.canRedo = false ∧ (d.withBlock .normal body).doc.canUndo = true) ∧
    (¬ textChanged (d.withBlock .normal body).events → (d.withBlock .normal body).doc = d) := by
  rcases withBlockD_cases .normal d t hd body hn with ⟨h1, h2, h3⟩ | h1 | ⟨cs, u, p, h1, h2, h3⟩
  · refine ⟨?_, fun _ => h1⟩
    rw [h2]
    rintro ⟨_, _, _, hc⟩
    simp at hc
  · exact absurd h1 ho
  · rw [h3]
    refine ⟨fun _ => by simp [Doc.updateText, hen, Doc.storeUndo, Doc.setModified, Doc.canRedo, Doc.canUndo], ?_⟩
    intro hc
    exfalso; apply hc; exact ⟨_, _, _, List.mem_append_right _ (List.mem_singleton.2 rfl)⟩

/-- C10. For edit blocks and for `clear_undo_redo()` the availability events are exact. -/
theorem C10_events_exact_partial (d : Doc α) (t : List α) (hd : d.ms = ⟨t, 0, []⟩)
    (body : List (Op α)) (hn : Nested 1 body) (ho : (d.withBlock .normal body).error ≠ some .overlap)
    (r : DRes α) (hr : r = d.withBlock .normal body ∨ r = d.clearUndoRedo) (b : Bool) :
    (.undoAvailable b ∈ r.events ↔ r.doc.canUndo ≠ d.canUndo ∧ b = r.doc.canUndo) ∧
    (.redoAvailable b ∈ r.events ↔ r.doc.canRedo ≠ d.canRedo ∧ b = r.doc.canRedo) := by
  have key : ∀ x y : Doc α, (.undoAvailable b ∈ undoStateEvents x y ↔ y.canUndo ≠ x.canUndo ∧ b = y.canUndo) ∧
      (.redoAvailable b ∈ undoStateEvents x y ↔ y.canRedo ≠ x.canRedo ∧ b = y.canRedo) := by
    intro x y
    unfold undoStateEvents
    constructor <;> (split <;> split <;> simp_all)
  rcases hr with hr | hr
  · subst hr
    rcases withBlockD_cases .normal d t hd body hn with ⟨h1, h2, h3⟩ | h1 | ⟨cs, u, p, h1, h2, h3⟩
    · rw [h1, h2]; simp
    · exact absurd h1 ho
    · rw [h3]
      have k := key { d with ms := ⟨t, 0, p⟩ } (Doc.updateText .normal { d with ms := ⟨t, 0, p⟩ } cs).1
      have hev := updateText_events .normal { d with ms := ⟨t, 0, p⟩ } cs
      obtain ⟨ev, h4, h5⟩ := hev
      rw [h5]
      generalize (Doc.updateText .normal { d with ms := ⟨t, 0, p⟩ } cs).1 = d' at *
      have h6 : ∀ x, Ev.undoAvailable x ∉ ev := fun x hx => by obtain ⟨m, h⟩ := h4 _ hx; cases h
      have h7 : ∀ x, Ev.redoAvailable x ∉ ev := fun x hx => by obtain ⟨m, h⟩ := h4 _ hx; cases h
      simp only [Doc.canUndo, Doc.canRedo] at k
      simpa [h6, h7, Doc.canUndo, Doc.canRedo] using k
  · subst hr
    exact key d _

/-- C10 is violated: undoing the only edit makes undo unavailable, but no event says so
    (and likewise for redo). -/
theorem C10_violated :
    let d1 := (exDoc.withBlock .normal exEdit).doc
    let r := d1.doUndo
    d1.canUndo = true ∧ r.doc.canUndo = false ∧ .undoAvailable false ∉ r.events ∧
    r.doc.canRedo = true ∧ r.doc.doRedo.doc.canRedo = false ∧ .redoAvailable false ∉ r.doc.doRedo.events := by
  decide

/-- C10 is violated for every document: `undo()` never emits an `undo_available` event and
    `redo()` never a `redo_available` event, so the loss of availability is never announced. -/
theorem C10_violated_always (d : Doc α) (b : Bool) :
    .undoAvailable b ∉ d.doUndo.events ∧ .redoAvailable b ∉ d.doRedo.events := by
  have key : ∀ (ev : Ev) (m : Mode), (∀ d : Doc α, ev ∉ (d.applyChanges m).events) →
      ∀ (os : List (Op α)) (d : Doc α), ev ∉ (runOpsD m d os).events := by
    intro ev m h os
    induction os with
    | nil => intro d; simp [runOpsD]
    | cons o os ih =>
      intro d
      have h1 : ev ∉ (o.stepD m d).events := by
        cases o with
        | set k new =>
          simp only [Op.stepD, Doc.setItem]
          split
          · simp
          · split
            · split
              · exact h _
              · simp
            · simp
        | enter => simp [Op.stepD]
        | leave =>
          simp only [Op.stepD, Doc.exit, Bool.false_eq_true, if_false]
          split
          · simp
          · exact h _
        | raise => simp [Op.stepD]
      simp only [runOpsD]
      split
      · exact h1
      · simp only [List.mem_append, not_or]
        exact ⟨h1, ih _⟩
  have unw : ∀ (m : Mode) (r : DRes α), (unwindD m r).events = r.events := by
    intro m r; unfold unwindD; split <;> rfl
  have ent : ∀ (ev : Ev) (m : Mode), (∀ x, ev ≠ .modificationChanged x) →
      (∀ d : Doc α, ev ∉ (d.applyChanges m).events) → ∀ (d : Doc α) e, ev ∉ (d.applyEntry m e).events := by
    intro ev m hne h d e
    simp only [Doc.applyEntry, Doc.withBlock]
    have h2 := key ev m h (.enter :: replay e.changes ++ [.leave]) d
    split
    · rw [unw]; exact h2
    · simp only [List.mem_append, not_or, unw]
      refine ⟨h2, ?_⟩
      simp only [Doc.setModified, if_true]
      split
      · simpa using hne _
      · simp
  constructor
  · unfold Doc.doUndo
    split
    · simp
    · split
      · simp
      · exact ent _ .undo (by simp) (fun d => (applyChanges_events d b).1) _ _
  · unfold Doc.doRedo
    split
    · simp
    · split
      · simp
      · exact ent _ .redo (by simp) (fun d => (applyChanges_events d b).2) _ _

/-- C11. When a write outside a context changes the text, every cursor follows the change. -/
theorem C11_cursors_follow (d : Doc α) (t : List α) (hd : d.ms = ⟨t, 0, []⟩) (k : Key) (new : List α)
    (a b : Nat) (hk : keyRegion t.length k = some (a, b)) (he : Effective t ⟨a, b, new⟩) :
    ∃ f : Cursor → Cursor,
      ((d.setItem .normal k new).doc.cursors).Perm (d.cursors.map f) ∧
      (∀ c, Follows t ⟨a, b, new⟩ c (f c)) ∧
      (d.setItem .normal k new).doc.ms.text = splice t [⟨a, b, new⟩] := by
  have hv := keyRegion_valid hk
  refine ⟨fun c => (updOne ⟨a, b, new⟩ c).1, ?_, updOne_follows t _ hv, ?_⟩
  all_goals
    have h5 := (setItem_cond t new a b hv.1 hv.2).2 he
    have h6 := (getChanges_eq ([⟨a, b, new⟩] : List (Change α))).1 (by simp [NonOverlapping])
    have h7 : (sortedKeys (([⟨a, b, new⟩] : List (Change α)).map (·.start))).map
        (merged ([⟨a, b, new⟩] : List (Change α))) = [⟨a, b, new⟩] := by
      simp [sortedKeys, insertKey, merged, maxStop]
    rw [h7] at h6
    simp only [Doc.setItem, hd, parseKey_eq, hk, if_pos h5, if_true, Doc.applyChanges, List.nil_append,
      List.isEmpty_cons, Bool.false_eq_true, if_false, h6]
  · have : (Doc.updateText .normal { d with ms := ⟨t, 0, [⟨a, b, new⟩]⟩ } [⟨a, b, new⟩]).1.cursors =
        updateCursors [⟨a, b, new⟩] d.cursors := by
      simp only [Doc.updateText, Doc.setModified, Doc.storeUndo]
      cases d.enabled <;> simp
    rw [this, updateCursors_single]
    exact (sortCursors_perm _).map _
  · rw [updateText_ctx]
    exact updateText_chain t (Chain.cons 0 _ [] (by omega) hv.1 hv.2 (Chain.nil _ hv.2))

example : keyRegion 11 (.range (some 2) (some 4)) = some (2, 4) ∧
    Effective "hello world".toList ⟨2, 4, "LLL".toList⟩ ∧
    ({ exDoc with cursors := [⟨6, some 8⟩, ⟨3, none⟩, ⟨2, some 2⟩] }.setItem .normal
      (.range (some 2) (some 4)) "LLL".toList).doc.cursors = [⟨2, some 5⟩, ⟨2, none⟩, ⟨7, some 9⟩] := by
  decide

/-- C12 is violated (a): a cursor at 6 should be at 11 after inserting five characters at 0
    and deleting the character at 7, but is at 10: the second change is compared, in
    original coordinates, with the already moved cursor. -/
theorem C12_violated_coordinates :
    updateCursors ([⟨0, 0, "xxxxx".toList⟩, ⟨7, 8, []⟩] : List (Change Char)) [⟨6, none⟩] = [⟨10, none⟩] ∧
    (splice "abcdefghij".toList [⟨0, 0, "xxxxx".toList⟩, ⟨7, 8, []⟩]).drop 11 = "gij".toList ∧
    "abcdefghij".toList.drop 6 = "ghij".toList := by decide

/-- C12 is violated (b): because of a second, unrelated cursor before it, the end of a
    selection is not updated. -/
theorem C12_violated_skip :
    updateCursors ([⟨5, 6, "x".toList⟩, ⟨10, 10, "yyy".toList⟩] : List (Change Char)) [⟨0, some 100⟩]
      = [⟨0, some 103⟩] ∧
    updateCursors ([⟨5, 6, "x".toList⟩, ⟨10, 10, "yyy".toList⟩] : List (Change Char)) [⟨0, some 100⟩, ⟨1, some 1⟩]
      = [⟨0, some 100⟩, ⟨1, some 1⟩] := by decide

/-- Applying the changes one after the other, each time in the coordinates of the text as
    changed so far, to one position. -/
def seqPos : Int → List (Change α) → Nat → Nat
  | _, [], p => p
  | shift, ch :: chs, p =>
    seqPos (shift + ch.text.length - (ch.stop - ch.start)) chs
      (movePos (shift + ch.start).toNat (shift + ch.stop).toNat ch.text.length p)

/-- C12, what holds: positions of cursors without an end follow a batch whose changes, except
    possibly the last one, keep the length. Missing: batches where an earlier change alters
    the length (`C12_violated_coordinates`) and cursors with an end (`C12_violated_skip`). -/
theorem C12_positions_partial (n : Nat) (chs : List (Change α)) (hch : Chain n 0 chs)
    (hlen : ∀ ch ∈ chs.dropLast, ch.text.length = ch.stop - ch.start) (cs : List Cursor)
    (hnone : ∀ c ∈ cs, c.stop = none) :
    (updateCursors chs cs).Perm (cs.map (fun c => ⟨seqPos 0 chs c.pos, none⟩)) := by
  have main : ∀ (chs : List (Change α)) (k i : Nat) (cs : List Cursor), Chain n k chs →
      (∀ ch ∈ chs.dropLast, ch.text.length = ch.stop - ch.start) → SortedC cs →
      (∀ c ∈ cs, c.stop = none) → (∀ c ∈ cs.take i, c.pos ≤ k) →
      updLoop i chs cs = cs.map (fun c => ⟨seqPos 0 chs c.pos, none⟩) := by
    intro chs
    induction chs with
    | nil =>
      intro k i cs _ _ _ hn _
      simp only [updLoop, seqPos]
      symm
      rw [List.map_congr_left (g := id), List.map_id]
      intro c hc
      have := hn c hc
      obtain ⟨p, s⟩ := c
      simp only at this
      subst this
      rfl
    | cons ch chs ih =>
      intro k i cs hc hl hs hn hk
      cases hc with
      | cons _ _ _ h1 h2 h3 h5 =>
      simp only [updLoop]
      let f : Cursor → Cursor := fun c => ⟨movePos ch.start ch.stop ch.text.length c.pos, none⟩
      have hone : ∀ c ∈ cs, updOne ch c = (f c, !decide (c.pos > ch.start)) := by
        intro c hc
        simp [updOne, hn c hc, f]
      have e1 : cs.take i ++ ((cs.drop i).map (updOne ch)).map (·.1) = cs.map f := by
        conv => rhs; rw [← List.take_append_drop i cs]
        rw [List.map_append, List.map_map]
        congr 1
        · symm
          rw [List.map_congr_left (g := id), List.map_id]
          intro c hc
          have h6 := hk c hc
          have h7 := hn c (List.mem_of_mem_take hc)
          obtain ⟨p, s⟩ := c
          simp only at h6 h7
          simp [f, h7, movePos]; omega
        · apply List.map_congr_left
          intro c hc
          simp [hone c (List.mem_of_mem_drop hc)]
      rw [e1]
      have hcount : ∀ (l : List Cursor), SortedC l → (∀ c ∈ l, c ∈ cs) →
          ∀ c ∈ l.take ((l.map (updOne ch)).filter (·.2)).length, c.pos ≤ ch.start := by
        intro l
        induction l with
        | nil => simp
        | cons a l ihl =>
          intro hsl hml
          have hsl' := List.pairwise_cons.1 hsl
          rw [List.map_cons, hone a (hml a (by simp))]
          by_cases ha : a.pos > ch.start
          · -- nothing behind `a` is finished
            have : ((l.map (updOne ch)).filter (·.2)) = [] := by
              rw [List.filter_eq_nil_iff]
              intro x hx
              obtain ⟨c, hc, h9⟩ := List.mem_map.1 hx
              subst h9
              rw [hone c (hml c (by simp [hc]))]
              have := hsl'.1 c hc
              simp; omega
            simp [ha, this]
          · simp only [ha, decide_false, Bool.not_false, List.filter_cons_of_pos, List.length_cons,
              List.take_succ_cons, List.mem_cons]
            rintro c (h9 | h9)
            · subst h9; omega
            · exact ihl hsl'.2 (fun c hc => hml c (by simp [hc])) c h9
      cases chs with
      | nil => simp [updLoop, seqPos, f]
      | cons ch2 chs2 =>
        have hl0 : ch.text.length = ch.stop - ch.start := hl ch (by simp)
        rw [ih ch.stop _ _ h5 (fun x hx => hl x (by simp [hx])) ?_ ?_ ?_]
        · rw [List.map_map]
          apply List.map_congr_left
          intro c hc
          simp only [Function.comp_apply, f]
          conv => rhs; unfold seqPos
          simp only [Int.zero_add]
          have e2 : ((ch.text.length : Int) - ((ch.stop : Int) - ch.start)) = 0 := by omega
          rw [e2]
          simp
        · exact List.pairwise_map.2 (hs.imp (fun h => movePos_mono h h2))
        · intro c hc
          obtain ⟨x, _, h9⟩ := List.mem_map.1 hc
          subst h9; rfl
        · intro c hc
          rw [← List.map_take] at hc
          obtain ⟨x, hx, h9⟩ := List.mem_map.1 hc
          subst h9
          have hxle : x.pos ≤ ch.start := by
            rw [List.take_add] at hx
            rcases List.mem_append.1 hx with hx | hx
            · have := hk x hx; omega
            · exact hcount (cs.drop i) (hs.sublist (List.drop_sublist _ _))
                (fun c hc => List.mem_of_mem_drop hc) x hx
          simp only [f, movePos]
          rw [if_neg (by omega)]; omega
  unfold updateCursors
  rw [main chs 0 0 _ hch hlen (sortCursors_sorted cs)
    (fun c hc => hnone c ((sortCursors_perm cs).mem_iff.1 hc)) (by simp)]
  exact (sortCursors_perm cs).map _

example : Chain (α := Char) 20 0 [⟨2, 4, "xy".toList⟩, ⟨6, 7, "z".toList⟩, ⟨9, 12, []⟩] ∧
    updateCursors ([⟨2, 4, "xy".toList⟩, ⟨6, 7, "z".toList⟩, ⟨9, 12, []⟩] : List (Change Char))
      [⟨15, none⟩, ⟨3, none⟩, ⟨6, none⟩] = [⟨2, none⟩, ⟨6, none⟩, ⟨12, none⟩] := by
  refine ⟨?_, by decide⟩
  refine .cons _ _ _ ?_ ?_ ?_ (.cons _ _ _ ?_ ?_ ?_ (.cons _ _ _ ?_ ?_ ?_ (.nil _ ?_))) <;> decide

end Parce

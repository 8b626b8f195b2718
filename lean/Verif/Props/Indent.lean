import Verif.Lemmas.AutoIndent
/-!
# C59, C60, C66, C67, C68: indenting
-/
set_option linter.unusedSectionVars false
namespace Parce.Ind
variable {α : Type} [DecidableEq α]

/-! ## C60 -/

/-- **C60** (first part). Whatever the events, the text, the cursor and the indents are: the stack of indents
    is never emptied, so `indent` never fails. -/
theorem C60_never_empty (space : α → Bool) (sep : α) (c : Cfg α) (E : Events α) (t : List α) (pos : Nat) (stop : Option Nat) :
    (∃ t', indentText space sep c E t pos stop = some t') ∧
    ∀ inside i prev st, st ≠ [] → ∃ st' r, lineStep c inside i prev st = some (st', r) ∧ st' ≠ [] := by
  constructor
  · obtain ⟨cs, h⟩ := indentLoop_some (space := space) c E t pos stop (blocks t sep) 0 [] [[]] (by simp)
    exact ⟨edited t cs, by unfold indentText indentEdits; rw [h]; rfl⟩
  · exact fun inside i prev st h => lineStep_some c inside i prev st h

/-- Ten dedents at the start and five at the end of a line do not remove the first level. -/
example : lineStep (α := Nat) ⟨[1, 1], true⟩ true ⟨[], 10, 5, some [1], none, false, false, false⟩ [none] [[]] = some ([[]], some []) := by decide

/-- **C60**. `increase_indent` puts the indent string before every line of the cursor, but not in lines whose
    indent may not be changed. -/
theorem C60_increase (space : α → Bool) (sep : α) (c : Cfg α) (E : Events α) (t : List α) (pos : Nat) (stop : Option Nat)
    (hs : sep ∉ c.indentString) :
    linesOf sep (increaseIndent space sep c E t pos stop) =
      changeLines t sep pos stop (fun i l => if Ev.noIndent ∈ E t i [] then l else c.indentString ++ l) :=
  blockEdits_lines t sep pos stop _ _ (fun n b b' h1 h2 => by unfold increaseBlock; rw [h1, h2])
    (fun n b hb hb' => increase_line c E t n b hs hb hb')

/-- **C60**. `decrease_indent` removes the indent string from every line of the cursor, or the indent if that does
    not start with the indent string, but not in lines whose indent may not be changed. -/
theorem C60_decrease (space : α → Bool) (sep : α) (c : Cfg α) (E : Events α) (t : List α) (pos : Nat) (stop : Option Nat)
    (hE : ∀ i s, Ev.currentIndent s ∉ E t i []) :
    linesOf sep (decreaseIndent space sep c E t pos stop) =
      changeLines t sep pos stop (fun i l => if Ev.noIndent ∈ E t i [] then l else lessIndent space c.indentString l) :=
  blockEdits_lines t sep pos stop _ _ (fun n b b' h1 h2 => by unfold decreaseBlock; rw [h1, h2])
    (fun n b hb hb' => decrease_line c E t n b (hE n) hb hb')

/-- The lines `"  a"`, `"b"`, `"   c"` with the cursor in the second and third. -/
example : changeLines [1, 1, 5, 0, 6, 0, 1, 1, 1, 7] 0 4 (some 7) (fun _ l => lessIndent (· == 1) [1, 1] l) =
    [[1, 1, 5], [6], [1, 7]] := by decide +kernel

/-- **C60** (second part, partial: the lines of the cursor whose indent may be changed have more than white
    space). Decreasing the indent after increasing it gives the text back, if the cursor then has the same lines and
    the indenters report the same. -/
theorem C60_inverse_partial (space : α → Bool) (sep : α) (c : Cfg α) (E : Events α) (t : List α) (pos pos' : Nat) (stop stop' : Option Nat)
    (hs : White space sep c.indentString) (hE : ∀ i s, Ev.currentIndent s ∉ E t i [])
    (hf : ∀ i l, (linesOf sep t)[i]? = some l → touched t sep pos stop i = true → Ev.noIndent ∉ E t i [] → Filled space l)
    (hE' : ∀ i, E (increaseIndent space sep c E t pos stop) i [] = E t i [])
    (ht : ∀ i < (linesOf sep t).length, touched (increaseIndent space sep c E t pos stop) sep pos' stop' i = touched t sep pos stop i) :
    decreaseIndent space sep c E (increaseIndent space sep c E t pos stop) pos' stop' = t := by
  apply lines_inj (sep := sep)
  rw [C60_decrease space sep c E _ pos' stop' (by intro i s; rw [hE']; exact hE i s),
    changeLines_twice (C60_increase space sep c E t pos stop (fun hm => (hs _ hm).2 rfl)) ht]
  conv => rhs; rw [← changeLines_id t sep pos stop]
  apply changeLines_congr
  intro i l hl hti
  simp only [hE']
  split
  · rfl
  · rename_i hn
    exact lessIndent_more (hf i l hl hti hn) hs

/-- The whole text is such a cursor, before and after. -/
example : let c : Cfg Nat := ⟨[1, 1], true⟩
    let E : Events Nat := fun _ _ _ => []
    increaseIndent (· == 1) 0 c E [1, 5, 0, 6] 0 none = [1, 1, 1, 5, 0, 1, 1, 6] ∧
    decreaseIndent (· == 1) 0 c E [1, 1, 1, 5, 0, 1, 1, 6] 0 none = [1, 5, 0, 6] ∧
    ∀ i < 2, touched [1, 1, 1, 5, 0, 1, 1, 6] 0 0 none i = touched [1, 5, 0, 6] 0 0 none i := by decide +kernel

/-- The statement of **C60** fails for a line without text: the indent of such a line is taken to be empty, so
    `decrease_indent` does not remove what `increase_indent` put there. -/
theorem C60_violated : ∃ (c : Cfg Nat) (E : Events Nat) (t : List Nat),
    White (· == 1) 0 c.indentString ∧ (∀ t t' i st, E t i st = E t' i st) ∧
    (∀ i < (linesOf 0 t).length, touched (increaseIndent (· == 1) 0 c E t 0 none) 0 0 none i = touched t 0 0 none i) ∧
    decreaseIndent (· == 1) 0 c E (increaseIndent (· == 1) 0 c E t 0 none) 0 none ≠ t := by
  refine ⟨⟨[1, 1], true⟩, fun _ _ _ => [], [5, 0, 0, 6], ?_, ?_, ?_, ?_⟩
  · intro a ha
    have : a = 1 := by simpa using ha
    subst this
    decide
  · intros; rfl
  · decide +kernel
  · decide +kernel

/-! ## C59 -/

/-- **C59** (partial: the lines whose indent may be changed have more than white space, and the indenters use only
    white space and do not report `CURRENT_INDENT`). Indenting the whole document again, when the indenters report the
    same, has no edits. -/
theorem C59_partial (space : α → Bool) (sep : α) (c : Cfg α) (E : Events α) (t : List α) (hE : PlainIndenter space sep c E t)
    (hf : ∀ i l, (linesOf sep t)[i]? = some l → ∀ st, Movable c (E t i st) → Filled space l) :
    ∃ t', indentText space sep c E t 0 none = some t' ∧
      ((∀ i st, E t' i st = E t i st) → indentEdits space sep c E t' 0 none = some [] ∧ indentText space sep c E t' 0 none = some t') := by
  obtain ⟨_, hline, hsep, _⟩ := C13_blocks_partition t sep
  obtain ⟨xs, h1, h2, h3, _, h4⟩ := indentLoop_edits c E t 0 none hE (blocks t sep) 0 [] [[]] (by simp) (by simp) (by simp [White]) hsep
  have hmem : ∀ x ∈ xs, x.1 ∈ blocks t sep := fun x hx => h1 ▸ List.mem_map_of_mem hx
  have hlines := edited_lines t xs h1 (fun x hx => (h3 x hx).ok (hline _ (hmem x hx))) (fun x hx => ((h3 x hx).new (hsep _ (hmem x hx))).1)
  refine ⟨edited t (xs.filterMap (·.2)), by unfold indentText indentEdits; rw [h2]; rfl, fun hE' => ?_⟩
  have hagain : indentEdits space sep c E (edited t (xs.filterMap (·.2))) 0 none = some [] := by
    unfold indentEdits
    refine h4 rfl rfl ?_ _ _ hE' ?_
    · intro k b hk st hm
      refine hf k _ ?_ st (by simpa using hm)
      rw [← blocks_texts, List.getElem?_map, hk]
      rfl
    · rw [blocks_texts, hlines]
  refine ⟨hagain, ?_⟩
  unfold indentText
  rw [hagain]
  apply congrArg some
  apply lines_inj (sep := sep)
  have := edited_lines (edited t (xs.filterMap (·.2))) ((blocks (edited t (xs.filterMap (·.2))) sep).map (fun b => (b, none)))
    (by rw [List.map_map]; exact List.map_id _) (fun x hx => by
      obtain ⟨b, _, rfl⟩ := List.mem_map.1 hx
      intro c hc; cases hc) (fun x hx => by
      obtain ⟨b, hb, rfl⟩ := List.mem_map.1 hx
      exact (C13_blocks_partition _ sep).2.2.1 b hb)
  rw [List.filterMap_map] at this
  have e : ((blocks (edited t (xs.filterMap (·.2))) sep).filterMap ((fun x : Blk × Option (Change α) => x.2) ∘ fun b => (b, none))) = [] := by
    simp [Function.comp_def]
  rw [e] at this
  rw [this, List.map_map]
  exact blocks_texts _ sep

/-- `"h {"`, `"x;"`, `"   }"`: the first line asks for an indent, the last starts with a dedent. -/
example : let E : Events Nat := fun _ i _ => if i = 0 then [.indent] else if i = 2 then [.dedent] else []
    indentText (· == 1) 0 ⟨[1, 1], true⟩ E [5, 0, 6, 0, 1, 1, 1, 7] 0 none = some [5, 0, 1, 1, 6, 0, 7] ∧
    indentEdits (· == 1) 0 ⟨[1, 1], true⟩ E [5, 0, 1, 1, 6, 0, 7] 0 none = some [] := by decide +kernel

/-- The statement of **C59** fails for a line without text in an indented part: each time it gets more white space. -/
theorem C59_violated : ∃ (c : Cfg Nat) (E : Events Nat) (t t' : List Nat),
    PlainIndenter (· == 1) 0 c E t ∧ (∀ t t' i st, E t i st = E t' i st) ∧
    indentText (· == 1) 0 c E t 0 none = some t' ∧ indentText (· == 1) 0 c E t' 0 none ≠ some t' := by
  refine ⟨⟨[1, 1], true⟩, fun _ i _ => if i = 0 then [.indent] else [], [5, 0, 0, 6], [5, 0, 1, 1, 0, 1, 1, 6], ⟨?_, ?_⟩, ?_, ?_, ?_⟩
  · intro a ha
    have : a = 1 := by simpa using ha
    subst this
    decide
  · intro n st e he
    simp only at he
    split at he
    · have : e = .indent := by simpa using he
      subst this
      trivial
    · cases he
  · intros; rfl
  · decide +kernel
  · decide +kernel

/-! ## C66 -/

/-- **C66**. `strip_trailing_blanks` removes the white space from the end of every line of the cursor, but not in
    lines that may not be stripped; and nothing else. -/
theorem C66_strip (space : α → Bool) (sep : α) (E : Events α) (t : List α) (pos : Nat) (stop : Option Nat) :
    linesOf sep (stripTrailing space sep E t pos stop) =
      changeLines t sep pos stop (fun i l => if Ev.noStrip ∈ E t i [] then l else stripEnd space l) :=
  blockEdits_lines t sep pos stop _ _ (fun n b b' h1 h2 => by unfold stripBlock; rw [h1, h2])
    (fun n b hb hb' => strip_line E t n b hb hb')

/-- **C66**. What `stripEnd` does: the line is the stripped line and white space, and the stripped line does not end
    with white space. -/
theorem C66_stripEnd (space : α → Bool) (l : List α) :
    ∃ w, l = stripEnd space l ++ w ∧ w.all space = true ∧ ∀ a, (stripEnd space l).getLast? = some a → space a = false := by
  refine ⟨(l.reverse.takeWhile space).reverse, ?_, ?_, ?_⟩
  · rw [stripEnd_eq, ← List.reverse_append, takeWhile_append_dropWhile', List.reverse_reverse]
  · rw [List.all_reverse]
    exact List.all_eq_true.2 (fun a ha => List.mem_takeWhile_imp ha)
  · intro a ha
    rw [stripEnd_eq, List.getLast?_reverse] at ha
    have := List.head?_dropWhile_not space l.reverse
    rw [ha] at this
    simpa using this

/-- **C66**. Stripping again changes nothing, if the cursor has the same lines and the indenters report the same. -/
theorem C66_again (space : α → Bool) (sep : α) (E : Events α) (t : List α) (pos pos' : Nat) (stop stop' : Option Nat)
    (hE : ∀ i, E (stripTrailing space sep E t pos stop) i [] = E t i [])
    (ht : ∀ i < (linesOf sep t).length, touched (stripTrailing space sep E t pos stop) sep pos' stop' i = touched t sep pos stop i) :
    stripTrailing space sep E (stripTrailing space sep E t pos stop) pos' stop' = stripTrailing space sep E t pos stop := by
  apply lines_inj (sep := sep)
  have h := C66_strip space sep E t pos stop
  rw [C66_strip space sep E (stripTrailing space sep E t pos stop), changeLines_twice h ht]
  rw [h]
  apply changeLines_congr
  intro i l _ _
  simp only [hE]
  split
  · rfl
  · exact stripEnd_stripEnd l

/-- The lines `"a  "`, `"  "`, `"b "`; the last may not be stripped. -/
example : stripTrailing (· == 1) 0 (fun _ i _ => if i = 2 then [.noStrip] else []) [5, 1, 1, 0, 1, 1, 0, 6, 1] 0 none = [5, 0, 0, 6, 1] ∧
    ∀ i < 3, touched [5, 0, 0, 6, 1] 0 0 none i = touched [5, 1, 1, 0, 1, 1, 0, 6, 1] 0 0 none i := by decide +kernel

/-! ## C67 -/

/-- **C67**. `indent` changes only the white space at the start of lines (if the indenters use only white space and do
    not report `CURRENT_INDENT`); lines that start before the cursor or after its end are not changed. -/
theorem C67_indent (space : α → Bool) (sep : α) (c : Cfg α) (E : Events α) (t : List α) (pos : Nat) (stop : Option Nat)
    (hE : PlainIndenter space sep c E t) :
    ∃ t', indentText space sep c E t pos stop = some t' ∧
      (linesOf sep t').map (List.dropWhile space) = (linesOf sep t).map (List.dropWhile space) ∧
      ∀ (i : Nat) (b : Blk), (blocks t sep)[i]? = some b → (b.pos < pos ∨ ∃ e, stop = some e ∧ e < b.pos) →
        (linesOf sep t')[i]? = (linesOf sep t)[i]? := by
  obtain ⟨_, hline, hsep, _⟩ := C13_blocks_partition t sep
  obtain ⟨xs, h1, h2, h3, h5, _⟩ := indentLoop_edits c E t pos stop hE (blocks t sep) 0 [] [[]] (by simp) (by simp) (by simp [White]) hsep
  have hmem : ∀ x ∈ xs, x.1 ∈ blocks t sep := fun x hx => h1 ▸ List.mem_map_of_mem hx
  have hlines := edited_lines t xs h1 (fun x hx => (h3 x hx).ok (hline _ (hmem x hx))) (fun x hx => ((h3 x hx).new (hsep _ (hmem x hx))).1)
  refine ⟨edited t (xs.filterMap (·.2)), by unfold indentText indentEdits; rw [h2]; rfl, ?_, ?_⟩
  · rw [hlines, ← blocks_texts, ← h1, List.map_map, List.map_map, List.map_map]
    apply List.map_congr_left
    intro x hx
    exact ((h3 x hx).new (hsep _ (hmem x hx))).2
  · intro i b hi hout
    rw [hlines, ← blocks_texts, List.getElem?_map, List.getElem?_map, hi]
    rw [← h1, List.getElem?_map, Option.map_eq_some_iff] at hi
    obtain ⟨x, hx, rfl⟩ := hi
    rw [hx]
    simp only [Option.map_some, Option.some.injEq]
    have hnone : x.2 = none := by
      rcases hout with h | ⟨e, h, h'⟩
      · cases hd : x.2 with
        | none => rfl
        | some d =>
          have := (h3 x (List.mem_of_getElem? hx) d hd).1
          omega
      · -- the line before ends at or after the end
        cases i with
        | zero =>
          have h0 : (blocks t sep).head?.map (·.pos) = some 0 := (C13_adjacent t sep).1
          rw [← h1, List.head?_eq_getElem?, List.getElem?_map, hx] at h0
          simp only [Option.map_some, Option.some.injEq] at h0
          omega
        | succ i =>
          have hlt := (List.getElem?_eq_some_iff.1 hx).1
          have hy : ∃ y, xs[i]? = some y := ⟨_, List.getElem?_eq_getElem (by omega)⟩
          obtain ⟨y, hy⟩ := hy
          have hadj := (C13_adjacent t sep).2.1 i y.1 x.1 (by rw [← h1, List.getElem?_map, hy]; rfl) (by rw [← h1, List.getElem?_map, hx]; rfl)
          have hpw := List.pairwise_iff_getElem.1 (h5 e h) i (i + 1) (by omega) hlt (by omega)
          rw [(List.getElem?_eq_some_iff.1 hx).2, (List.getElem?_eq_some_iff.1 hy).2] at hpw
          exact hpw (by omega)
    unfold newLine
    rw [hnone]

/-- The third line is indented like the indented second; the cursor is in the third line. -/
example : let E : Events Nat := fun _ i _ => if i = 0 then [.indent] else []
    indentText (· == 1) 0 ⟨[1, 1], true⟩ E [5, 0, 1, 6, 0, 7, 0, 8] 5 (some 6) = some [5, 0, 1, 6, 0, 1, 7, 0, 8] := by decide +kernel

/-- **C67**. `auto_indent` changes only the white space at the start of the line of the cursor. -/
theorem C67_auto (space : α → Bool) (sep : α) (c : Cfg α) (E : Events α) (t : List α) (pos : Nat) (hE : PlainIndenter space sep c E t) :
    (linesOf sep (autoIndent space sep c E t pos)).map (List.dropWhile space) = (linesOf sep t).map (List.dropWhile space) ∧
    ∀ (i : Nat) (b : Blk), (blocks t sep)[i]? = some b → b.pos ≠ (findBlock t sep pos).pos →
      (linesOf sep (autoIndent space sep c E t pos))[i]? = (linesOf sep t)[i]? := by
  obtain ⟨xs, h1, h2, h3, h4⟩ := autoEdit_edits (space := space) (sep := sep) c E t pos hE
  obtain ⟨_, hline, hsep, _⟩ := C13_blocks_partition t sep
  have hmem : ∀ x ∈ xs, x.1 ∈ blocks t sep := fun x hx => h1 ▸ List.mem_map_of_mem hx
  have hlines := edited_lines t xs h1 (fun x hx => (h3 x hx).ok (hline _ (hmem x hx))) (fun x hx => ((h3 x hx).new (hsep _ (hmem x hx))).1)
  unfold autoIndent
  rw [h2]
  constructor
  · rw [hlines, ← blocks_texts, ← h1, List.map_map, List.map_map, List.map_map]
    apply List.map_congr_left
    intro x hx
    exact ((h3 x hx).new (hsep _ (hmem x hx))).2
  · intro i b hi hout
    rw [hlines, ← blocks_texts, List.getElem?_map, List.getElem?_map, hi]
    rw [← h1, List.getElem?_map, Option.map_eq_some_iff] at hi
    obtain ⟨x, hx, rfl⟩ := hi
    rw [hx]
    simp only [Option.map_some, Option.some.injEq]
    unfold newLine
    rw [h4 x (List.mem_of_getElem? hx) hout]

/-- The line after the line with an indent event gets an indent. -/
example : autoIndent (· == 1) 0 ⟨[1, 1], true⟩ (fun _ i _ => if i = 0 then [.indent] else []) [5, 0, 6, 0, 7] 3 = [5, 0, 1, 1, 6, 0, 7] := by decide +kernel

/-! ## C68 -/

/-- **C68** (partial: the lines before are simple). If `indent` would change nothing in the lines before, then
    `auto_indent` gives a line the indent that `indent` would give it. -/
theorem C68_partial (c : Cfg α) (before : List (Info α)) (i : Info α) (prev : List (Option (List α))) (st : List (List α))
    (hne : before ≠ []) (hs : Simple before 1) (hu : Unchanged c before ([], [[]]) (prev, st))
    (hi : i.noIndent = false) (hb : i.blank = false) (hd : i.dedentsStart < levelsAfter before 1) :
    ∃ st' r new, lineStep c true i prev st = some (st', r) ∧ autoNew c before.reverse i = some new ∧
      r = (if some new = i.indent then none else some new) := by
  obtain ⟨S, h1, h2, h3⟩ := autoSearch_spec c _ before rfl prev st hs hu
  have hlt : i.dedentsStart < S.length := by omega
  have hstep : lineStep c true i prev st = some (popIndents i.dedentsEnd (S.drop i.dedentsStart), differ (want c i (S.drop i.dedentsStart)) i.indent) := by
    unfold lineStep
    simp only [h1, Option.bind_eq_bind, Option.bind_some, Option.pure_def]
    rw [popIndents_small hlt, applyIndent_inside c i _ (by rw [Ne, List.drop_eq_nil_iff]; omega)]
    rfl
  refine ⟨_, _, i.prefer.getD S[i.dedentsStart], hstep, ?_, ?_⟩
  · unfold autoNew
    simp only [hi, Bool.false_eq_true, if_false, h3 _ hlt hne]
    cases i.prefer with
    | some p => rfl
    | none => simp [List.getElem?_eq_getElem hlt]
  · unfold want
    simp only [hi, hb, or_true, and_self, if_true]
    cases hp : i.prefer with
    | some p =>
      simp only [differ, Option.getD_some]
      by_cases hq : some p = i.indent
      · simp [hq]
      · simp [hq]
    | none =>
      simp only [List.head?_drop, List.getElem?_eq_getElem hlt, differ, Option.getD_none]
      by_cases hq : some S[i.dedentsStart] = i.indent
      · simp [hq]
      · simp [hq]

/-- A line that opens a level, then an indented line that opens a level, then a line that closes one at the end. -/
example : let c : Cfg Nat := ⟨[1, 1], true⟩
    let a : Info Nat := ⟨[none], 0, 0, some [], none, false, false, false⟩
    let b : Info Nat := ⟨[none], 0, 0, some [1, 1], none, false, false, false⟩
    let d : Info Nat := ⟨[], 0, 1, some [1, 1, 1, 1], none, false, false, false⟩
    Simple [a, b, d] 1 ∧ Unchanged c [a, b, d] ([], [[]]) ([], [[1, 1], []]) ∧ levelsAfter [a, b, d] 1 = 2 := by
  refine ⟨?_, ⟨_, rfl, _, rfl, _, rfl, rfl⟩, by decide⟩
  simp [Simple]

/-- **C68.** Previous lines of which the indent may not be changed are not looked at by `auto_indent`. -/
theorem C68_no_indent (c : Cfg α) (before : List (Info α)) (i : Info α) :
    autoNew c before i = autoNew c (before.filter (fun j => !j.noIndent)) i := by
  have key : ∀ (is : List (Info α)) (d : Int), autoSearch c is d = autoSearch c (is.filter (fun j => !j.noIndent)) d := by
    intro is
    induction is with
    | nil => intro d; rfl
    | cons j is ih =>
      intro d
      cases hj : j.noIndent with
      | true => simp only [List.filter_cons, hj, Bool.not_true, Bool.false_eq_true, if_false]; rw [autoSearch, if_pos hj, ih]
      | false =>
        simp only [List.filter_cons, hj, Bool.not_false, if_true]
        rw [autoSearch, autoSearch]
        simp only [hj, Bool.false_eq_true, if_false, ih]
  unfold autoNew
  rw [key]

/-- The line in between has another indent, but it may not be changed. -/
example : let a : Info Nat := ⟨[none], 0, 0, some [], none, false, false, false⟩
    let n : Info Nat := ⟨[], 0, 0, some [1, 1, 1], none, false, false, true⟩
    autoNew ⟨[1, 1], true⟩ [n, a] ⟨[], 0, 0, some [], none, false, false, false⟩ = some [1, 1] := by decide

/-- The statement of **C68** fails for a line that opens two levels: `indent` indents the next line two levels,
    `auto_indent` only one. -/
theorem C68_violated_two : ∃ (c : Cfg Nat) (E : Events Nat) (t t' t'' : List Nat),
    indentText (· == 1) 0 c E t 2 none = some t' ∧ autoIndent (· == 1) 0 c E t 2 = t'' ∧ t' ≠ t'' :=
  ⟨⟨[1, 1], true⟩, fun _ i _ => if i = 0 then [.indent, .indent] else [], [5, 0, 6], [5, 0, 1, 1, 1, 1, 6], [5, 0, 1, 1, 6],
    by decide +kernel, by decide +kernel, by decide⟩

/-- And for a line that closes a level and opens one: `indent` gives the next line the same indent, `auto_indent` one
    level more. -/
theorem C68_violated_close_open : ∃ (c : Cfg Nat) (E : Events Nat) (t t' t'' : List Nat),
    indentText (· == 1) 0 c E t 6 none = some t' ∧ autoIndent (· == 1) 0 c E t 6 = t'' ∧ t' ≠ t'' :=
  ⟨⟨[1, 1], true⟩, fun _ i _ => if i = 0 then [.indent] else if i = 1 then [.noDedent, .dedent, .indent] else [], [5, 0, 1, 1, 6, 0, 7],
    [5, 0, 1, 1, 6, 0, 1, 1, 7], [5, 0, 1, 1, 6, 0, 1, 1, 1, 1, 7], by decide +kernel, by decide +kernel, by decide⟩

end Parce.Ind

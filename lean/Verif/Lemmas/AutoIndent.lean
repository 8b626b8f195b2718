import Verif.Lemmas.Indent
/-!
# Lemmas about auto_indent
-/
set_option linter.unusedSectionVars false
namespace Parce.Ind
variable {α : Type} [DecidableEq α] {space : α → Bool} {sep : α}

theorem unchanged_append (c : Cfg α) : (is : List (Info α)) → (i : Info α) → (s s' : List (Option (List α)) × List (List α)) →
    (Unchanged c (is ++ [i]) s s' ↔ ∃ m, Unchanged c is s m ∧ Unchanged c [i] m s')
  | [], i, s, s' => by simp [Unchanged]
  | j :: is, i, s, s' => by
    simp only [List.cons_append, Unchanged]
    constructor
    · rintro ⟨st, h1, h2⟩
      obtain ⟨m, h3, h4⟩ := (unchanged_append c is i _ _).1 h2
      exact ⟨m, ⟨st, h1, h3⟩, h4⟩
    · rintro ⟨m, ⟨st, h1, h3⟩, h4⟩
      exact ⟨st, h1, (unchanged_append c is i _ _).2 ⟨m, h3, h4⟩⟩

theorem simple_append : (is : List (Info α)) → (i : Info α) → (n : Nat) → (Simple (is ++ [i]) n ↔ Simple is n ∧ Simple [i] (levelsAfter is n))
  | [], i, n => by simp [Simple, levelsAfter]
  | j :: is, i, n => by
    simp only [List.cons_append, Simple, levelsAfter, simple_append is i]
    simp [Simple, and_assoc]

theorem levelsAfter_append : (is : List (Info α)) → (i : Info α) → (n : Nat) →
    levelsAfter (is ++ [i]) n = levelsAfter is n - i.dedentsStart - i.dedentsEnd + i.indents.length
  | [], i, n => rfl
  | j :: is, i, n => by simp only [List.cons_append, levelsAfter, levelsAfter_append is i]

theorem popIndents_small {n : Nat} {st : List (List α)} (h : n < st.length) : popIndents n st = st.drop n := by
  unfold popIndents
  congr 1
  omega

/-- What a simple line that is not changed does to the stack. -/
theorem lineStep_simple {c : Cfg α} {i : Info α} {prev : List (Option (List α))} {st S st' : List (List α)}
    (hS : pushIndents c prev st = some S) (hi : Simple [i] S.length) (h : lineStep c true i prev st = some (st', none)) :
    st' = S.drop (i.dedentsStart + i.dedentsEnd) ∧ i.indent = S[i.dedentsStart]? := by
  obtain ⟨h1, h2, h3, h4, h5, h6, h7, _⟩ := hi
  unfold lineStep at h
  simp only [hS, Option.bind_eq_bind, Option.bind_some, Option.pure_def] at h
  have hlt : i.dedentsStart < S.length := by omega
  rw [popIndents_small hlt] at h
  have hne : S.drop i.dedentsStart ≠ [] := by rw [Ne, List.drop_eq_nil_iff]; omega
  rw [applyIndent_inside c i _ hne] at h
  simp only [Option.bind_some, Option.some.injEq, Prod.mk.injEq] at h
  obtain ⟨e1, e2⟩ := h
  rw [popIndents_small (by rw [List.length_drop]; omega), List.drop_drop] at e1
  refine ⟨e1.symm, ?_⟩
  unfold want at e2
  simp only [h1, h2, h3, or_true, and_self, if_true] at e2
  have hh : (S.drop i.dedentsStart).head? = S[i.dedentsStart]? := by rw [List.head?_drop]
  rw [hh] at e2
  have hs := List.getElem?_eq_getElem hlt
  rw [hs] at e2 ⊢
  simp only [differ] at e2
  by_cases hq : some S[i.dedentsStart] = i.indent
  · exact hq.symm
  · simp [hq] at e2

/-- The string that an indent event adds. -/
def addOf (c : Cfg α) : Option (List α) → List α
  | some s => if s = [] then c.indentString else s
  | none => c.indentString

theorem autoSearch_spec (c : Cfg α) : (k : Nat) → (is : List (Info α)) → is.length = k → (prev : List (Option (List α))) → (st : List (List α)) →
    Simple is 1 → Unchanged c is ([], [[]]) (prev, st) →
    ∃ S, pushIndents c prev st = some S ∧ S.length = levelsAfter is 1 ∧
      ∀ d < S.length, is ≠ [] → autoSearch c is.reverse (d : Int) = S[d]?
  | 0, is, hk, prev, st, hs, hu => by
    have : is = [] := List.length_eq_zero_iff.1 hk
    subst this
    simp only [Unchanged, Prod.mk.injEq] at hu
    obtain ⟨rfl, rfl⟩ := hu
    exact ⟨[[]], rfl, rfl, fun _ _ h => absurd rfl h⟩
  | k + 1, is, hk, prev, st, hs, hu => by
    rcases List.eq_nil_or_concat is with rfl | ⟨js, i, rfl⟩
    · simp at hk
    rw [List.concat_eq_append] at *
    obtain ⟨hs1, hs2⟩ := (simple_append js i 1).1 hs
    obtain ⟨⟨p0, st0⟩, hu1, hu2⟩ := (unchanged_append c js i _ _).1 hu
    obtain ⟨S0, g1, g2, g3⟩ := autoSearch_spec c k js (by simpa using hk) p0 st0 hs1 hu1
    simp only [Unchanged] at hu2
    obtain ⟨st1, hstep, e⟩ := hu2
    injection e with e1 e2
    subst e1 e2
    rw [← g2] at hs2
    obtain ⟨f1, f2⟩ := lineStep_simple g1 hs2 hstep
    obtain ⟨q1, q2, q3, q4, q5, q6, q7, _⟩ := hs2
    have hlt : i.dedentsStart < S0.length := by omega
    have hgt : S0[i.dedentsStart]? = some (i.indent.getD []) := by
      rw [← f2]
      cases hx : i.indent with
      | none => exact absurd hx q4
      | some x => rfl
    rw [levelsAfter_append, ← g2, List.reverse_append]
    simp only [List.reverse_cons, List.reverse_nil, List.nil_append, List.singleton_append]
    -- looking further back
    have back : ∀ d : Nat, d + i.dedentsEnd + i.dedentsStart < S0.length →
        (if (d : Int) + i.dedentsEnd = 0 then some (i.indent.getD []) else autoSearch c js.reverse ((d : Int) + i.dedentsEnd + i.dedentsStart)) =
          S0[d + i.dedentsEnd + i.dedentsStart]? := by
      intro d hd
      split
      · have h1 : d = 0 := by omega
        have h2 : i.dedentsEnd = 0 := by omega
        rw [h1, h2]
        simp only [Nat.zero_add]
        exact hgt.symm
      · have hj : js ≠ [] := by
          rintro rfl
          simp only [levelsAfter] at g2
          omega
        have := g3 (d + i.dedentsEnd + i.dedentsStart) hd hj
        rw [← this]
        norm_cast
    match hin : i.indents, q5, q6 with
    | [], _, _ =>
      refine ⟨st1, rfl, by rw [f1, List.length_drop]; simp; omega, ?_⟩
      intro d hd _
      unfold autoSearch
      simp only [q1, Bool.false_eq_true, if_false, hin, List.length_nil]
      rw [f1, List.length_drop] at hd
      rw [if_neg (by omega), f1, List.getElem?_drop]
      have := back d (by omega)
      have hcast : ((d : Nat) : Int) - ((0 : Nat) : Int) = d := by omega
      rw [hcast, this]
      congr 1
      omega
    | [x], _, q6 =>
      have hde : i.dedentsEnd = 0 := by
        rcases q6 with h | h
        · cases h
        · exact h
      have f1' : st1 = S0[i.dedentsStart] :: S0.drop (i.dedentsStart + 1) := by
        rw [f1, hde, Nat.add_zero]
        exact List.drop_eq_getElem_cons hlt
      have htop : S0[i.dedentsStart] = i.indent.getD [] := by
        have := List.getElem?_eq_getElem hlt
        rw [hgt] at this
        injection this with this
        exact this.symm
      refine ⟨(i.indent.getD [] ++ addOf c x) :: st1, ?_, by rw [f1, List.length_cons, List.length_drop]; simp; omega, ?_⟩
      · rw [f1', htop]
        cases x <;> rfl
      · intro d hd _
        unfold autoSearch
        simp only [q1, Bool.false_eq_true, if_false, hin, List.length_singleton]
        cases d with
        | zero =>
          rw [if_pos (by omega)]
          cases x <;> rfl
        | succ d =>
          rw [if_neg (by omega), List.getElem?_cons_succ, f1, List.getElem?_drop]
          rw [List.length_cons, f1, List.length_drop] at hd
          have := back d (by omega)
          have hcast : ((d + 1 : Nat) : Int) - ((1 : Nat) : Int) = d := by omega
          rw [hcast, this]
          congr 1
          omega
    | _ :: _ :: _, q5, _ => simp at q5

theorem indentInfo_white {evs : List (Ev α)} (h : ∀ e ∈ evs, e.Plain space sep) {l : List α} (hl : sep ∉ l) :
    WhiteInfo space sep (indentInfo space evs l) ∧ ∀ s, (indentInfo space evs l).indent = some s → White space sep s := by
  rw [indentInfo_eq h]
  refine ⟨(infoLoop_white _ true Info.init h rfl whiteInfo_init).2, ?_⟩
  intro s hs
  simp only at hs
  split at hs
  · cases hs
  · injection hs with hs
    exact hs ▸ white_ownIndent hl

theorem White.append {s s' : List α} (h : White space sep s) (h' : White space sep s') : White space sep (s ++ s') := by
  intro a ha
  rcases List.mem_append.1 ha with ha | ha
  · exact h a ha
  · exact h' a ha

theorem white_getD {o : Option (List α)} (h : ∀ s, o = some s → White space sep s) : White space sep (o.getD []) := by
  cases o with
  | none => intro a ha; cases ha
  | some s => exact h s rfl

theorem autoSearch_white {c : Cfg α} (hc : White space sep c.indentString) : (is : List (Info α)) → (d : Int) →
    (∀ i ∈ is, WhiteInfo space sep i ∧ ∀ s, i.indent = some s → White space sep s) → ∀ s, autoSearch c is d = some s → White space sep s
  | [], d, _, s, h => by cases h
  | i :: is, d, hi, s, h => by
    obtain ⟨h1, h2⟩ := hi i (by simp)
    have ih := fun d => autoSearch_white hc is d (fun i h => hi i (by simp [h])) s
    unfold autoSearch at h
    split at h
    · exact ih _ h
    · split at h
      · simp only [Option.some.injEq] at h
        subst h
        refine (white_getD h2).append ?_
        split
        · rename_i x hx
          split
          · exact hc
          · refine h1.1 x ?_
            rw [Option.join_eq_some_iff] at hx
            exact List.mem_of_getElem? hx
        · exact hc
      · simp only at h
        split at h
        · simp only [Option.some.injEq] at h
          exact h ▸ white_getD h2
        · exact ih _ h

theorem autoNew_white {c : Cfg α} (hc : White space sep c.indentString) {is : List (Info α)} {i : Info α}
    (his : ∀ i ∈ is, WhiteInfo space sep i ∧ ∀ s, i.indent = some s → White space sep s)
    (hi : WhiteInfo space sep i ∧ ∀ s, i.indent = some s → White space sep s) {s : List α} (h : autoNew c is i = some s) :
    White space sep s ∧ i.noIndent = false := by
  unfold autoNew at h
  split at h
  · cases h
  · rename_i hn
    refine ⟨?_, by simpa using hn⟩
    split at h
    · rename_i p hp
      injection h with h
      exact h ▸ hi.1.2 p hp
    · injection h with h
      subst h
      cases hx : autoSearch c is i.dedentsStart with
      | none => exact white_getD hi.2
      | some x => exact autoSearch_white hc is _ his x hx

/-- The edit of `auto_indent`, as an edit of one of the lines. -/
theorem autoEdit_edits (c : Cfg α) (E : Events α) (t : List α) (pos : Nat) (hE : PlainIndenter space sep c E t) :
    ∃ xs : List (Blk × Option (Change α)), xs.map (·.1) = blocks t sep ∧ autoEdit space sep c E t pos = xs.filterMap (·.2) ∧
      (∀ x ∈ xs, IndentEdit space sep t 0 x) ∧ ∀ x ∈ xs, x.1.pos ≠ (findBlock t sep pos).pos → x.2 = none := by
  obtain ⟨_, hline, hsep, _⟩ := C13_blocks_partition t sep
  obtain ⟨f1, _, _⟩ := C14_find_block t sep pos
  have hfsep : sep ∉ slice t (findBlock t sep pos).pos (findBlock t sep pos).stop := f1.not_mem
  obtain ⟨b, hb, e1, e2⟩ := ((C13_blocks_range t sep 0 none).1 (findBlock t sep pos).pos (findBlock t sep pos).stop).2
    ⟨f1, by rw [(first_good t sep).2]; exact ⟨Nat.zero_le _, Or.inr (by simp)⟩⟩
  have hsorted := (C13_blocks_range t sep 0 none).2
  -- the edit
  have key : autoEdit space sep c E t pos = [] ∨ ∃ d, autoEdit space sep c E t pos = [d] ∧
      d.start = (findBlock t sep pos).pos ∧ d.stop = (findBlock t sep pos).pos + (ownIndent space (slice t (findBlock t sep pos).pos (findBlock t sep pos).stop)).length ∧
      White space sep d.text := by
    unfold autoEdit
    simp only
    split
    · rename_i new hnew
      obtain ⟨hw, hni⟩ := autoNew_white hE.1 (by
        intro i hi
        rw [List.mem_reverse, List.mem_mapIdx] at hi
        obtain ⟨k, hk, rfl⟩ := hi
        exact indentInfo_white (hE.2 k []) (hsep _ (List.mem_of_mem_take (List.getElem_mem hk)))) (indentInfo_white (hE.2 _ []) hfsep) hnew
      split
      · refine Or.inr ⟨_, rfl, rfl, ?_, hw⟩
        simp only
        rw [indentInfo_eq (hE.2 _ [])] at hni ⊢
        simp only at hni ⊢
        rw [hni]
        rfl
      · exact Or.inl rfl
    · exact Or.inl rfl
  rcases key with h | ⟨d, h, h1, h2, h3⟩
  · refine ⟨(blocks t sep).map (fun b => (b, none)), by rw [List.map_map]; exact List.map_id _, ?_, ?_, ?_⟩
    · rw [h, List.filterMap_map]; simp [Function.comp_def]
    · intro x hx d hd
      obtain ⟨b, _, rfl⟩ := List.mem_map.1 hx
      cases hd
    · intro x hx _
      obtain ⟨b, _, rfl⟩ := List.mem_map.1 hx
      rfl
  · refine ⟨(blocks t sep).map (fun b' => (b', if b'.pos = b.pos then some d else none)), by rw [List.map_map]; exact List.map_id _, ?_, ?_, ?_⟩
    · rw [h, List.filterMap_map]
      obtain ⟨l1, l2, hl⟩ := List.append_of_mem hb
      rw [hl]
      rw [hl, List.pairwise_append, List.pairwise_cons] at hsorted
      obtain ⟨_, ⟨p1, _⟩, p2⟩ := hsorted
      rw [List.filterMap_append, List.filterMap_cons]
      simp only [Function.comp_def, if_true]
      rw [List.filterMap_eq_nil_iff.2, List.filterMap_eq_nil_iff.2]
      · rfl
      · intro x hx
        have := p1 x hx
        rw [if_neg (by omega)]
      · intro x hx
        have := p2 x hx b (by simp)
        rw [if_neg (by omega)]
    · intro x hx d' hd'
      obtain ⟨b', hb', rfl⟩ := List.mem_map.1 hx
      simp only at hd' ⊢
      split at hd'
      · rename_i hp
        injection hd' with hd'
        subst hd'
        have hl' := hline b' hb'
        obtain ⟨u1, u2⟩ := hl'.unique f1 (p := b'.pos) (Nat.le_refl _) hl'.le (by omega) (by have := f1.le; omega)
        rw [u1, u2]
        exact ⟨Nat.zero_le _, h1, h2, h3⟩
      · cases hd'
    · intro x hx hp
      obtain ⟨b', hb', rfl⟩ := List.mem_map.1 hx
      simp only at hp ⊢
      rw [if_neg (by omega)]

end Parce.Ind

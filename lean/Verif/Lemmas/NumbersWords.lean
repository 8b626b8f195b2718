import Verif.Model.Numbers
import Verif.Lemmas.ReBest
import Verif.Lemmas.ReWay
import Verif.Spec.Longest
/-!
# The expressions for number words
-/
namespace Parce.Num
variable {u : Uni} {t : List Char}

/-- The text from a position, as the characters of the patterns see it. -/
def folded (u : Uni) (t : List Char) (p : Nat) : List Char := (t.drop p).map u.fold

theorem folded_none {p : Nat} (h : t[p]? = none) : folded u t p = [] := by
  have := List.getElem?_eq_none_iff.1 h
  simp [folded, List.drop_eq_nil_of_le this]

theorem folded_some {p : Nat} {x : Char} (h : t[p]? = some x) : folded u t p = u.fold x :: folded u t (p + 1) := by
  obtain ⟨h1, h2⟩ := List.getElem?_eq_some_iff.1 h
  unfold folded
  rw [List.drop_eq_getElem_cons h1, h2]
  rfl

theorem chr_run (c : Char) (p : Nat) (k : Caps) : (chr u c).run t p k = if [c].isPrefixOf (folded u t p) then [(p + 1, k)] else [] := by
  simp only [chr, Pat.run]
  cases h : t[p]? with
  | none => simp [folded_none h]
  | some x =>
    rw [folded_some h]
    by_cases hx : u.fold x = c
    · subst hx; simp [List.isPrefixOf]
    · have : (c == u.fold x) = false := by simp only [beq_eq_false_iff_ne, ne_eq]; exact fun h => hx h.symm
      simp [hx, List.isPrefixOf, this]

theorem lit_run (w : Word) : ∀ (p : Nat) (k : Caps), (lit u w).run t p k = if w.isPrefixOf (folded u t p) then [(p + w.length, k)] else [] := by
  induction w with
  | nil => intro p k; simp [lit, Pat.run]
  | cons c w ih =>
    intro p k
    cases w with
    | nil => exact chr_run c p k
    | cons c' w =>
      rw [lit]
      · simp only [Pat.run, chr_run]
        cases h : t[p]? with
        | none => simp [folded_none h]
        | some x =>
          rw [folded_some h]
          by_cases hx : c = u.fold x
          · subst hx
            simp only [List.isPrefixOf, beq_self_eq_true, Bool.true_and, if_true, List.flatMap_cons, List.flatMap_nil, List.append_nil]
            rw [ih]
            have h1 : p + 1 + (c' :: w).length = p + (u.fold x :: c' :: w).length := by simp; omega
            rw [h1]
          · have : (c == u.fold x) = false := by simp only [beq_eq_false_iff_ne, ne_eq]; exact hx
            simp [List.isPrefixOf, this]
      · simp

theorem alts_run (ws : List Word) (p : Nat) (k : Caps) :
    (Pat.alts (ws.map (lit u))).run t p k = (ws.filter (·.isPrefixOf (folded u t p))).map (fun w => (p + w.length, k)) := by
  induction ws with
  | nil => simp only [List.map_nil, Pat.alts, Pat.run]; cases t[p]? <;> simp
  | cons w ws ih =>
    have hhead : (lit u w).run t p k = ([w].filter (·.isPrefixOf (folded u t p))).map (fun w => (p + w.length, k)) := by
      rw [lit_run]
      by_cases h : w.isPrefixOf (folded u t p) <;> simp [h]
    cases ws with
    | nil => exact hhead
    | cons w' ws =>
      show (Pat.alt (lit u w) (Pat.alts ((w' :: ws).map (lit u)))).run t p k = _
      simp only [Pat.run]
      rw [ih, hhead, ← List.map_append, ← List.filter_append]
      rfl

theorem mem_putWord {w x : Word} {ws : List Word} : x ∈ putWord w ws ↔ x = w ∨ x ∈ ws := by
  induction ws with
  | nil => simp [putWord]
  | cons v ws ih =>
    unfold putWord
    split
    · simp
    · simp only [List.mem_cons, ih]
      constructor
      · rintro (h | h | h)
        · exact Or.inr (Or.inl h)
        · exact Or.inl h
        · exact Or.inr (Or.inr h)
      · rintro (h | h | h)
        · exact Or.inr (Or.inl h)
        · exact Or.inl h
        · exact Or.inr (Or.inr h)

theorem mem_longestFirst {x : Word} {ws : List Word} : x ∈ longestFirst ws ↔ x ∈ ws := by
  induction ws with
  | nil => simp [longestFirst]
  | cons w ws ih => simp [longestFirst, mem_putWord, ih]

theorem putWord_sorted {w : Word} {ws : List Word} (h : ws.Pairwise (fun x y => y.length ≤ x.length)) :
    (putWord w ws).Pairwise (fun x y => y.length ≤ x.length) := by
  induction ws with
  | nil => simp [putWord]
  | cons v ws ih =>
    have h' := List.pairwise_cons.1 h
    unfold putWord
    split
    · next hl =>
      refine List.pairwise_cons.2 ⟨fun y hy => ?_, h⟩
      rcases List.mem_cons.1 hy with rfl | hy
      · exact hl
      · have := h'.1 y hy; omega
    · next hl =>
      refine List.pairwise_cons.2 ⟨fun y hy => ?_, ih h'.2⟩
      rcases mem_putWord.1 hy with rfl | hy
      · omega
      · exact h'.1 y hy

theorem longestFirst_sorted (ws : List Word) : (longestFirst ws).Pairwise (fun x y => y.length ≤ x.length) := by
  induction ws with
  | nil => exact List.Pairwise.nil
  | cons w ws ih => exact putWord_sorted ih

theorem words_run (ws : List Word) (p : Nat) (k : Caps) :
    (words u ws).run t p k = ((longestFirst ws).filter (·.isPrefixOf (folded u t p))).map (fun w => (p + w.length, k)) := alts_run _ p k

/-- The longest of the words is taken. -/
theorem words_best {ws : List Word} {w : Word} {p : Nat} (hw : w ∈ ws) (hp : w <+: folded u t p)
    (hl : ∀ x ∈ ws, x <+: folded u t p → x.length ≤ w.length) : Best t (words u ws) p (p + w.length) := by
  intro c
  rw [words_run]
  have hmem : w ∈ (longestFirst ws).filter (·.isPrefixOf (folded u t p)) :=
    List.mem_filter.2 ⟨mem_longestFirst.2 hw, List.isPrefixOf_iff_prefix.2 hp⟩
  have hs := (longestFirst_sorted ws).sublist (List.filter_sublist (p := (·.isPrefixOf (folded u t p))))
  generalize hf : (longestFirst ws).filter (·.isPrefixOf (folded u t p)) = fs at *
  cases fs with
  | nil => cases hmem
  | cons x fs =>
    have hx : x ∈ (longestFirst ws).filter (·.isPrefixOf (folded u t p)) := by rw [hf]; exact List.mem_cons_self ..
    obtain ⟨h1, h2⟩ := List.mem_filter.1 hx
    have h3 := hl x (mem_longestFirst.1 h1) (List.isPrefixOf_iff_prefix.1 h2)
    have h4 : w.length ≤ x.length := by
      rcases List.mem_cons.1 hmem with rfl | h
      · exact Nat.le_refl _
      · exact (List.pairwise_cons.1 hs).1 w h
    have h5 : x.length = w.length := Nat.le_antisymm h3 h4
    exact ⟨_, by rw [List.map_cons, h5]⟩

theorem words_fails {ws : List Word} {p : Nat} (h : ∀ x ∈ ws, ¬ x <+: folded u t p) : Fails t (words u ws) p := by
  rw [show Fails t (words u ws) p ↔ _ from (run_nil t (words u ws) p []).symm, words_run]
  rw [List.filter_eq_nil_iff.2 (fun x hx hp => h x (mem_longestFirst.1 hx) (List.isPrefixOf_iff_prefix.1 hp))]
  rfl

theorem lit_best {w : Word} {p : Nat} (h : w <+: folded u t p) : Best t (lit u w) p (p + w.length) := by
  intro c
  rw [lit_run, if_pos (List.isPrefixOf_iff_prefix.2 h)]
  exact ⟨[], rfl⟩

theorem lit_fails {w : Word} {p : Nat} (h : ¬ w <+: folded u t p) : Fails t (lit u w) p := by
  rw [show Fails t (lit u w) p ↔ _ from (run_nil t (lit u w) p []).symm, lit_run]
  rw [if_neg (fun h' => h (List.isPrefixOf_iff_prefix.1 h'))]

theorem prefix_slice {w : Word} {p q : Nat} (hp : p ≤ q) (hq : q ≤ t.length) :
    (w <+: folded u t p ∧ p + w.length = q) ↔ slice (t.map u.fold) p q = w := by
  have h1 : slice (t.map u.fold) p q = (folded u t p).take (q - p) := by
    unfold slice folded
    rw [List.drop_take, List.map_drop]
  have hlen : (folded u t p).length = t.length - p := by simp [folded]
  rw [h1]
  constructor
  · rintro ⟨⟨r, h2⟩, h3⟩
    have : q - p = w.length := by omega
    rw [this, ← h2, List.take_left]
  · rintro rfl
    refine ⟨List.take_prefix _ _, ?_⟩
    rw [List.length_take, hlen]
    omega

/-- What is taken, when the end is suitable. -/
theorem words_first {ws : List Word} {P : Nat → Prop} {p q : Nat} {c : Caps} (hp : p ≤ t.length) :
    (words u ws).First t P p q c ↔ Rx.LongestAt ws (t.map u.fold) P p q ∧ c = [] := by
  classical
  rw [← run_first, words_run, List.find?_map, Option.map_eq_some_iff]
  have hs := (longestFirst_sorted ws).sublist (List.filter_sublist (p := (·.isPrefixOf (folded u t p))))
  have hmem : ∀ w, w ∈ (longestFirst ws).filter (·.isPrefixOf (folded u t p)) ↔ w ∈ ws ∧ w <+: folded u t p := fun w => by
    rw [List.mem_filter, mem_longestFirst, List.isPrefixOf_iff_prefix]
  generalize (longestFirst ws).filter (·.isPrefixOf (folded u t p)) = fs at *
  have hlen : (folded u t p).length = t.length - p := by simp [folded]
  have hfold : (t.map u.fold).drop p = folded u t p := by simp [folded, List.map_drop]
  unfold Rx.LongestAt
  rw [hfold, List.length_map]
  constructor
  · rintro ⟨w, h1, h2⟩
    simp only [Prod.mk.injEq] at h2
    obtain ⟨rfl, rfl⟩ := h2
    obtain ⟨h3, as, bs, rfl, h4⟩ := List.find?_eq_some_iff_append.1 h1
    simp only [Function.comp_apply, decide_eq_true_eq] at h3
    have hw := (hmem w).1 (by simp)
    have hwl := hw.2.length_le
    have hle : p + w.length ≤ t.length := by omega
    have hsl := (prefix_slice (u := u) (t := t) (w := w) (p := p) (q := p + w.length) (by omega) hle).1 ⟨hw.2, rfl⟩
    refine ⟨⟨by omega, hle, by rw [hsl]; exact hw.1, h3, ?_⟩, rfl⟩
    intro x hx hpre hP
    have hxm := (hmem x).2 ⟨hx, hpre⟩
    rcases List.mem_append.1 hxm with hxa | hxb
    · have := h4 x hxa
      simp only [Function.comp_apply, Bool.not_eq_true', decide_eq_false_iff_not] at this
      exact absurd hP this
    · rcases List.mem_cons.1 hxb with rfl | hxb
      · omega
      · have := (List.pairwise_cons.1 (List.pairwise_append.1 hs).2.1).1 x hxb
        omega
  · rintro ⟨⟨h1, h2, h3, h4, h5⟩, rfl⟩
    generalize hw : slice (t.map u.fold) p q = w at *
    obtain ⟨h6, h7⟩ := (prefix_slice h1 h2).2 hw
    subst h7
    have hwm := (hmem w).2 ⟨h3, h6⟩
    have hsome : (fs.find? (fun w => decide (P (p + w.length)))).isSome := by
      rw [List.find?_isSome]
      exact ⟨w, hwm, by simpa using h4⟩
    obtain ⟨x, hx⟩ := Option.isSome_iff_exists.1 hsome
    obtain ⟨h8, as, bs, rfl, h9⟩ := List.find?_eq_some_iff_append.1 hx
    simp only [decide_eq_true_eq] at h8
    refine ⟨x, hx, ?_⟩
    have hxm := (hmem x).1 (by simp)
    have h10 := h5 x hxm.1 hxm.2 h8
    have h11 : w.length ≤ x.length := by
      rcases List.mem_append.1 hwm with hwa | hwb
      · have := h9 w hwa
        simp only [Bool.not_eq_true', decide_eq_false_iff_not] at this
        exact absurd h4 this
      · rcases List.mem_cons.1 hwb with rfl | hwb
        · exact Nat.le_refl _
        · exact (List.pairwise_cons.1 (List.pairwise_append.1 hs).2.1).1 w hwb
    have : x.length = w.length := by omega
    rw [this]

end Parce.Num

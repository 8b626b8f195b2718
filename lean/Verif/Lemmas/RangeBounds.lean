import Verif.Lemmas.Range
import Verif.Model.RangeBounds
/-!
# Lemmas about the bounds of a range
-/
namespace Parce
variable {α L A : Type}

/-- All tokens begin before the end of the tree, when they are ordered. -/
theorem last_stop (l : L) {cs : List (Node α L A)} (hne : cs ≠ []) (hf : FullL cs) (ho : Ordered (toksL cs)) :
    ∃ last, (toksL cs).getLast? = some last ∧ (Node.ctx l cs).stop = last.stop ∧ ∀ t ∈ toksL cs, t.pos < last.stop := by
  obtain ⟨h1, _, h3⟩ := full_toks (Node.ctx l cs) ⟨hne, hf⟩
  cases hl : (toksL cs).getLast? with
  | none => exact absurd (List.getLast?_eq_none_iff.1 hl) h1
  | some last =>
    simp only [Node.toks, hl] at h3
    refine ⟨last, rfl, by simp [Node.stop, h3], ?_⟩
    intro t ht
    have h4 : t.stop ≤ last.stop := by
      have := Ordered.upward (P := fun x => decide (t.stop ≤ x.stop)) (fun a b hab h => by
        have h2 := of_decide_eq_true h; apply decide_eq_true; simp only [TokN.stop] at *; omega) ho hl ht (by simp)
      exact of_decide_eq_true this
    have h5 : 0 < t.text.length := List.length_pos_iff.2 (ho.1 t ht)
    have h6 : t.stop = t.pos + t.text.length := rfl
    omega

/-- Where the start trail leads. -/
theorem start_at (l : L) {cs : List (Node α L A)} (hf : FullL cs) (ho : Ordered (toksL cs)) {start : Nat} {st : List Nat}
    (h : (findTokenTrail cs start).map (·.2) = some st) :
    ∃ t, (Node.ctx l cs).at st = some (.tok t) ∧ st ≠ [] ∧ (toksL cs).find? (fun t => decide (start < t.stop)) = some t := by
  have hfl := findToken_eq hf ho start
  rw [← findTokenTrail_fst] at hfl
  cases htr : findTokenTrail cs start with
  | none => rw [htr] at h; simp at h
  | some q =>
    obtain ⟨t, p⟩ := q
    rw [htr] at h hfl
    obtain rfl : p = st := by simpa using h
    have hat : (Node.ctx l cs).at p = some (.tok t) := by
      unfold findTokenTrail at htr
      split at htr
      · simp at htr
      · exact trail_at htr
    exact ⟨t, hat, by rintro rfl; simp [Node.at] at hat, hfl.symm⟩

/-- Where the end trail leads. -/
theorem end_at (l : L) {cs : List (Node α L A)} (hf : FullL cs) (ho : Ordered (toksL cs)) {e : Nat} {et : List Nat}
    (h : (findTokenLeftTrail cs e).map (·.2) = some et) :
    ∃ t, (Node.ctx l cs).at et = some (.tok t) ∧ et ≠ [] ∧ (toksL cs).reverse.find? (fun t => decide (t.pos < e)) = some t := by
  have hfl := findTokenLeft_eq hf ho e
  rw [← findTokenLeftTrail_fst] at hfl
  cases htr : findTokenLeftTrail cs e with
  | none => rw [htr] at h; simp at h
  | some q =>
    obtain ⟨t, p⟩ := q
    rw [htr] at h hfl
    obtain rfl : p = et := by simpa using h
    have hat : (Node.ctx l cs).at p = some (.tok t) := by
      unfold findTokenLeftTrail at htr
      split at htr
      · simp at htr
      · exact trail_at htr
    exact ⟨t, hat, by rintro rfl; simp [Node.at] at hat, hfl.symm⟩

theorem tok_pos (t : TokN α A) : (Node.tok t : Node α L A).pos = t.pos := rfl
theorem tok_stop (t : TokN α A) : (Node.tok t : Node α L A).stop = t.stop := rfl

/-- The first of all tokens. -/
theorem first_pos (l : L) {cs : List (Node α L A)} (hne : cs ≠ []) (hf : FullL cs) (ho : Ordered (toksL cs)) :
    ∃ t, (toksL cs).find? (fun t => decide (0 < t.stop)) = some t ∧ (Node.ctx l cs).pos = t.pos := by
  obtain ⟨h1, h2, _⟩ := full_toks (Node.ctx l cs) ⟨hne, hf⟩
  simp only [Node.toks] at h1 h2
  cases hl : toksL cs with
  | nil => exact absurd hl h1
  | cons t ts =>
    have h5 : 0 < t.text.length := List.length_pos_iff.2 (ho.1 t (by simp [hl]))
    refine ⟨t, List.find?_cons_of_pos (decide_eq_true (by simp only [TokN.stop]; omega)), ?_⟩
    rw [hl] at h2
    simp [Node.pos, h2]

/-- The end of a range without end trail. -/
theorem last_end (l : L) {cs : List (Node α L A)} (hne : cs ≠ []) (hf : FullL cs) (ho : Ordered (toksL cs)) (stop : Option Nat)
    (h : ∀ e, stop = some e → (Node.ctx l cs).stop ≤ e) :
    ∃ t, (toksL cs).reverse.find? (fun t => stop.all (fun e => decide (t.pos < e))) = some t ∧ (Node.ctx l cs).stop = t.stop := by
  obtain ⟨last, h1, h2, h3⟩ := last_stop l hne hf ho
  refine ⟨last, ?_, h2⟩
  have hm := List.mem_of_getLast? h1
  have : (toksL cs).reverse.head? = some last := by rw [List.head?_reverse, h1]
  cases hr : (toksL cs).reverse with
  | nil => rw [hr] at this; simp at this
  | cons x xs =>
    rw [hr] at this
    obtain rfl : x = last := by simpa using this
    apply List.find?_cons_of_pos
    cases hs : stop with
    | none => rfl
    | some e =>
      have h4 := h e hs
      have h5 := h3 x hm
      simp only [Option.all_some, decide_eq_true_eq]
      omega

/-- The bounds of every range that `from_tree` makes. -/
theorem bounds_eq (l : L) {cs : List (Node α L A)} (hf : FullL cs) (ho : Ordered (toksL cs)) {start : Nat} {stop : Option Nat} {r : Rng}
    (h : Rng.fromTree l cs start stop = some r) :
    ∃ a b, (toksL cs).find? (fun t => decide (start < t.stop)) = some a ∧
      (toksL cs).reverse.find? (fun t => stop.all (fun e => decide (t.pos < e))) = some b ∧
      r.pos (.ctx l cs) = some a.pos ∧ r.stop (.ctx l cs) = some b.stop := by
  unfold Rng.fromTree at h
  by_cases hne : cs = []
  · rw [if_pos hne] at h; simp at h
  rw [if_neg hne] at h
  cases het : endTrailOf l cs start stop with
  | none => rw [het] at h; simp at h
  | some et =>
    rw [het] at h
    simp only at h
    -- the end
    have hE : (et = [] ∧ ∃ t, (toksL cs).reverse.find? (fun t => stop.all (fun e => decide (t.pos < e))) = some t ∧ (Node.ctx l cs).stop = t.stop) ∨
        ∃ t, (Node.ctx l cs).at et = some (.tok t) ∧ et ≠ [] ∧ (toksL cs).reverse.find? (fun t => stop.all (fun e => decide (t.pos < e))) = some t := by
      cases stop with
      | none =>
        obtain rfl : [] = et := by simpa [endTrailOf] using het
        exact .inl ⟨rfl, last_end l hne hf ho none (by simp)⟩
      | some e =>
        simp only [endTrailOf] at het
        by_cases hlt : e < (Node.ctx l cs).stop
        · rw [if_pos hlt] at het
          by_cases hle : e ≤ start
          · rw [if_pos hle] at het; simp at het
          · rw [if_neg hle] at het
            exact .inr (end_at l hf ho het)
        · rw [if_neg hlt] at het
          obtain rfl : [] = et := by simpa using het
          refine .inl ⟨rfl, last_end l hne hf ho (some e) ?_⟩
          intro e' h'
          cases h'
          omega
    by_cases h0 : start > 0
    · rw [if_pos h0] at h
      cases hst : (findTokenTrail cs start).map (·.2) with
      | none => rw [hst] at h; simp at h
      | some st =>
        rw [hst] at h
        simp only at h
        obtain ⟨a, ha, hst0, hfa⟩ := start_at l hf ho hst
        rcases hE with ⟨rfl, b, hb, hbs⟩ | ⟨b, hb, het0, hfb⟩
        · simp only [ne_eq, not_true_eq_false, if_false, Option.some.injEq] at h
          subst h
          exact ⟨a, b, hfa, hb, by simp [Rng.pos, Node.at, ha, tok_pos], by simp [Rng.stop, Node.at, hbs]⟩
        · rw [if_pos het0] at h
          obtain ⟨k, i, is, j, js, h1, h2, h3, h4, _⟩ := commonLoop_spec st et 0 (.ctx l cs) a b ha hb hst0 het0
          rw [h1, Nat.zero_add] at h
          have := Option.some.inj h
          subst this
          refine ⟨a, b, hfa, hfb, ?_, ?_⟩
          · simp only [Rng.pos]
            rw [← at_append, List.take_append_drop, ha]
            rfl
          · simp only [Rng.stop]
            rw [← at_append, h2, List.take_append_drop, hb]
            rfl
    · rw [if_neg h0] at h
      have := Option.some.inj h
      subst this
      obtain rfl : start = 0 := by omega
      obtain ⟨a, hfa, hap⟩ := first_pos l hne hf ho
      rcases hE with ⟨rfl, b, hb, hbs⟩ | ⟨b, hb, het0, hfb⟩
      · exact ⟨a, b, hfa, hb, by simp [Rng.pos, Node.at, hap], by simp [Rng.stop, Node.at, hbs]⟩
      · exact ⟨a, b, hfa, hfb, by simp [Rng.pos, Node.at, hap], by simp [Rng.stop, Node.at, hb, tok_stop]⟩

end Parce

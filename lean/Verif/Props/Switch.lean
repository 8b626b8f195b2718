import Verif.Lemmas.Switch
/-!
# C123: a switch is on in its blocks
-/
namespace Parce.Swi

/-- **C123 (partial).** If instances are equal only to themselves and the attribute is not asked for on the class: after any events, the
    switch of an instance that was not deleted is on exactly when a `with` block of that instance is open. The blocks may end in any
    order, and other instances may be deleted while their blocks are open. -/
theorem C123_switch_partial (eq : Nat → Nat → Bool) (heq : ∀ i j, eq i j = true ↔ i = j) (evs : List Ev)
    (hc : .onClass ∉ evs) (i : Nat) (hi : .die i ∉ evs) :
    isOn eq (run eq evs) i = decide (i ∈ blocks [] evs) := by
  have hinv : Inv (fun k => Ev.die k ∈ evs) (run eq evs) :=
    inv_run heq evs ⟨by simp, by simp, by simp, by simp, by simp, by simp, by simp⟩ (fun e he h => hc (h ▸ he)) (fun k hk => hk)
  obtain ⟨g, gm, go⟩ := inv_get heq hinv i
  have hb : (run eq evs).opened.map (·.1) = blocks [] evs := opened_run evs {}
  have hcnt := g.cnt _ gm hi
  rw [go] at hcnt
  unfold isOn
  dsimp only
  simp only at hcnt
  rw [hcnt, ← hb]
  by_cases h : i ∈ (run eq evs).opened.map (·.1)
  · rw [decide_eq_true h]
    obtain ⟨b, hb1, hb2⟩ := List.mem_map.1 h
    have : 0 < (run eq evs).opened.countP (fun b => b.1 == i) := List.countP_pos_iff.2 ⟨b, hb1, by simpa using hb2⟩
    simp only [bne_iff_ne, ne_eq]
    omega
  · rw [decide_eq_false h]
    have : (run eq evs).opened.countP (fun b => b.1 == i) = 0 := by
      rw [List.countP_eq_zero]
      intro b hb1 hb2
      exact h (List.mem_map.2 ⟨b, hb1, by simpa using hb2⟩)
    rw [this]
    rfl

example : (∀ i j : Nat, (i == j) = true ↔ i = j) ∧
    let evs := [Ev.enter 0, .enter 1, .look 2, .enter 0, .exit 0, .die 1, .look 0]
    Ev.onClass ∉ evs ∧ Ev.die 0 ∉ evs ∧ isOn (· == ·) (run (· == ·) evs) 0 = true ∧ blocks [] evs = [1, 0] :=
  ⟨by simp, by decide⟩

/-- **C123 is violated**: the switches of equal instances are one. It is on outside of a block of the instance, and it is off inside
    one when the equal instance, in whose block it was made, is deleted. -/
theorem C123_equal_violated : ∃ (eq : Nat → Nat → Bool) (evs evs' : List Ev),
    1 ∉ blocks [] evs ∧ isOn eq (run eq evs) 1 = true ∧
    1 ∈ blocks [] evs' ∧ isOn eq (run eq evs') 1 = false :=
  ⟨fun _ _ => true, [.enter 0], [.enter 0, .enter 1, .exit 0, .die 0], by decide⟩

/-- **C123 is violated**: when the attribute is asked for on the class, all switches that are on are off. -/
theorem C123_class_violated : ∃ evs : List Ev, (∀ i, .die i ∉ evs) ∧ 0 ∈ blocks [] evs ∧ isOn (· == ·) (run (· == ·) evs) 0 = false :=
  ⟨[.enter 0, .onClass], by simp, by decide, by decide⟩

end Parce.Swi

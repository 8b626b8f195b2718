import Verif.Lemmas.StandardActionTree

/-
C57: standard actions are singletons in a hierarchy.
-/

namespace Parce.SA

/-- **C57.** In every execution with any number of threads: asking twice for the same name under the same
    parent, by calling `StandardAction` or by reading an attribute, gives the same action. (The names
    `_name` and `_parent` are not names of actions, see `C57_violated_reserved`.) -/
theorem C57_same {s : St} (h : Reach s) (p : Option Nat) (n : String) (v v' : Val)
    (hn : p = none ∨ (n ≠ "_name" ∧ n ≠ "_parent"))
    (h1 : (p, n, v) ∈ s.results) (h2 : (p, n, v') ∈ s.results) : v = v' ∧ ∃ i, v = .act i ∧ i < s.size := by
  have hr : ¬ reserved p n := by
    cases p with
    | none => exact id
    | some p =>
      rcases hn with hn | hn
      · cases hn
      · simp [reserved, hn.1, hn.2]
  have e1 := h.inv.res p n v h1 hr
  have e2 := h.inv.res p n v' h2 hr
  rw [e1] at e2
  obtain ⟨i, h3, h4, _⟩ := h.inv.key p n v hr e1
  exact ⟨Option.some.inj e2, i, h3, h4⟩

/-- **C57.** Different names, or different parents, give different actions. -/
theorem C57_different {s : St} (h : Reach s) (p p' : Option Nat) (n n' : String) (v : Val)
    (hn : p = none ∨ (n ≠ "_name" ∧ n ≠ "_parent")) (hn' : p' = none ∨ (n' ≠ "_name" ∧ n' ≠ "_parent"))
    (h1 : (p, n, v) ∈ s.results) (h2 : (p', n', v) ∈ s.results) : p = p' ∧ n = n' := by
  have hr : ∀ (p : Option Nat) (n : String), p = none ∨ (n ≠ "_name" ∧ n ≠ "_parent") → ¬ reserved p n := by
    intro p n hn
    cases p with
    | none => exact id
    | some p =>
      rcases hn with hn | hn
      · cases hn
      · simp [reserved, hn.1, hn.2]
  have e1 := h.inv.res p n v h1 (hr _ _ hn)
  have e2 := h.inv.res p' n' v h2 (hr _ _ hn')
  obtain ⟨i, rfl, _⟩ := h.inv.key p n v (hr _ _ hn) e1
  exact h.inv.inj p n p' n' i (hr _ _ hn) (hr _ _ hn') e1 e2

/-- **C57.** Every action that is not being made at this moment has exactly one path of names, no other action
    has that path, and it is what the representation of the action shows. -/
theorem C57_path {s : St} (h : Reach s) (i : Nat) (hi : i < s.size) (hb : ¬ Busy s i) :
    ∃ path, HasPath s i path ∧ (∀ path', HasPath s i path' → path' = path) ∧ (∀ j, HasPath s j path → j = i) ∧
      reprNames s i = some (path.map Val.str) := by
  obtain ⟨path, h1, l, h2, h3⟩ := h.inv.path i hi hb
  refine ⟨path, h1, fun path' h' => (h1.unique h.inv path' h').symm, fun j hj => (h1.same j hj).symm, ?_⟩
  simp [reprNames, h2, h3]

/-- **C57.** `a in b` says whether `b` is `a` or one of its ancestors. -/
theorem C57_in {s : St} (h : Reach s) (a b : Nat) (ha : a < s.size) (hb : ¬ Busy s a) :
    ∃ r, contains s a b = some r ∧ (r = true ↔ Anc s a b) := by
  obtain ⟨l, h1, h2, _⟩ := h.inv.ancestors ha hb
  refine ⟨l.any (· == b), by simp [contains, h1], ?_⟩
  rw [← h2]; simp

/-- **C57.** `a & b` is the closest common ancestor, and nothing if there is no common ancestor. -/
theorem C57_and {s : St} (h : Reach s) (a b : Nat) (ha : a < s.size) (hb : b < s.size) (hba : ¬ Busy s a) (hbb : ¬ Busy s b) :
    ∃ r, meet s a b = some r ∧
      (∀ c, r = some c ↔ Anc s a c ∧ Anc s b c ∧ ∀ d, Anc s a d → Anc s b d → Anc s c d) ∧
      (r = none ↔ ¬ ∃ c, Anc s a c ∧ Anc s b c) := by
  obtain ⟨la, h1, h2, h3, h3'⟩ := h.inv.ancestors ha hba
  obtain ⟨lb, h4, h5, _, _⟩ := h.inv.ancestors hb hbb
  have anti : ∀ c d, Anc s a c → Anc s a d → Anc s c d → Anc s d c → c = d := by
    intro c d hc hd h6 h7
    have hle : ∀ c, Anc s a c → ∀ d, Anc s c d → d ≤ c := by
      intro c hc d hd
      have hca := h3' c ((h2 c).2 hc)
      have hcs : c < s.size := by omega
      have hcb : ¬ Busy s c := by
        by_cases e : c = a
        · rw [e]; exact hba
        · exact h.inv.notBusy ha (by omega)
      obtain ⟨l, _, h8, _, h9⟩ := h.inv.ancestors hcs hcb
      exact h9 d ((h8 d).2 hd)
    exact Nat.le_antisymm (hle d hd c h7) (hle c hc d h6)
  have hsome : ∀ c, la.find? (lb.contains ·) = some c → Anc s a c ∧ Anc s b c ∧ ∀ d, Anc s a d → Anc s b d → Anc s c d := by
    intro c hc
    obtain ⟨h6, pre, post, h7, h8⟩ := List.find?_eq_some_iff_append.1 hc
    refine ⟨(h2 c).1 (by rw [h7]; simp), (h5 c).1 (by simpa using h6), fun d hd1 hd2 => ?_⟩
    have hd := (h2 d).2 hd1
    rw [h7, List.mem_append, List.mem_cons] at hd
    rcases hd with hd | rfl | hd
    · have := h8 d hd
      simp only [Bool.not_eq_eq_eq_not, Bool.not_true] at this
      exact absurd ((h5 d).2 hd2) (by simpa using this)
    · exact .refl _
    · rw [h7] at h3
      exact (List.pairwise_cons.1 (List.pairwise_append.1 h3).2.1).1 d hd
  have hnone : la.find? (lb.contains ·) = none ↔ ¬ ∃ c, Anc s a c ∧ Anc s b c := by
    rw [List.find?_eq_none]
    constructor
    · rintro h6 ⟨c, h7, h8⟩
      exact h6 c ((h2 c).2 h7) (by simpa using (h5 c).2 h8)
    · intro h6 c h7 h8
      exact h6 ⟨c, (h2 c).1 h7, (h5 c).1 (by simpa using h8)⟩
  refine ⟨la.find? (lb.contains ·), by simp [meet, h1, h4], fun c => ⟨hsome c, ?_⟩, hnone⟩
  rintro ⟨h6, h7, h8⟩
  cases hf : la.find? (lb.contains ·) with
  | none => exact absurd ⟨c, h6, h7⟩ (hnone.1 hf)
  | some c' =>
    obtain ⟨h9, h10, h11⟩ := hsome c' hf
    rw [anti c' c h9 h6 (h11 c h6 h7) (h8 c' h9 h10)]

/-- **C57 does not hold** for an action that is being made: another thread that reads the attribute `A.B` at
    that moment gets an action without a name and a parent, which cannot be compared. -/
theorem C57_violated_half : Reach half ∧ (some 0, "B", Val.act 1) ∈ half.results ∧ Busy half 1 ∧
    contains half 1 0 = none ∧ reprNames half 1 = none :=
  ⟨half_reach, by decide, ⟨0, some 0, "B", Or.inl rfl⟩, by decide, by decide⟩

/-- **C57 does not hold** for the names `_name` and `_parent`: `StandardAction("_name", A)` is not an action but
    a string. -/
theorem C57_violated_reserved : ∃ s, Reach s ∧ (some 0, "_name", Val.str "A") ∈ s.results := by
  have h0 := Reach.init
  have h1 := h0.step (.call 0 none "A" rfl trivial)
  have h2 := h1.step (.acquire 0 none "A" rfl rfl)
  have h3 := h2.step (.make 0 none "A" rfl rfl)
  have h4 := h3.step (.name 0 none "A" 0 rfl)
  have h5 := h4.step (.parent 0 none "A" 0 rfl)
  have h6 := h5.step (.release 0 none "A" (.act 0) rfl)
  have h7 := h6.step (.call 0 (some 0) "_name" rfl Nat.zero_lt_one)
  have h8 := h7.step (.acquire 0 (some 0) "_name" rfl rfl)
  have h9 := h8.step (.found 0 (some 0) "_name" (.str "A") rfl (by decide))
  have h10 := h9.step (.release 0 (some 0) "_name" (.str "A") rfl)
  exact ⟨_, h10, List.mem_cons_self⟩

/-- The hypotheses are met: an action that was asked for twice, by two threads, and is not being made. -/
example : ∃ s, Reach s ∧ 0 < s.size ∧ ¬ Busy s 0 ∧ s.results.count (none, "A", Val.act 0) = 2 := by
  have h0 := Reach.init
  have h1 := h0.step (.call 0 none "A" rfl trivial)
  have h1 := h1.step (.call 1 none "A" rfl trivial)
  have h2 := h1.step (.acquire 0 none "A" rfl rfl)
  have h3 := h2.step (.make 0 none "A" rfl rfl)
  have h4 := h3.step (.name 0 none "A" 0 rfl)
  have h5 := h4.step (.parent 0 none "A" 0 rfl)
  have h6 := h5.step (.release 0 none "A" (.act 0) rfl)
  have h7 := h6.step (.acquire 1 none "A" rfl rfl)
  have h8 := h7.step (.found 1 none "A" (.act 0) rfl (by decide))
  have h9 := h8.step (.release 1 none "A" (.act 0) rfl)
  refine ⟨_, h9, by decide, ?_, by decide⟩
  rintro ⟨t, p, n, h | h⟩ <;>
  · simp only [St.goto, St.put, St.init] at h
    revert h
    by_cases h0 : t = 0 <;> by_cases h1 : t = 1 <;> simp [h0, h1]

end Parce.SA

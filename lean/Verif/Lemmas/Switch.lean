import Verif.Spec.Switch
/-!
# Lemmas about switches
-/
namespace Parce.Swi

/-- `D` says which instances are deleted at some time. -/
structure Inv (D : Nat → Prop) (s : St) : Prop where
  tbl_lt : ∀ e ∈ s.table.getD [], e.2 < s.next
  open_lt : ∀ e ∈ s.opened, e.2 < s.next
  tt : ∀ e ∈ s.table.getD [], ∀ e' ∈ s.table.getD [], e.2 = e'.2 → e.1 = e'.1
  to' : ∀ e ∈ s.table.getD [], ∀ e' ∈ s.opened, e.2 = e'.2 → e.1 = e'.1
  uniq : ∀ e ∈ s.table.getD [], ∀ e' ∈ s.table.getD [], e.1 = e'.1 → e.2 = e'.2
  mem : ∀ b ∈ s.opened, ¬ D b.1 → b ∈ s.table.getD []
  cnt : ∀ e ∈ s.table.getD [], ¬ D e.1 → s.counts e.2 = (s.opened.countP (fun b => b.1 == e.1) : Nat)

variable {eq : Nat → Nat → Bool} (heq : ∀ i j, eq i j = true ↔ i = j) {D : Nat → Prop}
include heq

theorem inv_get {s : St} (h : Inv D s) (i : Nat) :
    Inv D (get eq s i).2 ∧ (i, (get eq s i).1) ∈ (get eq s i).2.table.getD [] ∧ (get eq s i).2.opened = s.opened := by
  unfold get
  cases hf : (s.table.getD []).find? (fun e => eq i e.1) with
  | some e =>
    dsimp only
    rw [hf]
    refine ⟨h, ?_, rfl⟩
    have h1 := List.mem_of_find?_eq_some hf
    have h2 : eq i e.1 = true := by simpa using List.find?_some hf
    have := (heq _ _).1 h2
    obtain ⟨a, b⟩ := e
    simp only at this
    subst this
    exact h1
  | none =>
    have hno : ∀ e ∈ s.table.getD [], i ≠ e.1 := by
      intro e he hi
      have := List.find?_eq_none.1 hf e he
      exact this ((heq _ _).2 hi)
    dsimp only
    rw [hf]
    refine ⟨⟨?_, ?_, ?_, ?_, ?_, ?_, ?_⟩, by simp, rfl⟩
    · intro e he
      simp only [Option.getD_some, List.mem_append, List.mem_singleton] at he
      rcases he with he | rfl
      · have := h.tbl_lt e he
        simp only
        omega
      · simp
    · intro e he
      have := h.open_lt e he
      simp only
      omega
    · intro e he e' he' hee
      simp only [Option.getD_some, List.mem_append, List.mem_singleton] at he he'
      rcases he with he | rfl <;> rcases he' with he' | rfl
      · exact h.tt e he e' he' hee
      · have := h.tbl_lt e he
        simp only at hee
        omega
      · have := h.tbl_lt e' he'
        simp only at hee
        omega
      · rfl
    · intro e he e' he' hee
      simp only [Option.getD_some, List.mem_append, List.mem_singleton] at he
      rcases he with he | rfl
      · exact h.to' e he e' he' hee
      · have := h.open_lt e' he'
        simp only at hee
        omega
    · intro e he e' he' hee
      simp only [Option.getD_some, List.mem_append, List.mem_singleton] at he he'
      rcases he with he | rfl <;> rcases he' with he' | rfl
      · exact h.uniq e he e' he' hee
      · exact absurd hee.symm (hno e he)
      · exact absurd hee (hno e' he')
      · rfl
    · intro b hb hd
      simp only [Option.getD_some, List.mem_append]
      exact .inl (h.mem b hb hd)
    · intro e he hd
      simp only [Option.getD_some, List.mem_append, List.mem_singleton] at he
      rcases he with he | rfl
      · have h1 := h.tbl_lt e he
        have h2 : e.2 ≠ s.next := by omega
        simp only [h2, if_false]
        exact h.cnt e he hd
      · simp only [if_true]
        have : s.opened.countP (fun b => b.1 == i) = 0 := by
          rw [List.countP_eq_zero]
          intro b hb hbi
          have hbi : b.1 = i := by simpa using hbi
          exact hno b (h.mem b hb (hbi ▸ hd)) hbi.symm
        rw [this]
        rfl

theorem inv_step {s : St} (h : Inv D s) (e : Ev) (hc : e ≠ .onClass) (hd : ∀ i, e = .die i → D i) : Inv D (step eq s e) := by
  cases e with
  | onClass => exact absurd rfl hc
  | look i => exact (inv_get heq h i).1
  | enter i =>
    obtain ⟨g, gm, go⟩ := inv_get heq h i
    simp only [step]
    generalize hr : get eq s i = r at g gm go
    obtain ⟨k, s'⟩ := r
    simp only at g gm go
    refine ⟨g.tbl_lt, ?_, g.tt, ?_, g.uniq, ?_, ?_⟩
    · intro e he
      simp only [List.mem_append, List.mem_singleton] at he
      rcases he with he | rfl
      · exact g.open_lt e he
      · exact g.tbl_lt _ gm
    · intro e he e' he' hee
      simp only [List.mem_append, List.mem_singleton] at he'
      rcases he' with he' | rfl
      · exact g.to' e he e' he' hee
      · exact g.tt e he _ gm hee
    · intro b hb hbd
      simp only [List.mem_append, List.mem_singleton] at hb
      rcases hb with hb | rfl
      · exact g.mem b hb hbd
      · exact gm
    · intro e he hed
      simp only [List.countP_append, List.countP_singleton]
      have := g.cnt e he hed
      by_cases hei : e.1 = i
      · have h2 := g.uniq e he _ gm hei
        simp only at h2
        simp only [h2, if_true, ← hei, beq_self_eq_true]
        rw [h2] at this
        rw [this]
        push_cast
        rfl
      · have h2 : e.2 ≠ k := fun hk => hei (g.tt e he _ gm hk)
        have h3 : (i == e.1) = false := by simpa using fun h => hei h.symm
        simp only [h2, if_false, h3, this]
        simp
  | exit n =>
    simp only [step]
    cases hb : s.opened[n]? with
    | none => exact h
    | some b =>
      have hbm := List.mem_of_getElem? hb
      have hsub : ∀ {x}, x ∈ s.opened.eraseIdx n → x ∈ s.opened := fun hx => (List.eraseIdx_sublist ..).subset hx
      refine ⟨h.tbl_lt, fun e he => h.open_lt e (hsub he), h.tt, fun e he e' he' => h.to' e he e' (hsub he'), h.uniq,
        fun b hb => h.mem b (hsub hb), ?_⟩
      intro e he hed
      have := h.cnt e he hed
      have hsplit : s.opened.countP (fun b => b.1 == e.1) = (s.opened.eraseIdx n).countP (fun b => b.1 == e.1) + (if b.1 == e.1 then 1 else 0) := by
        obtain ⟨hn, hb'⟩ := List.getElem?_eq_some_iff.1 hb
        conv => lhs; rw [← List.take_append_drop n s.opened, List.drop_eq_getElem_cons hn, hb']
        rw [List.eraseIdx_eq_take_drop_succ, List.countP_append, List.countP_append, List.countP_cons]
        omega
      simp only
      by_cases hei : e.2 = b.2
      · have h1 := h.to' e he b hbm hei
        rw [hsplit, ← h1] at this
        simp only [beq_self_eq_true, if_true] at this
        rw [if_pos hei, this]
        push_cast
        omega
      · have h1 : e.1 ≠ b.1 := by
          intro h1
          exact hei (h.uniq e he b (h.mem b hbm (h1 ▸ hed)) h1)
        have h3 : (b.1 == e.1) = false := by simpa using fun h => h1 h.symm
        rw [hsplit, h3] at this
        rw [if_neg hei, this]
        simp
  | die i =>
    simp only [step]
    have hD := hd i rfl
    have hsub : ∀ {x}, x ∈ (s.table.map (·.filter (fun e => e.1 != i))).getD [] ↔ x ∈ s.table.getD [] ∧ x.1 ≠ i := by
      intro x
      cases s.table <;> simp
    refine ⟨fun e he => h.tbl_lt e (hsub.1 he).1, h.open_lt, fun e he e' he' => h.tt e (hsub.1 he).1 e' (hsub.1 he').1,
      fun e he => h.to' e (hsub.1 he).1, fun e he e' he' => h.uniq e (hsub.1 he).1 e' (hsub.1 he').1, ?_, fun e he => h.cnt e (hsub.1 he).1⟩
    intro b hb hbd
    exact hsub.2 ⟨h.mem b hb hbd, fun hbi => hbd (hbi ▸ hD)⟩

theorem inv_run : ∀ (evs : List Ev) {s : St}, Inv D s → (∀ e ∈ evs, e ≠ .onClass) → (∀ i, Ev.die i ∈ evs → D i) → Inv D (evs.foldl (step eq) s)
  | [], _, h, _, _ => h
  | e :: evs, s, h, hc, hd => by
    rw [List.foldl_cons]
    exact inv_run evs (inv_step heq h e (hc e (List.mem_cons_self ..)) (fun i hi => hd i (hi ▸ List.mem_cons_self ..)))
      (fun e he => hc e (List.mem_cons_of_mem _ he)) (fun i hi => hd i (List.mem_cons_of_mem _ hi))

omit heq in
theorem opened_get (s : St) (i : Nat) : (get eq s i).2.opened = s.opened := by
  unfold get
  dsimp only
  split <;> rfl

omit heq in
theorem opened_run : ∀ (evs : List Ev) (s : St), (evs.foldl (step eq) s).opened.map (·.1) = blocks (s.opened.map (·.1)) evs
  | [], _ => rfl
  | e :: evs, s => by
    rw [List.foldl_cons, opened_run evs]
    cases e with
    | enter i => simp [step, blocks, opened_get]
    | look i => simp [step, blocks, opened_get]
    | onClass => simp [step, blocks]
    | die i => simp [step, blocks]
    | exit n =>
      simp only [step, blocks]
      cases hb : s.opened[n]? with
      | none =>
        have hl : (s.opened.map (·.1)).length ≤ n := by simpa using hb
        rw [List.eraseIdx_of_length_le hl]
      | some b => simp only [List.eraseIdx_eq_take_drop_succ, List.map_append, List.map_take, List.map_drop]

end Parce.Swi

import Verif.Spec.Themes

/-! Lemmas about the themes of formatters. -/

namespace Parce.Thm

variable {T X F G A R : Type} [DecidableEq G]

theorem look_put (k k' : Option G) (c : Cache T F A R) : ∀ d, look k' (put k c d) = if k' = k then some c else look k' d
  | [] => by
    simp only [put, look]
    by_cases h : k = k'
    · simp [h]
    · simp [h, Ne.symm h]
  | (a, b) :: d => by
    have ih := look_put k k' c d
    unfold put
    by_cases h : a = k
    · rw [if_pos h]
      simp only [look]
      by_cases hk : k = k'
      · simp [hk]
      · have : a ≠ k' := fun e => hk (h ▸ e)
        simp [hk, Ne.symm hk, this]
    · rw [if_neg h]
      simp only [look, ih]
      by_cases hk : a = k'
      · have : k' ≠ k := fun e => h (hk.trans e)
        simp [hk, this]
      · simp [hk]

theorem put_keys (k : Option G) (c : Cache T F A R) : ∀ (d : Caches T F G A R) (x : Option G),
    x ∈ (put k c d).map (·.1) ↔ x = k ∨ x ∈ d.map (·.1)
  | [], x => by simp [put]
  | (a, b) :: d, x => by
    have ih := put_keys k c d x
    unfold put
    by_cases h : a = k
    · rw [if_pos h]; simp [h]
    · rw [if_neg h]
      simp only [List.map_cons, List.mem_cons, ih]
      constructor
      · rintro (h | h | h)
        · exact .inr (.inl h)
        · exact .inl h
        · exact .inr (.inr h)
      · rintro (h | h | h)
        · exact .inr (.inl h)
        · exact .inl h
        · exact .inr (.inr h)

theorem put_once (k : Option G) (c : Cache T F A R) : ∀ (d : Caches T F G A R), Once d → Once (put k c d)
  | [], _ => by simp [put, Once]
  | (a, b) :: d, h => by
    unfold put
    by_cases hk : a = k
    · rw [if_pos hk]; subst hk; exact h
    · rw [if_neg hk]
      simp only [Once, List.map_cons, List.nodup_cons] at h ⊢
      refine ⟨?_, put_once k c d h.2⟩
      rw [put_keys]
      rintro (e | e)
      · exact hk e
      · exact h.1 e

theorem put_mem (k : Option G) (c : Cache T F A R) : ∀ (d : Caches T F G A R) (q), q ∈ put k c d → q = (k, c) ∨ q ∈ d
  | [], q, h => by simp [put] at h; exact .inl h
  | (a, b) :: d, q, h => by
    unfold put at h
    split at h
    · rcases List.mem_cons.1 h with h | h
      · exact .inl h
      · exact .inr (by simp [h])
    · rcases List.mem_cons.1 h with h | h
      · exact .inr (by simp [h])
      · rcases put_mem k c d q h with h | h
        · exact .inl h
        · exact .inr (by simp [h])

theorem look_none (k : Option G) : ∀ (d : Caches T F G A R), k ∉ d.map (·.1) → look k d = none
  | [], _ => rfl
  | (a, b) :: d, h => by
    simp only [List.map_cons, List.mem_cons, not_or] at h
    simp only [look, if_neg (Ne.symm h.1)]
    exact look_none k d h.2

theorem look_mem (k : Option G) (c : Cache T F A R) : ∀ (d : Caches T F G A R), look k d = some c → (k, c) ∈ d
  | [], h => by cases h
  | (a, b) :: d, h => by
    simp only [look] at h
    split at h
    · rename_i hk; cases h; simp [hk]
    · exact List.mem_cons_of_mem _ (look_mem k c d h)

theorem del_none (k : Option G) : ∀ (d : Caches T F G A R), del k d = none ↔ look k d = none
  | [] => by simp [del, look]
  | (a, b) :: d => by
    have ih := del_none k d
    simp only [del, look]
    split
    · simp
    · simp [ih]

theorem del_some (k : Option G) : ∀ (d d' : Caches T F G A R), Once d → del k d = some d' →
    d'.Sublist d ∧ ∀ k', look k' d' = if k' = k then none else look k' d
  | [], d', _, h => by cases h
  | (a, b) :: d, d', ho, h => by
    simp only [Once, List.map_cons, List.nodup_cons] at ho
    simp only [del] at h
    split at h
    · rename_i hk
      cases h
      refine ⟨List.sublist_cons_self _ _, ?_⟩
      intro k'
      simp only [look]
      by_cases hk' : k' = k
      · rw [if_pos hk', hk', ← hk]
        exact look_none a d ho.1
      · rw [if_neg hk', if_neg (fun e => hk' (e.symm.trans hk))]
    · rename_i hk
      cases hd : del k d with
      | none => rw [hd] at h; cases h
      | some d2 =>
        rw [hd] at h
        cases h
        obtain ⟨h1, h2⟩ := del_some k d d2 ho.2 hd
        refine ⟨h1.cons_cons _, ?_⟩
        intro k'
        simp only [look, h2 k']
        by_cases hk' : a = k'
        · have : k' ≠ k := fun e => hk (hk'.trans e)
          simp [hk', this]
        · simp [hk']

/-- What holds for the caches of all formatters. -/
structure Inv (th : Themes T X A R) (factory : Nat → X → Option F) (s : State T X F G A R) : Prop where
  same : s.factory = factory
  once : ∀ i, Once (s.caches i)
  made : ∀ i, ∀ q ∈ s.caches i, ∃ t b, q.2 = mkCache th (factory i) t b

theorem inv_add {th : Themes T X A R} {factory : Nat → X → Option F} {s : State T X F G A R} (h : Inv th factory s)
    (i : Nat) (t : T) (lang : Option G) (b : Bool) : Inv th factory (addTheme th i t lang b s) where
  same := h.same
  once := by
    intro j
    simp only [addTheme, State.set]
    split
    · exact put_once _ _ _ (h.once i)
    · exact h.once j
  made := by
    intro j q hq
    simp only [addTheme, State.set] at hq
    split at hq
    · rename_i hj
      rcases put_mem _ _ _ q hq with rfl | hq
      · exact ⟨t, b, by rw [h.same, hj]⟩
      · rw [hj]; exact h.made i q hq
    · exact h.made j q hq

theorem inv_set {th : Themes T X A R} {factory : Nat → X → Option F} {s : State T X F G A R} (h : Inv th factory s)
    (i : Nat) (d : Caches T F G A R) (hd : d.Sublist (s.caches i)) : Inv th factory (s.set i d) where
  same := h.same
  once := by
    intro j
    simp only [State.set]
    split
    · exact (hd.map _).nodup (h.once i)
    · exact h.once j
  made := by
    intro j q hq
    simp only [State.set] at hq
    split at hq
    · rename_i hj; subst hj; exact h.made j q (hd.subset hq)
    · exact h.made j q hq

/-- The loop of `copy_themes` adds all themes. -/
theorem copy_loop (th : Themes T X A R) (factory : Nat → X → Option F) (i j : Nat) : ∀ (d : Caches T F G A R)
    (s : State T X F G A R), Inv th factory s → Once d →
    (∀ q ∈ d, ∃ t b, q.2 = mkCache th (factory j) t b) →
    (copyLoop th i d s).2 = false ∧ Inv th factory (copyLoop th i d s).1 ∧
    (∀ k, k ≠ i → (copyLoop th i d s).1.caches k = s.caches k) ∧
    (∀ lang c, look lang d = some c → ∃ t, c.theme = some t ∧
      look lang ((copyLoop th i d s).1.caches i) = some (mkCache th (factory i) t c.base.isSome)) ∧
    (∀ lang, look lang d = none → look lang ((copyLoop th i d s).1.caches i) = look lang (s.caches i))
  | [], s, hi, _, _ => ⟨rfl, hi, fun _ _ => rfl, (fun _ _ h => by cases h), fun _ _ => rfl⟩
  | (k, c) :: d, s, hi, ho, hm => by
    simp only [Once, List.map_cons, List.nodup_cons] at ho
    obtain ⟨t, b, hc⟩ := hm (k, c) (by simp)
    simp only at hc
    have ht : c.theme = some t := by rw [hc]; rfl
    obtain ⟨h1, h2, h3, h4, h5⟩ := copy_loop th factory i j d (addTheme th i t k c.base.isSome s)
      (inv_add hi i t k _) ho.2 (fun q hq => hm q (by simp [hq]))
    have he : copyLoop th i ((k, c) :: d) s = copyLoop th i d (addTheme th i t k c.base.isSome s) := by
      simp only [copyLoop, ht]
    rw [he]
    refine ⟨h1, h2, ?_, ?_, ?_⟩
    · intro m hm'
      rw [h3 m hm']
      simp [addTheme, State.set, hm']
    · intro lang c' hl
      simp only [look] at hl
      split at hl
      · rename_i hk
        cases hl
        refine ⟨t, ht, ?_⟩
        rw [h5 lang (by rw [← hk]; exact look_none k d ho.1)]
        simp only [addTheme, State.set, if_true]
        rw [look_put, if_pos hk.symm, hi.same]
      · exact h4 lang c' hl
    · intro lang hl
      simp only [look] at hl
      split at hl
      · cases hl
      · rename_i hk
        rw [h5 lang hl]
        simp only [addTheme, State.set, if_true]
        rw [look_put, if_neg (Ne.symm hk)]

theorem inv_copy {th : Themes T X A R} {factory : Nat → X → Option F} {s : State T X F G A R} (h : Inv th factory s)
    (i j : Nat) : Inv th factory (copyThemes th i j s).1 := by
  have h1 := inv_set h i [] (List.nil_sublist _)
  exact (copy_loop th factory i j _ _ h1 (h1.once j) (h1.made j)).2.1

theorem reach_inv {th : Themes T X A R} {factory : Nat → X → Option F} {s : State T X F G A R}
    (h : Reach th factory s) : Inv th factory s := by
  induction h with
  | start => exact ⟨rfl, fun _ => by simp [Once], (fun _ _ h => by cases h)⟩
  | add i t lang b _ ih => exact inv_add ih i t lang b
  | @remove s s' i lang _ hr ih =>
    unfold removeTheme at hr
    cases hd : del lang (s.caches i) with
    | none => rw [hd] at hr; cases hr
    | some d =>
      rw [hd] at hr; cases hr
      exact inv_set ih i d (del_some lang _ _ (ih.once i) hd).1
  | copy i j _ ih => exact inv_copy ih i j

end Parce.Thm

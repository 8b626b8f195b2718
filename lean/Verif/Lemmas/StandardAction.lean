import Verif.Model.StandardAction

/-
Lemmas about standard actions.
-/

namespace Parce.SA

/-- The attributes that every action has itself. -/
def reserved : Option Nat → String → Prop
  | none, _ => False
  | some _, n => n = "_name" ∨ n = "_parent"

/-- A parent is made before its children. -/
def below : Option Nat → Nat → Prop
  | none, _ => True
  | some p, i => p < i

def holding : PC → Prop
  | .idle => False
  | .want _ _ => False
  | _ => True

structure Inv (s : St) : Prop where
  hold : ∀ t, holding (s.pc t) → s.lock = some t
  want : ∀ t p n, s.pc t = .want p n → s.exists? p
  look : ∀ t p n, s.pc t = .look p n → s.exists? p
  made : ∀ t p n i, s.pc t = .made p n i → i + 1 = s.size ∧ s.dict p n = some (.act i) ∧ ¬ reserved p n
  named : ∀ t p n i, s.pc t = .named p n i →
    i + 1 = s.size ∧ s.dict p n = some (.act i) ∧ ¬ reserved p n ∧ s.dict (some i) "_name" = some (.str n)
  fin : ∀ t p n v, s.pc t = .fin p n v → ¬ reserved p n → s.dict p n = some v
  objs : ∀ i, i < s.size → ∃ p n, ¬ reserved p n ∧ s.dict p n = some (.act i) ∧
    ((∃ t, s.pc t = .made p n i) ∨ (∃ t, s.pc t = .named p n i) ∨
      (s.dict (some i) "_name" = some (.str n) ∧ s.dict (some i) "_parent" = some (parentVal p)))
  key : ∀ p n v, ¬ reserved p n → s.dict p n = some v → ∃ i, v = .act i ∧ i < s.size ∧ below p i
  inj : ∀ p n p' n' i, ¬ reserved p n → ¬ reserved p' n' → s.dict p n = some (.act i) → s.dict p' n' = some (.act i) →
    p = p' ∧ n = n'
  res : ∀ p n v, (p, n, v) ∈ s.results → ¬ reserved p n → s.dict p n = some v
  empty : ∀ i n, s.size ≤ i → s.dict (some i) n = none

theorem Inv.init : Inv St.init := by
  constructor <;> simp [St.init, holding]

theorem holding_look (p n) : holding (.look p n) := trivial
theorem holding_made (p n i) : holding (.made p n i) := trivial
theorem holding_named (p n i) : holding (.named p n i) := trivial
theorem holding_fin (p n i) : holding (.fin p n i) := trivial
theorem holding_idle : ¬ holding .idle := id
theorem holding_want (p n) : ¬ holding (.want p n) := id

/-- When a thread has the lock and is looking, all actions are complete. -/
theorem Inv.complete {s : St} (h : Inv s) {t p n} (ht : s.pc t = .look p n) (i : Nat) (hi : i < s.size) :
    s.dict (some i) "_name" ≠ none ∧ s.dict (some i) "_parent" ≠ none := by
  obtain ⟨p', n', _, _, h3 | h3 | h3⟩ := h.objs i hi
  · obtain ⟨t', h3⟩ := h3
    have h1 := h.hold t (by rw [ht]; trivial)
    have h2 := h.hold t' (by rw [h3]; trivial)
    rw [h1] at h2; injection h2 with h2; subst h2; rw [ht] at h3; cases h3
  · obtain ⟨t', h3⟩ := h3
    have h1 := h.hold t (by rw [ht]; trivial)
    have h2 := h.hold t' (by rw [h3]; trivial)
    rw [h1] at h2; injection h2 with h2; subst h2; rw [ht] at h3; cases h3
  · rw [h3.1, h3.2]; simp

theorem Inv.step {s s' : St} (h : Inv s) (st : Step s s') : Inv s' := by
  cases st with
  | call t p n ht hp =>
    constructor
    · intro t' h1
      simp only [St.goto] at h1 ⊢
      split at h1
      · exact absurd h1 (holding_want _ _)
      · exact h.hold t' h1
    all_goals simp only [St.goto]
    · intro t' p' n' h1
      split at h1
      · injection h1 with h1 h2; subst h1; exact hp
      · exact h.want t' p' n' h1
    · intro t' p' n' h1
      split at h1
      · cases h1
      · exact h.look t' p' n' h1
    · intro t' p' n' i h1
      split at h1
      · cases h1
      · exact h.made t' p' n' i h1
    · intro t' p' n' i h1
      split at h1
      · cases h1
      · exact h.named t' p' n' i h1
    · intro t' p' n' v h1
      split at h1
      · cases h1
      · exact h.fin t' p' n' v h1
    · intro i hi
      obtain ⟨p', n', h1, h2, h3⟩ := h.objs i hi
      refine ⟨p', n', h1, h2, ?_⟩
      rcases h3 with ⟨t', h3⟩ | ⟨t', h3⟩ | h3
      · exact Or.inl ⟨t', by rw [if_neg]; exact h3; rintro rfl; rw [ht] at h3; cases h3⟩
      · exact Or.inr (Or.inl ⟨t', by rw [if_neg]; exact h3; rintro rfl; rw [ht] at h3; cases h3⟩)
      · exact Or.inr (Or.inr h3)
    · exact h.key
    · exact h.inj
    · exact h.res
    · exact h.empty
  | attr p n v hp hd =>
    exact ⟨h.hold, h.want, h.look, h.made, h.named, h.fin, h.objs, h.key, h.inj,
      fun p' n' v' h1 h2 => by
        rcases List.mem_cons.1 h1 with h1 | h1
        · injection h1 with h1 h3; injection h3 with h3 h4; subst h1 h3 h4; exact hd
        · exact h.res p' n' v' h1 h2, h.empty⟩
  | getattr t p n ht hp hd hn =>
    constructor
    · intro t' h1
      simp only [St.goto] at h1 ⊢
      split at h1
      · exact absurd h1 (holding_want _ _)
      · exact h.hold t' h1
    all_goals simp only [St.goto]
    · intro t' p' n' h1
      split at h1
      · injection h1 with h1 h2; subst h1; exact hp
      · exact h.want t' p' n' h1
    · intro t' p' n' h1
      split at h1
      · cases h1
      · exact h.look t' p' n' h1
    · intro t' p' n' i h1
      split at h1
      · cases h1
      · exact h.made t' p' n' i h1
    · intro t' p' n' i h1
      split at h1
      · cases h1
      · exact h.named t' p' n' i h1
    · intro t' p' n' v h1
      split at h1
      · cases h1
      · exact h.fin t' p' n' v h1
    · intro i hi
      obtain ⟨p', n', h1, h2, h3⟩ := h.objs i hi
      refine ⟨p', n', h1, h2, ?_⟩
      rcases h3 with ⟨t', h3⟩ | ⟨t', h3⟩ | h3
      · exact Or.inl ⟨t', by rw [if_neg]; exact h3; rintro rfl; rw [ht] at h3; cases h3⟩
      · exact Or.inr (Or.inl ⟨t', by rw [if_neg]; exact h3; rintro rfl; rw [ht] at h3; cases h3⟩)
      · exact Or.inr (Or.inr h3)
    · exact h.key
    · exact h.inj
    · exact h.res
    · exact h.empty
  | acquire t p n ht hl =>
    have hno : ∀ t', ¬ holding (s.pc t') := fun t' h1 => by have := h.hold t' h1; rw [hl] at this; cases this
    constructor
    · intro t' h1
      simp only [St.goto] at h1 ⊢
      split at h1
      · subst t'; rfl
      · exact absurd h1 (hno t')
    all_goals simp only [St.goto]
    · intro t' p' n' h1
      split at h1
      · cases h1
      · exact h.want t' p' n' h1
    · intro t' p' n' h1
      split at h1
      · injection h1 with h1 h2; subst h1; exact h.want t _ _ ht
      · exact h.look t' p' n' h1
    · intro t' p' n' i h1
      split at h1
      · cases h1
      · exact h.made t' p' n' i h1
    · intro t' p' n' i h1
      split at h1
      · cases h1
      · exact h.named t' p' n' i h1
    · intro t' p' n' v h1
      split at h1
      · cases h1
      · exact h.fin t' p' n' v h1
    · intro i hi
      obtain ⟨p', n', h1, h2, h3⟩ := h.objs i hi
      refine ⟨p', n', h1, h2, ?_⟩
      rcases h3 with ⟨t', h3⟩ | ⟨t', h3⟩ | h3
      · exact absurd (by rw [h3]; trivial) (hno t')
      · exact absurd (by rw [h3]; trivial) (hno t')
      · exact Or.inr (Or.inr h3)
    · exact h.key
    · exact h.inj
    · exact h.res
    · exact h.empty
  | found t p n v ht hd =>
    have hlock := h.hold t (by rw [ht]; trivial)
    have hno : ∀ t', t' ≠ t → ¬ holding (s.pc t') := fun t' h0 h1 => by
      have := h.hold t' h1; rw [hlock] at this; injection this with this; exact h0 this.symm
    constructor
    · intro t' h1
      simp only [St.goto] at h1 ⊢
      split at h1
      · subst t'; exact hlock
      · exact h.hold t' h1
    all_goals simp only [St.goto]
    · intro t' p' n' h1
      split at h1
      · cases h1
      · exact h.want t' p' n' h1
    · intro t' p' n' h1
      split at h1
      · cases h1
      · exact h.look t' p' n' h1
    · intro t' p' n' i h1
      split at h1
      · cases h1
      · exact h.made t' p' n' i h1
    · intro t' p' n' i h1
      split at h1
      · cases h1
      · exact h.named t' p' n' i h1
    · intro t' p' n' v h1
      split at h1
      · injection h1 with h1 h2 h3; subst h1 h2 h3; intro _; exact hd
      · exact h.fin t' p' n' v h1
    · intro i hi
      obtain ⟨p', n', h1, h2, h3⟩ := h.objs i hi
      refine ⟨p', n', h1, h2, ?_⟩
      rcases h3 with ⟨t', h3⟩ | ⟨t', h3⟩ | h3
      · exact Or.inl ⟨t', by rw [if_neg]; exact h3; rintro rfl; rw [ht] at h3; cases h3⟩
      · exact Or.inr (Or.inl ⟨t', by rw [if_neg]; exact h3; rintro rfl; rw [ht] at h3; cases h3⟩)
      · exact Or.inr (Or.inr h3)
    · exact h.key
    · exact h.inj
    · exact h.res
    · exact h.empty
  | make t p n ht hd =>
    have hlock := h.hold t (by rw [ht]; trivial)
    have hno : ∀ t', t' ≠ t → ¬ holding (s.pc t') := fun t' h0 h1 => by
      have := h.hold t' h1; rw [hlock] at this; injection this with this; exact h0 this.symm
    have hex := h.look t p n ht
    have hres : ¬ reserved p n := by
      intro hr
      cases p with
      | none => exact hr
      | some p =>
        have hc := h.complete ht p hex
        rcases hr with hr | hr
        · subst hr; exact hc.1 hd
        · subst hr; exact hc.2 hd
    have hbelow : below p s.size := by
      cases p with
      | none => trivial
      | some p => exact hex
    have hkeep : ∀ p' n' v, s.dict p' n' = some v → ¬ (p' = p ∧ n' = n) := by
      rintro p' n' v h1 ⟨rfl, rfl⟩; rw [hd] at h1; cases h1
    have hnew : ∀ p' n' i, s.dict p' n' = some (.act i) → ¬ reserved p' n' → i < s.size := by
      intro p' n' i h1 h2
      obtain ⟨j, h3, h4, _⟩ := h.key p' n' _ h2 h1
      injection h3 with h3; omega
    constructor
    · intro t' h1
      simp only [St.goto, St.put] at h1 ⊢
      split at h1
      · subst t'; exact hlock
      · exact h.hold t' h1
    all_goals simp only [St.goto, St.put]
    · intro t' p' n' h1
      split at h1
      · cases h1
      · have := h.want t' p' n' h1
        cases p' with
        | none => trivial
        | some p' => exact Nat.lt_succ_of_lt this
    · intro t' p' n' h1
      split at h1
      · cases h1
      · have := h.look t' p' n' h1
        cases p' with
        | none => trivial
        | some p' => exact Nat.lt_succ_of_lt this
    · intro t' p' n' i h1
      split at h1
      · injection h1 with h1 h2 h3; subst h1 h2 h3; exact ⟨rfl, by simp, hres⟩
      · rename_i hne
        exact absurd (by rw [h1]; trivial) (hno t' hne)
    · intro t' p' n' i h1
      split at h1
      · cases h1
      · rename_i hne
        exact absurd (by rw [h1]; trivial) (hno t' hne)
    · intro t' p' n' v h1
      split at h1
      · cases h1
      · rename_i hne
        exact absurd (by rw [h1]; trivial) (hno t' hne)
    · intro i hi
      by_cases hi' : i < s.size
      · obtain ⟨p', n', h1, h2, h3⟩ := h.objs i hi'
        refine ⟨p', n', h1, by rw [if_neg (hkeep _ _ _ h2)]; exact h2, ?_⟩
        rcases h3 with ⟨t', h3⟩ | ⟨t', h3⟩ | h3
        · by_cases hne : t' = t
          · subst hne; rw [ht] at h3; cases h3
          · exact absurd (by rw [h3]; trivial) (hno t' hne)
        · by_cases hne : t' = t
          · subst hne; rw [ht] at h3; cases h3
          · exact absurd (by rw [h3]; trivial) (hno t' hne)
        · refine Or.inr (Or.inr ⟨?_, ?_⟩)
          · rw [if_neg (hkeep _ _ _ h3.1)]; exact h3.1
          · rw [if_neg (hkeep _ _ _ h3.2)]; exact h3.2
      · have : i = s.size := by omega
        subst this
        exact ⟨p, n, hres, by simp, Or.inl ⟨t, by simp⟩⟩
    · intro p' n' v h1 h2
      split at h2
      · rename_i he; obtain ⟨rfl, rfl⟩ := he
        injection h2 with h2; subst h2
        exact ⟨s.size, rfl, Nat.lt_succ_self _, hbelow⟩
      · obtain ⟨i, h3, h4, h5⟩ := h.key p' n' v h1 h2
        exact ⟨i, h3, Nat.lt_succ_of_lt h4, h5⟩
    · intro p1 n1 p2 n2 i h1 h2 h3 h4
      split at h3
      · rename_i he; obtain ⟨rfl, rfl⟩ := he
        injection h3 with h3; injection h3 with h3; subst h3
        split at h4
        · rename_i he; exact ⟨he.1.symm, he.2.symm⟩
        · exact absurd (hnew _ _ _ h4 h2) (Nat.lt_irrefl _)
      · split at h4
        · rename_i he; obtain ⟨rfl, rfl⟩ := he
          injection h4 with h4; injection h4 with h4; subst h4
          exact absurd (hnew _ _ _ h3 h1) (Nat.lt_irrefl _)
        · exact h.inj p1 n1 p2 n2 i h1 h2 h3 h4
    · intro p' n' v h1 h2
      have := h.res p' n' v h1 h2
      rw [if_neg (hkeep _ _ _ this)]; exact this
    · intro i n' hi
      rw [if_neg]
      · exact h.empty i n' (by omega)
      · rintro ⟨rfl, _⟩
        have : i < s.size := hex
        omega
  | name t p n i ht =>
    have hlock := h.hold t (by rw [ht]; trivial)
    have hno : ∀ t', t' ≠ t → ¬ holding (s.pc t') := fun t' h0 h1 => by
      have := h.hold t' h1; rw [hlock] at this; injection this with this; exact h0 this.symm
    have hm := h.made t p n i ht
    have hkeep : ∀ p' n', ¬ reserved p' n' → ¬ (p' = some i ∧ n' = "_name") := by
      rintro p' n' h1 ⟨rfl, rfl⟩; exact h1 (Or.inl rfl)
    constructor
    · intro t' h1
      simp only [St.goto, St.put] at h1 ⊢
      split at h1
      · subst t'; exact hlock
      · exact h.hold t' h1
    all_goals simp only [St.goto, St.put]
    · intro t' p' n' h1
      split at h1
      · cases h1
      · exact h.want t' p' n' h1
    · intro t' p' n' h1
      split at h1
      · cases h1
      · exact h.look t' p' n' h1
    · intro t' p' n' i h1
      split at h1
      · cases h1
      · rename_i hne
        exact absurd (by rw [h1]; trivial) (hno t' hne)
    · intro t' p' n' i h1
      split at h1
      · injection h1 with h1 h2 h3; subst h1 h2 h3
        refine ⟨hm.1, ?_, hm.2.2, by simp⟩
        rw [if_neg (hkeep _ _ hm.2.2)]; exact hm.2.1
      · rename_i hne
        exact absurd (by rw [h1]; trivial) (hno t' hne)
    · intro t' p' n' v h1
      split at h1
      · cases h1
      · rename_i hne
        exact absurd (by rw [h1]; trivial) (hno t' hne)
    · intro j hj
      obtain ⟨p', n', h1, h2, h3⟩ := h.objs j hj
      refine ⟨p', n', h1, by rw [if_neg (hkeep _ _ h1)]; exact h2, ?_⟩
      by_cases hji : j = i
      · subst hji
        obtain ⟨rfl, rfl⟩ := h.inj p n p' n' j hm.2.2 h1 hm.2.1 h2
        exact Or.inr (Or.inl ⟨t, by simp⟩)
      · rcases h3 with ⟨t', h3⟩ | ⟨t', h3⟩ | h3
        · by_cases hne : t' = t
          · subst hne; rw [ht] at h3; injection h3 with _ _ h3; exact absurd h3.symm hji
          · exact absurd (by rw [h3]; trivial) (hno t' hne)
        · by_cases hne : t' = t
          · subst hne; rw [ht] at h3; cases h3
          · exact absurd (by rw [h3]; trivial) (hno t' hne)
        · refine Or.inr (Or.inr ⟨?_, ?_⟩)
          · rw [if_neg (by rintro ⟨h4, _⟩; injection h4 with h4; exact hji h4)]; exact h3.1
          · rw [if_neg (by rintro ⟨h4, _⟩; injection h4 with h4; exact hji h4)]; exact h3.2
    · intro p' n' v h1 h2
      rw [if_neg (hkeep _ _ h1)] at h2
      exact h.key p' n' v h1 h2
    · intro p1 n1 p2 n2 i h1 h2 h3 h4
      rw [if_neg (hkeep _ _ h1)] at h3
      rw [if_neg (hkeep _ _ h2)] at h4
      exact h.inj p1 n1 p2 n2 i h1 h2 h3 h4
    · intro p' n' v h1 h2
      rw [if_neg (hkeep _ _ h2)]
      exact h.res p' n' v h1 h2
    · intro j n' hj
      rw [if_neg]
      · exact h.empty j n' hj
      · rintro ⟨h4, _⟩; injection h4 with h4; omega
  | parent t p n i ht =>
    have hlock := h.hold t (by rw [ht]; trivial)
    have hno : ∀ t', t' ≠ t → ¬ holding (s.pc t') := fun t' h0 h1 => by
      have := h.hold t' h1; rw [hlock] at this; injection this with this; exact h0 this.symm
    have hm := h.named t p n i ht
    have hkeep : ∀ p' n', ¬ reserved p' n' → ¬ (p' = some i ∧ n' = "_parent") := by
      rintro p' n' h1 ⟨rfl, rfl⟩; exact h1 (Or.inr rfl)
    constructor
    · intro t' h1
      simp only [St.goto, St.put] at h1 ⊢
      split at h1
      · subst t'; exact hlock
      · exact h.hold t' h1
    all_goals simp only [St.goto, St.put]
    · intro t' p' n' h1
      split at h1
      · cases h1
      · exact h.want t' p' n' h1
    · intro t' p' n' h1
      split at h1
      · cases h1
      · exact h.look t' p' n' h1
    · intro t' p' n' i h1
      split at h1
      · cases h1
      · rename_i hne
        exact absurd (by rw [h1]; trivial) (hno t' hne)
    · intro t' p' n' i h1
      split at h1
      · cases h1
      · rename_i hne
        exact absurd (by rw [h1]; trivial) (hno t' hne)
    · intro t' p' n' v h1
      split at h1
      · injection h1 with h1 h2 h3; subst h1 h2 h3
        intro hr
        rw [if_neg (hkeep _ _ hr)]; exact hm.2.1
      · rename_i hne
        exact absurd (by rw [h1]; trivial) (hno t' hne)
    · intro j hj
      obtain ⟨p', n', h1, h2, h3⟩ := h.objs j hj
      refine ⟨p', n', h1, by rw [if_neg (hkeep _ _ h1)]; exact h2, ?_⟩
      by_cases hji : j = i
      · subst hji
        obtain ⟨rfl, rfl⟩ := h.inj p n p' n' j hm.2.2.1 h1 hm.2.1 h2
        refine Or.inr (Or.inr ⟨?_, by simp⟩)
        rw [if_neg (by simp)]; exact hm.2.2.2
      · rcases h3 with ⟨t', h3⟩ | ⟨t', h3⟩ | h3
        · by_cases hne : t' = t
          · subst hne; rw [ht] at h3; cases h3
          · exact absurd (by rw [h3]; trivial) (hno t' hne)
        · by_cases hne : t' = t
          · subst hne; rw [ht] at h3; injection h3 with _ _ h3; exact absurd h3.symm hji
          · exact absurd (by rw [h3]; trivial) (hno t' hne)
        · refine Or.inr (Or.inr ⟨?_, ?_⟩)
          · rw [if_neg (by rintro ⟨h4, _⟩; injection h4 with h4; exact hji h4)]; exact h3.1
          · rw [if_neg (by rintro ⟨h4, _⟩; injection h4 with h4; exact hji h4)]; exact h3.2
    · intro p' n' v h1 h2
      rw [if_neg (hkeep _ _ h1)] at h2
      exact h.key p' n' v h1 h2
    · intro p1 n1 p2 n2 i h1 h2 h3 h4
      rw [if_neg (hkeep _ _ h1)] at h3
      rw [if_neg (hkeep _ _ h2)] at h4
      exact h.inj p1 n1 p2 n2 i h1 h2 h3 h4
    · intro p' n' v h1 h2
      rw [if_neg (hkeep _ _ h2)]
      exact h.res p' n' v h1 h2
    · intro j n' hj
      rw [if_neg]
      · exact h.empty j n' hj
      · rintro ⟨h4, _⟩; injection h4 with h4; omega
  | release t p n v ht =>
    have hlock := h.hold t (by rw [ht]; trivial)
    have hno : ∀ t', t' ≠ t → ¬ holding (s.pc t') := fun t' h0 h1 => by
      have := h.hold t' h1; rw [hlock] at this; injection this with this; exact h0 this.symm
    constructor
    · intro t' h1
      simp only [St.goto] at h1 ⊢
      split at h1
      · exact absurd h1 holding_idle
      · rename_i hne; exact absurd h1 (hno t' hne)
    all_goals simp only [St.goto]
    · intro t' p' n' h1
      split at h1
      · cases h1
      · exact h.want t' p' n' h1
    · intro t' p' n' h1
      split at h1
      · cases h1
      · exact h.look t' p' n' h1
    · intro t' p' n' i h1
      split at h1
      · cases h1
      · exact h.made t' p' n' i h1
    · intro t' p' n' i h1
      split at h1
      · cases h1
      · exact h.named t' p' n' i h1
    · intro t' p' n' v h1
      split at h1
      · cases h1
      · exact h.fin t' p' n' v h1
    · intro i hi
      obtain ⟨p', n', h1, h2, h3⟩ := h.objs i hi
      refine ⟨p', n', h1, h2, ?_⟩
      rcases h3 with ⟨t', h3⟩ | ⟨t', h3⟩ | h3
      · exact Or.inl ⟨t', by rw [if_neg]; exact h3; rintro rfl; rw [ht] at h3; cases h3⟩
      · exact Or.inr (Or.inl ⟨t', by rw [if_neg]; exact h3; rintro rfl; rw [ht] at h3; cases h3⟩)
      · exact Or.inr (Or.inr h3)
    · exact h.key
    · exact h.inj
    · intro p' n' v' h1 h2
      rcases List.mem_cons.1 h1 with h1 | h1
      · injection h1 with h1 h3; injection h3 with h3 h4; subst h1 h3 h4; exact h.fin t _ _ _ ht h2
      · exact h.res p' n' v' h1 h2
    · exact h.empty

theorem Reach.inv {s : St} (h : Reach s) : Inv s := by
  induction h with
  | init => exact Inv.init
  | step _ st ih => exact ih.step st

end Parce.SA

import Verif.Spec.Re
/-!
# Lemmas about matching
-/
namespace Parce
variable {α L A : Type}

theorem rtg_bounds {R : Nat → Nat → Prop} {n : Nat} (h : ∀ p q, R p q → p ≤ q ∧ (q ≤ n ∨ q = p)) {p q : Nat}
    (hr : Relation.ReflTransGen R p q) : p ≤ q ∧ (q ≤ n ∨ q = p) := by
  induction hr with
  | refl => exact ⟨Nat.le_refl _, Or.inr rfl⟩
  | tail _ h2 ih => have := h _ _ h2; omega

/-- A match does not go back, and not beyond the end of the text. -/
theorem mat_bounds (t : List α) (a : Pat α) : ∀ p q, a.mat t p q → p ≤ q ∧ (q ≤ t.length ∨ q = p) := by
  induction a with
  | eps => intro p q h; simp only [Pat.mat] at h; omega
  | set f =>
    intro p q h
    obtain ⟨rfl, x, hx, _⟩ := h
    have := (List.getElem?_eq_some_iff.1 hx).1
    omega
  | test f => intro p q h; have := h.1; omega
  | cat a b iha ihb =>
    intro p q h
    obtain ⟨r, h1, h2⟩ := h
    have := iha _ _ h1
    have := ihb _ _ h2
    omega
  | alt a b iha ihb =>
    intro p q h
    rcases h with h | h
    · exact iha _ _ h
    · exact ihb _ _ h
  | star a ih => intro p q h; exact rtg_bounds ih h
  | lazy a ih => intro p q h; exact rtg_bounds ih h
  | grp i a ih => intro p q h; exact ih _ _ h
  | look neg a ih => intro p q h; cases neg <;> (have := h.1; omega)

theorem mem_starRun {step : Nat → Caps → List (Nat × Caps)} {R : Nat → Nat → Prop} {n : Nat}
    (hb : ∀ p q, R p q → p ≤ q ∧ (q ≤ n ∨ q = p))
    (hs : ∀ p c q, (∃ c', (q, c') ∈ step p c) ↔ R p q) :
    ∀ fuel p c q, n - p ≤ fuel → ((∃ c', (q, c') ∈ starRun step fuel p c) ↔ Relation.ReflTransGen R p q) := by
  intro fuel
  induction fuel with
  | zero =>
    intro p c q hf
    simp only [starRun, List.mem_singleton, Prod.mk.injEq, exists_eq_right]
    constructor
    · rintro rfl; exact .refl
    · intro h
      have := rtg_bounds hb h
      omega
  | succ k ih =>
    intro p c q hf
    simp only [starRun, List.mem_append, List.mem_flatMap, List.mem_singleton, Prod.mk.injEq]
    constructor
    · rintro ⟨c', ⟨r, h1, h2⟩ | ⟨rfl, _⟩⟩
      · split at h2
        · next hlt =>
          have hR : R p r.1 := (hs p c r.1).1 ⟨r.2, h1⟩
          exact .head hR ((ih r.1 r.2 q (by omega)).1 ⟨c', h2⟩)
        · cases h2
      · exact .refl
    · intro h
      induction h using Relation.ReflTransGen.head_induction_on with
      | refl => exact ⟨c, Or.inr ⟨rfl, rfl⟩⟩
      | @head p r h1 h2 ih2 =>
        by_cases hpr : p = r
        · subst hpr; exact ih2 hf
        · have := hb _ _ h1
          obtain ⟨c', hc'⟩ := (hs p c r).2 h1
          obtain ⟨c'', hc''⟩ := (ih r c' q (by omega)).2 h2
          refine ⟨c'', Or.inl ⟨(r, c'), hc', ?_⟩⟩
          rw [if_pos (by simp only; omega)]
          exact hc''

theorem mem_lazyRun {step : Nat → Caps → List (Nat × Caps)} (fuel p : Nat) (c : Caps) (r : Nat × Caps) :
    r ∈ lazyRun step fuel p c ↔ r ∈ starRun step fuel p c := by
  induction fuel generalizing p c with
  | zero => rfl
  | succ k ih =>
    simp only [lazyRun, starRun, List.mem_cons, List.mem_append, List.mem_flatMap]
    rw [or_comm]
    simp only [List.not_mem_nil, or_false]
    refine or_congr_left (exists_congr fun x => and_congr_right fun _ => ?_)
    split
    · exact ih _ _
    · rfl

/-- The matcher finds exactly the matches. -/
theorem run_mat (t : List α) (a : Pat α) : ∀ p c q, (∃ c', (q, c') ∈ a.run t p c) ↔ a.mat t p q := by
  induction a with
  | eps => intro p c q; simp [Pat.run, Pat.mat, eq_comm]
  | set f =>
    intro p c q
    simp only [Pat.run, Pat.mat]
    cases h : t[p]? with
    | none => simp
    | some x => by_cases hf : f x = true <;> simp [hf]
  | test f => intro p c q; by_cases h : f t p = true <;> simp [Pat.run, Pat.mat, h, eq_comm]
  | cat a b iha ihb =>
    intro p c q
    simp only [Pat.run, Pat.mat, List.mem_flatMap]
    constructor
    · rintro ⟨c', r, h1, h2⟩
      exact ⟨r.1, (iha p c r.1).1 ⟨r.2, h1⟩, (ihb r.1 r.2 q).1 ⟨c', h2⟩⟩
    · rintro ⟨r, h1, h2⟩
      obtain ⟨c1, h1⟩ := (iha p c r).2 h1
      obtain ⟨c2, h2⟩ := (ihb r c1 q).2 h2
      exact ⟨c2, _, h1, h2⟩
  | alt a b iha ihb =>
    intro p c q
    simp only [Pat.run, Pat.mat, List.mem_append, exists_or, iha, ihb]
  | star a ih => intro p c q; exact mem_starRun (mat_bounds t a) ih _ p c q (Nat.le_refl _)
  | lazy a ih =>
    intro p c q
    simp only [Pat.run, Pat.mat, mem_lazyRun]
    exact mem_starRun (mat_bounds t a) ih _ p c q (Nat.le_refl _)
  | grp i a ih =>
    intro p c q
    simp only [Pat.run, Pat.mat, ← ih p c q, List.mem_map, Prod.mk.injEq]
    constructor
    · rintro ⟨c', r, h1, rfl, _⟩; exact ⟨r.2, h1⟩
    · rintro ⟨c', h1⟩; exact ⟨_, _, h1, rfl, rfl⟩
  | look neg a ih =>
    intro p c q
    have hne : a.run t p c = [] ↔ ∀ r, ¬ a.mat t p r := by
      rw [List.eq_nil_iff_forall_not_mem]
      constructor
      · intro h r hr
        obtain ⟨c', hc'⟩ := (ih p c r).2 hr
        exact h _ hc'
      · intro h r hr
        exact h r.1 ((ih p c r.1).1 ⟨r.2, hr⟩)
    cases neg with
    | true =>
      simp only [Pat.run, Pat.mat, ← hne]
      cases h : a.run t p c <;> simp [eq_comm]
    | false =>
      have hne' : a.run t p c ≠ [] ↔ ∃ r, a.mat t p r := by rw [ne_eq, hne]; simp
      simp only [Pat.run, Pat.mat, ← hne']
      cases h : a.run t p c <;> simp [eq_comm]

theorem run_nil (t : List α) (a : Pat α) (p : Nat) (c : Caps) : a.run t p c = [] ↔ ∀ q, ¬ a.mat t p q := by
  rw [List.eq_nil_iff_forall_not_mem]
  constructor
  · intro h r hr
    obtain ⟨c', hc'⟩ := (run_mat t a p c r).2 hr
    exact h _ hc'
  · intro h r hr
    exact h r.1 ((run_mat t a p c r.1).1 ⟨r.2, hr⟩)

theorem run_bounds {t : List α} {a : Pat α} {p : Nat} {c : Caps} {r : Nat × Caps} (h : r ∈ a.run t p c) :
    p ≤ r.1 ∧ (r.1 ≤ t.length ∨ r.1 = p) :=
  mat_bounds t a p r.1 ((run_mat t a p c r.1).1 ⟨r.2, h⟩)

/-! ### The alternatives of a lexicon -/

theorem mem_allAt {t : List α} {p : Nat} {pats : List (Pat α)} {i : Nat} {m : Mtch RM} (h : m ∈ allAt t p i pats) :
    m.start = p ∧ p ≤ m.stop ∧ (m.stop ≤ t.length ∨ m.stop = p) ∧ i ≤ m.rest.index ∧
    ∃ a, pats[m.rest.index - i]? = some a ∧ a.mat t p m.stop := by
  induction pats generalizing i with
  | nil => cases h
  | cons a as ih =>
    simp only [allAt, List.mem_append, List.mem_map] at h
    rcases h with ⟨r, hr, rfl⟩ | h
    · have hb := run_bounds hr
      refine ⟨rfl, hb.1, hb.2, Nat.le_refl _, a, by simp, (run_mat t a p [] r.1).1 ⟨r.2, hr⟩⟩
    · obtain ⟨h1, h2, h3, h4, b, h5, h6⟩ := ih h
      refine ⟨h1, h2, h3, by omega, b, ?_, h6⟩
      rw [show m.rest.index - i = (m.rest.index - (i + 1)) + 1 by omega, List.getElem?_cons_succ]
      exact h5

theorem allAt_nil (t : List α) (p i : Nat) (pats : List (Pat α)) : allAt t p i pats = [] ↔ ¬ Starts pats t p := by
  induction pats generalizing i with
  | nil => simp [allAt, Starts]
  | cons a as ih =>
    simp only [allAt, List.append_eq_nil_iff, List.map_eq_nil_iff, ih, run_nil]
    simp only [Starts, List.mem_cons, exists_eq_or_imp, not_or]
    simp

/-- The first match is of the first pattern that matches, and it is its first match. -/
theorem head_allAt {t : List α} {p : Nat} {pats : List (Pat α)} {i : Nat} {m : Mtch RM}
    (h : (allAt t p i pats).head? = some m) :
    ∃ a r, pats[m.rest.index - i]? = some a ∧ (a.run t p []).head? = some r ∧ m = ⟨p, r.1, ⟨m.rest.index, Caps.rel p r.2⟩⟩ ∧
      i ≤ m.rest.index ∧ ∀ j b, pats[j]? = some b → j < m.rest.index - i → ∀ q, ¬ b.mat t p q := by
  induction pats generalizing i with
  | nil => cases h
  | cons a as ih =>
    simp only [allAt, List.head?_append] at h
    cases hr : a.run t p [] with
    | nil =>
      rw [hr] at h
      simp only [List.map_nil, List.head?_nil, Option.none_or] at h
      obtain ⟨b, r, h1, h2, h3, h4, h5⟩ := ih h
      refine ⟨b, r, ?_, h2, h3, by omega, ?_⟩
      · rw [show m.rest.index - i = (m.rest.index - (i + 1)) + 1 by omega, List.getElem?_cons_succ]; exact h1
      · intro j c hj hlt q
        cases j with
        | zero =>
          simp only [List.getElem?_cons_zero, Option.some.injEq] at hj
          subst hj
          exact (run_nil t a p []).1 hr q
        | succ j =>
          rw [List.getElem?_cons_succ] at hj
          exact h5 j c hj (by omega) q
    | cons r rs =>
      rw [hr] at h
      simp only [List.map_cons, List.head?_cons, Option.some_or, Option.some.injEq] at h
      subst h
      exact ⟨a, r, by simp, by simp [hr], rfl, Nat.le_refl _, fun j b _ hj => absurd hj (by simp)⟩

theorem rxMatch_some {pats : List (Pat α)} {t : List α} {p : Nat} {m : Mtch RM} (h : rxMatch pats t p = some m) :
    m.start = p ∧ p ≤ m.stop ∧ m.stop ≤ t.length := by
  unfold rxMatch at h
  split at h
  · obtain ⟨h1, h2, h3, _⟩ := mem_allAt (List.mem_of_mem_head? h)
    exact ⟨h1, h2, by omega⟩
  · cases h

theorem rxMatch_none {pats : List (Pat α)} {t : List α} {p : Nat} (hp : p ≤ t.length) :
    rxMatch pats t p = none ↔ ¬ Starts pats t p := by
  unfold rxMatch
  rw [if_pos hp, List.head?_eq_none_iff, allAt_nil]

theorem rxScan_some {pats : List (Pat α)} {t : List α} {fuel p : Nat} {m : Mtch RM} (h : rxScan pats t fuel p = some m) :
    p ≤ m.start ∧ rxMatch pats t m.start = some m ∧ ∀ i, p ≤ i → i < m.start → rxMatch pats t i = none := by
  induction fuel generalizing p with
  | zero => cases h
  | succ k ih =>
    unfold rxScan at h
    split at h
    · next m' hm =>
      injection h with h; subst h
      have := (rxMatch_some hm).1
      subst this
      exact ⟨Nat.le_refl _, hm, fun i h1 h2 => by omega⟩
    · next hm =>
      obtain ⟨h1, h2, h3⟩ := ih h
      refine ⟨by omega, h2, fun i hi1 hi2 => ?_⟩
      by_cases hip : i = p
      · rw [hip]; exact hm
      · exact h3 i (by omega) hi2

theorem rxScan_none {pats : List (Pat α)} {t : List α} {fuel p : Nat} :
    rxScan pats t fuel p = none ↔ ∀ i, p ≤ i → i < p + fuel → rxMatch pats t i = none := by
  induction fuel generalizing p with
  | zero => simp only [rxScan, true_iff]; intro i h1 h2; omega
  | succ k ih =>
    unfold rxScan
    split
    · next m hm =>
      simp only [reduceCtorEq, false_iff]
      intro h
      rw [h p (Nat.le_refl _) (by omega)] at hm
      cases hm
    · next hm =>
      rw [ih]
      constructor
      · intro h i h1 h2
        by_cases hip : i = p
        · rw [hip]; exact hm
        · exact h i (by omega) (by omega)
      · intro h i h1 h2
        exact h i (by omega) (by omega)

theorem rxNonempty_some {pats : List (Pat α)} {t : List α} {p : Nat} {m : Mtch RM} (h : rxNonempty pats t p = some m) :
    m.start = p ∧ p < m.stop ∧ m.stop ≤ t.length := by
  obtain ⟨h1, _, h3, _⟩ := mem_allAt (List.mem_of_find?_eq_some h)
  have := List.find?_some h
  simp only [decide_eq_true_eq] at this
  exact ⟨h1, this, by omega⟩

/-- The scan from a match that was found. -/
theorem rxScan_start {pats : List (Pat α)} {t : List α} {p : Nat} {m : Mtch RM} (h : rxMatch pats t p = some m) :
    rxScan pats t (t.length + 1 - p) p = some m := by
  have := rxMatch_some h
  rw [show t.length + 1 - p = (t.length - p) + 1 by omega, rxScan, h]

/-- A search steps past the start position, or finds a match there. -/
theorem rxSearch_some {pats : List (Pat α)} {t : List α} {p : Nat} {b : Bool} {m : Mtch RM}
    (h : rxSearch pats t p b = some m) :
    p ≤ m.start ∧ m.start ≤ m.stop ∧ m.stop ≤ t.length ∧ (b = true → p < m.stop) ∧
    ((b = true ∧ m.start = p) ∨ rxMatch pats t m.start = some m) ∧
    ∀ i, p < i → i < m.start → rxMatch pats t i = none := by
  unfold rxSearch at h
  split at h
  · next hb =>
    split at h
    · next m' hm =>
      injection h with h; subst h
      obtain ⟨h1, h2, h3⟩ := rxNonempty_some hm
      exact ⟨by omega, by omega, h3, fun _ => h2, Or.inl ⟨hb, h1⟩, fun i _ _ => by omega⟩
    · obtain ⟨h1, h2, h3⟩ := rxScan_some h
      obtain ⟨_, h5, h6⟩ := rxMatch_some h2
      exact ⟨by omega, h5, h6, fun _ => by omega, Or.inr h2, fun i hi1 hi2 => h3 i (by omega) hi2⟩
  · next hb =>
    obtain ⟨h1, h2, h3⟩ := rxScan_some h
    obtain ⟨_, h5, h6⟩ := rxMatch_some h2
    exact ⟨h1, h5, h6, fun h => absurd h hb, Or.inr h2, fun i hi1 hi2 => h3 i (by omega) hi2⟩

theorem rxSearch_none {pats : List (Pat α)} {t : List α} {p : Nat} {b : Bool} (h : rxSearch pats t p b = none) :
    ∀ i, p < i → i ≤ t.length → rxMatch pats t i = none := by
  intro i h1 h2
  unfold rxSearch at h
  split at h
  · split at h
    · cases h
    · exact rxScan_none.1 h i (by omega) (by omega)
  · exact rxScan_none.1 h i (by omega) (by omega)

theorem compile_ok (noAct : A) (rules : List (PRule α L A)) (d : Dflt α L A) : LexOK (compile noAct rules d) := by
  unfold compile
  cases rules with
  | nil => trivial
  | cons r rs =>
    refine ⟨fun t p b m h => ?_, fun t p m h => rxMatch_some h⟩
    obtain ⟨h1, h2, h3, h4, _⟩ := rxSearch_some h
    exact ⟨h1, h2, h3, h4⟩

theorem compile_leftmost (noAct : A) (rules : List (PRule α L A)) (d : Dflt α L A) : Leftmost (compile noAct rules d) := by
  unfold compile
  cases rules with
  | nil => trivial
  | cons r rs =>
    refine ⟨fun t p b m h hlt => ?_, fun t p b q h hlt hq => ?_⟩
    · obtain ⟨_, _, _, _, h5, _⟩ := rxSearch_some h
      rcases h5 with ⟨_, h5⟩ | h5
      · omega
      · unfold rxSearch
        rw [if_neg (by simp)]
        exact rxScan_start h5
    · have := rxSearch_none h
      unfold rxSearch
      rw [if_neg (by simp)]
      exact rxScan_none.2 (fun i h1 h2 => this i (by omega) (by omega))

end Parce

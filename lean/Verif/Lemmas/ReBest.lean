import Verif.Lemmas.Goes
/-!
# Which end an expression prefers
-/
namespace Parce
variable {α : Type} {t : List α}

/-- The expression matches at `p`, and its first match ends at `q`, without captured groups. -/
def Best (t : List α) (a : Pat α) (p q : Nat) : Prop := ∀ c, ∃ r, a.run t p c = (q, c) :: r

/-- The expression does not match at `p`. -/
def Fails (t : List α) (a : Pat α) (p : Nat) : Prop := ∀ q, ¬ a.mat t p q

theorem Fails.run {a : Pat α} {p : Nat} (h : Fails t a p) (c : Caps) : a.run t p c = [] := (run_nil t a p c).2 h

theorem best_eps (p : Nat) : Best t .eps p p := fun c => ⟨[], rfl⟩

theorem best_set {f : α → Bool} {p : Nat} {x : α} (h : t[p]? = some x) (hf : f x = true) : Best t (.set f) p (p + 1) :=
  fun c => ⟨[], by simp [Pat.run, h, hf]⟩

theorem best_test {f : List α → Nat → Bool} {p : Nat} (h : f t p = true) : Best t (.test f) p p :=
  fun c => ⟨[], by simp [Pat.run, h]⟩

theorem Best.cat {a b : Pat α} {p q r : Nat} (h1 : Best t a p q) (h2 : Best t b q r) : Best t (.cat a b) p r := by
  intro c
  obtain ⟨x, hx⟩ := h1 c
  obtain ⟨y, hy⟩ := h2 c
  exact ⟨_, by simp only [Pat.run, hx, List.flatMap_cons, hy, List.cons_append]; rfl⟩

theorem Best.alt {a b : Pat α} {p q : Nat} (h1 : Best t a p q) : Best t (.alt a b) p q := by
  intro c
  obtain ⟨x, hx⟩ := h1 c
  exact ⟨_, by simp only [Pat.run, hx, List.cons_append]; rfl⟩

theorem Best.alt' {a b : Pat α} {p q : Nat} (h : Fails t a p) (h1 : Best t b p q) : Best t (.alt a b) p q := by
  intro c
  obtain ⟨x, hx⟩ := h1 c
  exact ⟨x, by simp only [Pat.run, h.run, hx, List.nil_append]⟩

theorem Best.opt {a : Pat α} {p q : Nat} (h1 : Best t a p q) : Best t a.opt p q := h1.alt

theorem best_opt_none {a : Pat α} {p : Nat} (h : Fails t a p) : Best t a.opt p p := .alt' h (best_eps p)

/-- `[...]*` takes all that it can. -/
theorem best_star {f : α → Bool} (w : List α) : ∀ {p : Nat} {post : List α}, t.drop p = w ++ post → (∀ x ∈ w, f x = true) →
    (∀ x, post.head? = some x → f x = false) → Best t (.star (.set f)) p (p + w.length) := by
  suffices h : ∀ (w : List α) (fuel p : Nat) (post : List α), t.drop p = w ++ post → (∀ x ∈ w, f x = true) →
      (∀ x, post.head? = some x → f x = false) → w.length ≤ fuel → ∀ c,
      ∃ r, starRun ((Pat.set f).run t) fuel p c = (p + w.length, c) :: r by
    intro p post h1 h2 h3 c
    have := congrArg List.length h1
    simp only [List.length_drop, List.length_append] at this
    exact h w (t.length - p) p post h1 h2 h3 (by omega) c
  intro w
  induction w with
  | nil =>
    intro fuel p post h1 _ h3 _ c
    cases fuel with
    | zero => exact ⟨[], rfl⟩
    | succ n =>
      have hh := drop_head h1
      simp only [List.nil_append] at hh
      refine ⟨[], ?_⟩
      simp only [starRun, Pat.run]
      cases hp : post.head? with
      | none => rw [hp] at hh; simp [hh]
      | some x => rw [hp] at hh; simp [hh, h3 x hp]
  | cons x w ih =>
    intro fuel p post h1 h2 h3 hf c
    cases fuel with
    | zero => simp at hf
    | succ n =>
      simp only [List.length_cons] at hf
      have hx := drop_get h1
      have hd : t.drop (p + 1) = w ++ post := by rw [← List.drop_drop, h1]; rfl
      obtain ⟨r, hr⟩ := ih n (p + 1) post hd (fun y hy => h2 y (List.mem_cons_of_mem _ hy)) h3 (by omega) c
      refine ⟨r ++ [(p, c)], ?_⟩
      simp only [starRun, Pat.run, hx, h2 x (List.mem_cons_self ..), if_true, List.flatMap_cons, List.flatMap_nil, List.append_nil,
        Nat.lt_add_one]
      simp only [Pat.run] at hr
      rw [hr]
      simp only [List.length_cons, List.cons_append, List.cons.injEq, Prod.mk.injEq, and_true]
      omega

theorem best_plus {f : α → Bool} {w : List α} {p : Nat} {post : List α} (h1 : t.drop p = w ++ post) (hw : w ≠ [])
    (h2 : ∀ x ∈ w, f x = true) (h3 : ∀ x, post.head? = some x → f x = false) : Best t (.plus (.set f)) p (p + w.length) := by
  cases w with
  | nil => exact absurd rfl hw
  | cons x w =>
    have hd : t.drop (p + 1) = w ++ post := by rw [← List.drop_drop, h1]; rfl
    have := (best_set (f := f) (drop_get h1) (h2 x (List.mem_cons_self ..))).cat
      (best_star w hd (fun y hy => h2 y (List.mem_cons_of_mem _ hy)) h3)
    simp only [List.length_cons]
    rw [show p + (w.length + 1) = p + 1 + w.length by omega]
    exact this

theorem best_str [DecidableEq α] (w : List α) : ∀ {p : Nat} {post : List α}, t.drop p = w ++ post → Best t (Pat.str w) p (p + w.length) := by
  induction w with
  | nil => intro p post _; exact best_eps p
  | cons c w ih =>
    intro p post h
    have h1 : Best t (Pat.chr c) p (p + 1) := best_set (drop_get h) (by simp)
    cases w with
    | nil => exact h1
    | cons c' w =>
      have hd : t.drop (p + 1) = (c' :: w) ++ post := by rw [← List.drop_drop, h]; rfl
      have := h1.cat (ih hd)
      rw [show p + (c :: c' :: w).length = p + 1 + (c' :: w).length by simp; omega]
      exact this

/-- What is matched by a string. -/
theorem str_mat [DecidableEq α] (w : List α) : ∀ {p q : Nat}, (Pat.str w).mat t p q → q = p + w.length ∧ ∃ post, t.drop p = w ++ post := by
  induction w with
  | nil => intro p q h; exact ⟨h.symm, _, rfl⟩
  | cons c w ih =>
    intro p q h
    have hchr : ∀ {p q : Nat}, (Pat.chr c).mat t p q → q = p + 1 ∧ t[p]? = some c := by
      intro p q h
      obtain ⟨h1, x, h2, h3⟩ := h
      simp only [beq_iff_eq] at h3
      exact ⟨h1, by rw [h2, h3]⟩
    have hdrop : ∀ {p : Nat}, t[p]? = some c → t.drop p = c :: t.drop (p + 1) := by
      intro p hp
      obtain ⟨h1, h2⟩ := List.getElem?_eq_some_iff.1 hp
      rw [List.drop_eq_getElem_cons h1, h2]
    cases w with
    | nil =>
      obtain ⟨h1, h2⟩ := hchr h
      exact ⟨h1, _, hdrop h2⟩
    | cons c' w =>
      obtain ⟨r, h1, h2⟩ := h
      obtain ⟨rfl, h3⟩ := hchr h1
      obtain ⟨rfl, post, h4⟩ := ih h2
      refine ⟨by simp; omega, post, ?_⟩
      rw [hdrop h3, h4]; rfl

theorem chr_fails [DecidableEq α] {c : α} {w : List α} {p : Nat} (h : t[p]? ≠ some c) : Fails t (Pat.str (c :: w)) p := by
  intro q hq
  obtain ⟨_, post, h2⟩ := str_mat _ hq
  exact h (drop_get h2)

/-- The match of the first alternative that does not fail. -/
theorem rxMatch_best {ps qs : List (Pat α)} {a : Pat α} {p q : Nat} (hf : ∀ b ∈ ps, Fails t b p) (h : Best t a p q)
    (hp : p ≤ t.length) : rxMatch (ps ++ a :: qs) t p = some ⟨p, q, ⟨ps.length, []⟩⟩ := by
  unfold rxMatch
  rw [if_pos hp]
  suffices h' : ∀ i, (allAt t p i (ps ++ a :: qs)).head? = some ⟨p, q, ⟨i + ps.length, []⟩⟩ by
    have := h' 0; rwa [Nat.zero_add] at this
  induction ps with
  | nil =>
    intro i
    obtain ⟨r, hr⟩ := h []
    simp only [List.nil_append, allAt, hr, List.map_cons, List.cons_append, List.head?_cons]
    rfl
  | cons b ps ih =>
    intro i
    have hb := (hf b (List.mem_cons_self ..)).run []
    simp only [List.cons_append, allAt, hb, List.map_nil, List.nil_append]
    rw [ih (fun b' hb' => hf b' (List.mem_cons_of_mem _ hb'))]
    simp only [List.length_cons]
    congr 3
    omega

end Parce

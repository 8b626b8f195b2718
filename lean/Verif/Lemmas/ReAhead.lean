import Verif.Lemmas.Re
import Verif.Spec.Rebuild
/-!
# How far regular expressions look
-/
namespace Parce
variable {α L A : Type}

/-- Two lists of ends agree until both go beyond `q - k`. -/
inductive Agree (k q : Nat) : List (Nat × Caps) → List (Nat × Caps) → Prop
  | nil : Agree k q [] []
  | cons (r : Nat × Caps) {l l' : List (Nat × Caps)} : Agree k q l l' → Agree k q (r :: l) (r :: l')
  | far (r r' : Nat × Caps) (l l' : List (Nat × Caps)) : q < r.1 + k → q < r'.1 + k → Agree k q (r :: l) (r' :: l')

theorem Agree.rfl' {k q : Nat} (l : List (Nat × Caps)) : Agree k q l l := by
  induction l with
  | nil => exact .nil
  | cons r l ih => exact .cons r ih

theorem Agree.append {k q : Nat} {a a' b b' : List (Nat × Caps)} (h : Agree k q a a') (h2 : Agree k q b b') :
    Agree k q (a ++ b) (a' ++ b') := by
  induction h with
  | nil => exact h2
  | cons r _ ih => exact .cons r ih
  | far r r' l l' h1 h3 => exact .far r r' _ _ h1 h3

theorem Agree.mono {k k' q : Nat} {a a' : List (Nat × Caps)} (h : Agree k q a a') (hk : k ≤ k') : Agree k' q a a' := by
  induction h with
  | nil => exact .nil
  | cons r _ ih => exact .cons r ih
  | far r r' l l' h1 h3 => exact .far r r' _ _ (by omega) (by omega)

theorem Agree.eq {k q : Nat} {a a' : List (Nat × Caps)} (h : Agree k q a a') (hb : ∀ r ∈ a, r.1 + k ≤ q) : a' = a := by
  induction h with
  | nil => rfl
  | cons r _ ih => rw [ih (fun x hx => hb x (List.mem_cons_of_mem _ hx))]
  | far r r' l l' h1 h3 => have := hb r (List.mem_cons_self ..); omega

theorem Agree.map {k q : Nat} {a a' : List (Nat × Caps)} (h : Agree k q a a') (f : Nat × Caps → Nat × Caps)
    (hf : ∀ r, (f r).1 = r.1) : Agree k q (a.map f) (a'.map f) := by
  induction h with
  | nil => exact .nil
  | cons r _ ih => exact .cons _ ih
  | far r r' l l' h1 h3 => exact .far _ _ _ _ (by rw [hf]; exact h1) (by rw [hf]; exact h3)

/-- Continuing after each of the ends, when continuing is always possible. -/
theorem Agree.flatMap {k q : Nat} {a a' : List (Nat × Caps)} (h : Agree k q a a')
    {g g' : Nat × Caps → List (Nat × Caps)} (P : Nat × Caps → Prop) (ha : ∀ r ∈ a, P r) (ha' : ∀ r ∈ a', P r)
    (hg : ∀ r, P r → r.1 + k ≤ q → Agree k q (g r) (g' r))
    (hn : ∀ r, P r → q < r.1 + k → g r ≠ [] ∧ g' r ≠ []) (hb : ∀ r x, x ∈ g r → r.1 ≤ x.1) (hb' : ∀ r x, x ∈ g' r → r.1 ≤ x.1) :
    Agree k q (a.flatMap g) (a'.flatMap g') := by
  have far : ∀ r r' (l l' : List (Nat × Caps)), P r → P r' → q < r.1 + k → q < r'.1 + k →
      Agree k q ((r :: l).flatMap g) ((r' :: l').flatMap g') := by
    intro r r' l l' hp hp' h1 h2
    rw [List.flatMap_cons, List.flatMap_cons]
    obtain ⟨x, xs, hx⟩ := List.exists_cons_of_ne_nil (hn r hp h1).1
    obtain ⟨y, ys, hy⟩ := List.exists_cons_of_ne_nil (hn r' hp' h2).2
    rw [hx, hy]
    have := hb r x (by rw [hx]; exact List.mem_cons_self ..)
    have := hb' r' y (by rw [hy]; exact List.mem_cons_self ..)
    exact .far _ _ _ _ (by omega) (by omega)
  induction h with
  | nil => exact .nil
  | @cons r l l' _ ih =>
    have hp := ha r (List.mem_cons_self ..)
    by_cases hq : r.1 + k ≤ q
    · rw [List.flatMap_cons, List.flatMap_cons]
      exact (hg r hp hq).append (ih (fun x hx => ha x (List.mem_cons_of_mem _ hx)) (fun x hx => ha' x (List.mem_cons_of_mem _ hx)))
    · exact far r r l l' hp hp (by omega) (by omega)
  | far r r' l l' h1 h3 => exact far r r' l l' (ha r (List.mem_cons_self ..)) (ha' r' (List.mem_cons_self ..)) h1 h3

theorem mat_maxLen (t : List α) (a : Pat α) : ∀ m, a.maxLen = some m → ∀ p q, a.mat t p q → q ≤ p + m := by
  induction a with
  | eps => intro m hm p q h; simp only [Pat.mat] at h; omega
  | set f => intro m hm p q h; simp only [Pat.maxLen, Option.some.injEq] at hm; have := h.1; omega
  | test f => intro m hm p q h; have := h.1; omega
  | cat a b iha ihb =>
    intro m hm p q h
    obtain ⟨r, h1, h2⟩ := h
    simp only [Pat.maxLen] at hm
    split at hm
    · next x y hx hy =>
      have := iha x hx p r h1
      have := ihb y hy r q h2
      simp only [Option.some.injEq] at hm
      omega
    · cases hm
  | alt a b iha ihb =>
    intro m hm p q h
    simp only [Pat.maxLen] at hm
    split at hm
    · next x y hx hy =>
      simp only [Option.some.injEq] at hm
      rcases h with h | h
      · have := iha x hx p q h; omega
      · have := ihb y hy p q h; omega
    · cases hm
  | star a ih => intro m hm; cases hm
  | lazy a ih => intro m hm; cases hm
  | grp i a ih => intro m hm p q h; exact ih m hm p q h
  | look neg a ih => intro m hm p q h; cases neg <;> (have := h.1; omega)

theorem run_maxLen {t : List α} {a : Pat α} {m p : Nat} {c : Caps} {r : Nat × Caps} (hm : a.maxLen = some m)
    (h : r ∈ a.run t p c) : r.1 ≤ p + m :=
  mat_maxLen t a m hm p r.1 ((run_mat t a p c r.1).1 ⟨r.2, h⟩)

theorem starRun_ne (step : Nat → Caps → List (Nat × Caps)) (fuel p : Nat) (c : Caps) : starRun step fuel p c ≠ [] := by
  cases fuel <;> simp [starRun]

theorem lazyRun_ne (step : Nat → Caps → List (Nat × Caps)) (fuel p : Nat) (c : Caps) : lazyRun step fuel p c ≠ [] := by
  cases fuel <;> simp [lazyRun]

theorem run_always (t : List α) (a : Pat α) : a.always = true → ∀ p c, a.run t p c ≠ [] := by
  induction a with
  | eps => intro _ p c; simp [Pat.run]
  | set f => intro h; cases h
  | test f => intro h; cases h
  | cat a b iha ihb =>
    intro h p c
    simp only [Pat.always, Bool.and_eq_true] at h
    obtain ⟨x, xs, hx⟩ := List.exists_cons_of_ne_nil (iha h.1 p c)
    simp only [Pat.run, hx, List.flatMap_cons]
    intro h'
    exact ihb h.2 _ _ (List.append_eq_nil_iff.1 h').1
  | alt a b iha ihb =>
    intro h p c h'
    simp only [Pat.always, Bool.or_eq_true] at h
    simp only [Pat.run, List.append_eq_nil_iff] at h'
    rcases h with h | h
    · exact iha h p c h'.1
    · exact ihb h p c h'.2
  | star a ih => intro _ p c; exact starRun_ne _ _ _ _
  | lazy a ih => intro _ p c; exact lazyRun_ne _ _ _ _
  | grp i a ih => intro h p c; simp only [Pat.run, ne_eq, List.map_eq_nil_iff]; exact ih h p c
  | look neg a ih => intro h; cases h

/-- A loop goes forward. -/
theorem starRun_bounds {step : Nat → Caps → List (Nat × Caps)} {n : Nat}
    (hs : ∀ p c r, r ∈ step p c → p ≤ r.1 ∧ (r.1 ≤ n ∨ r.1 = p)) :
    ∀ fuel p c r, r ∈ starRun step fuel p c → p ≤ r.1 ∧ (r.1 ≤ n ∨ r.1 = p) := by
  intro fuel
  induction fuel with
  | zero => intro p c r h; simp only [starRun, List.mem_singleton] at h; subst h; simp
  | succ k ih =>
    intro p c r h
    simp only [starRun, List.mem_append, List.mem_flatMap, List.mem_singleton] at h
    rcases h with ⟨x, hx, h⟩ | rfl
    · split at h
      · have := hs p c x hx
        have := ih _ _ _ h
        omega
      · cases h
    · simp

theorem lazyRun_bounds {step : Nat → Caps → List (Nat × Caps)} {n : Nat}
    (hs : ∀ p c r, r ∈ step p c → p ≤ r.1 ∧ (r.1 ≤ n ∨ r.1 = p)) (fuel p : Nat) (c : Caps) (r : Nat × Caps)
    (h : r ∈ lazyRun step fuel p c) : p ≤ r.1 ∧ (r.1 ≤ n ∨ r.1 = p) :=
  starRun_bounds hs fuel p c r ((mem_lazyRun fuel p c r).1 h)

theorem starRun_agree {step step' : Nat → Caps → List (Nat × Caps)} {n n' k q : Nat}
    (hs : ∀ p c r, r ∈ step p c → p ≤ r.1 ∧ (r.1 ≤ n ∨ r.1 = p))
    (hs' : ∀ p c r, r ∈ step' p c → p ≤ r.1 ∧ (r.1 ≤ n' ∨ r.1 = p))
    (ha : ∀ p c, p + k ≤ q → Agree k q (step p c) (step' p c)) (hk : 1 ≤ k) (hqn : q ≤ n) (hqn' : q ≤ n') :
    ∀ fuel fuel' p c, n - p ≤ fuel → n' - p ≤ fuel' → p + k ≤ q →
      Agree k q (starRun step fuel p c) (starRun step' fuel' p c) := by
  intro fuel
  induction fuel with
  | zero => intro fuel' p c h1 h2 h3; omega
  | succ f ih =>
    intro fuel' p c h1 h2 h3
    cases fuel' with
    | zero => omega
    | succ f' =>
      rw [starRun, starRun]
      refine Agree.append ?_ (Agree.rfl' _)
      refine (ha p c h3).flatMap (fun r => p ≤ r.1 ∧ (r.1 ≤ n ∨ r.1 = p ∨ r.1 ≤ n')) (fun r hr => ?_) (fun r hr => ?_) ?_ ?_ ?_ ?_
      · have := hs p c r hr; omega
      · have := hs' p c r hr; omega
      · intro r hp hr
        by_cases hlt : p < r.1
        · rw [if_pos hlt, if_pos hlt]
          exact ih f' r.1 r.2 (by omega) (by omega) hr
        · rw [if_neg hlt, if_neg hlt]; exact .nil
      · intro r hp hr
        rw [if_pos (by omega), if_pos (by omega)]
        exact ⟨starRun_ne _ _ _ _, starRun_ne _ _ _ _⟩
      · intro r x hx
        split at hx
        · exact (starRun_bounds hs _ _ _ _ hx).1
        · cases hx
      · intro r x hx
        split at hx
        · exact (starRun_bounds hs' _ _ _ _ hx).1
        · cases hx

theorem lazyRun_agree {step step' : Nat → Caps → List (Nat × Caps)} {n n' k q : Nat}
    (hs : ∀ p c r, r ∈ step p c → p ≤ r.1 ∧ (r.1 ≤ n ∨ r.1 = p))
    (hs' : ∀ p c r, r ∈ step' p c → p ≤ r.1 ∧ (r.1 ≤ n' ∨ r.1 = p))
    (ha : ∀ p c, p + k ≤ q → Agree k q (step p c) (step' p c)) (hk : 1 ≤ k) (hqn : q ≤ n) (hqn' : q ≤ n') :
    ∀ fuel fuel' p c, n - p ≤ fuel → n' - p ≤ fuel' → p + k ≤ q →
      Agree k q (lazyRun step fuel p c) (lazyRun step' fuel' p c) := by
  intro fuel
  induction fuel with
  | zero => intro fuel' p c h1 h2 h3; omega
  | succ f ih =>
    intro fuel' p c h1 h2 h3
    cases fuel' with
    | zero => omega
    | succ f' =>
      rw [lazyRun, lazyRun]
      refine Agree.cons _ ?_
      refine (ha p c h3).flatMap (fun r => p ≤ r.1 ∧ (r.1 ≤ n ∨ r.1 = p ∨ r.1 ≤ n')) (fun r hr => ?_) (fun r hr => ?_) ?_ ?_ ?_ ?_
      · have := hs p c r hr; omega
      · have := hs' p c r hr; omega
      · intro r hp hr
        by_cases hlt : p < r.1
        · rw [if_pos hlt, if_pos hlt]
          exact ih f' r.1 r.2 (by omega) (by omega) hr
        · rw [if_neg hlt, if_neg hlt]; exact .nil
      · intro r hp hr
        rw [if_pos (by omega), if_pos (by omega)]
        exact ⟨lazyRun_ne _ _ _ _, lazyRun_ne _ _ _ _⟩
      · intro r x hx
        split at hx
        · exact (lazyRun_bounds hs _ _ _ _ hx).1
        · cases hx
      · intro r x hx
        split at hx
        · exact (lazyRun_bounds hs' _ _ _ _ hx).1
        · cases hx

theorem take_get {t t' : List α} {q i : Nat} (h : t.take q = t'.take q) (hi : i < q) : t[i]? = t'[i]? := by
  have := congrArg (fun x => x[i]?) h
  simp only [List.getElem?_take] at this
  rwa [if_pos hi, if_pos hi] at this

/-- All ends found in two texts that are the same up to `q`, when the expression is decided before. -/
theorem run_fixed {t t' : List α} {q : Nat} (ht : t.take q = t'.take q) (hq : q ≤ t.length) (hq' : q ≤ t'.length) (a : Pat α) :
    ∀ k, a.Fixed k → ∀ p c, p + k ≤ q → a.run t p c = a.run t' p c := by
  induction a with
  | eps => intro k _ p c _; rfl
  | set f =>
    intro k hk p c hp
    simp only [Pat.Fixed] at hk
    simp only [Pat.run, take_get ht (show p < q by omega)]
  | test f => intro k hk p c hp; simp only [Pat.run, hk t t' p q ht hq hq' hp]
  | cat a b iha ihb =>
    intro k hk p c hp
    obtain ⟨hka, m, n, hm, hmn, hkb⟩ := hk
    simp only [Pat.run]
    rw [← iha k hka p c hp]
    have key : ∀ l : List (Nat × Caps), (∀ r ∈ l, r.1 + n ≤ q) →
        l.flatMap (fun r => b.run t r.1 r.2) = l.flatMap (fun r => b.run t' r.1 r.2) := by
      intro l
      induction l with
      | nil => intro _; rfl
      | cons r l ih =>
        intro h
        rw [List.flatMap_cons, List.flatMap_cons, ihb n hkb r.1 r.2 (h r (List.mem_cons_self ..)),
          ih (fun x hx => h x (List.mem_cons_of_mem _ hx))]
    exact key _ (fun r hr => by have := run_maxLen hm hr; omega)
  | alt a b iha ihb => intro k hk p c hp; simp only [Pat.run, iha k hk.1 p c hp, ihb k hk.2 p c hp]
  | star a ih => intro k hk; exact hk.elim
  | lazy a ih => intro k hk; exact hk.elim
  | grp i a ih => intro k hk p c hp; simp only [Pat.run, ih k hk p c hp]
  | look neg a ih => intro k hk p c hp; simp only [Pat.run, ih k hk p c hp]

/-- The ends found in two texts that are the same up to `q`. -/
theorem run_agree {t t' : List α} {q : Nat} (ht : t.take q = t'.take q) (hq : q ≤ t.length) (hq' : q ≤ t'.length) (a : Pat α) :
    ∀ k, a.Known k → ∀ p c, p + k ≤ q → Agree k q (a.run t p c) (a.run t' p c) := by
  induction a with
  | eps => intro k _ p c _; exact Agree.rfl' _
  | set f =>
    intro k hk p c hp
    simp only [Pat.Known] at hk
    simp only [Pat.run, take_get ht (show p < q by omega)]
    exact Agree.rfl' _
  | test f =>
    intro k hk p c hp
    simp only [Pat.run, hk t t' p q ht hq hq' hp]
    exact Agree.rfl' _
  | cat a b iha ihb =>
    intro k hk p c hp
    simp only [Pat.run]
    rcases hk with ⟨hka, hal, hkb⟩ | ⟨hka, m, n, hm, hmn, hkb⟩
    · exact (iha k hka p c hp).flatMap (fun _ => True) (fun _ _ => trivial) (fun _ _ => trivial)
        (fun r _ hr => ihb k hkb r.1 r.2 hr)
        (fun r _ _ => ⟨run_always t b hal _ _, run_always t' b hal _ _⟩) (fun r x hx => (run_bounds hx).1)
        (fun r x hx => (run_bounds hx).1)
    · rw [← run_fixed ht hq hq' a k hka p c hp]
      have key : ∀ l : List (Nat × Caps), (∀ r ∈ l, r.1 + n ≤ q) →
          Agree k q (l.flatMap (fun r => b.run t r.1 r.2)) (l.flatMap (fun r => b.run t' r.1 r.2)) := by
        intro l
        induction l with
        | nil => intro _; exact .nil
        | cons r l ih =>
          intro h
          rw [List.flatMap_cons, List.flatMap_cons]
          exact ((ihb n hkb r.1 r.2 (h r (List.mem_cons_self ..))).mono (by omega)).append
            (ih (fun x hx => h x (List.mem_cons_of_mem _ hx)))
      exact key _ (fun r hr => by have := run_maxLen hm hr; omega)
  | alt a b iha ihb => intro k hk p c hp; exact (iha k hk.1 p c hp).append (ihb k hk.2 p c hp)
  | star a ih =>
    intro k hk p c hp
    exact starRun_agree (fun p c r h => run_bounds h) (fun p c r h => run_bounds h) (ih k hk.1) hk.2 hq hq' _ _ p c
      (Nat.le_refl _) (Nat.le_refl _) hp
  | lazy a ih =>
    intro k hk p c hp
    exact lazyRun_agree (fun p c r h => run_bounds h) (fun p c r h => run_bounds h) (ih k hk.1) hk.2 hq hq' _ _ p c
      (Nat.le_refl _) (Nat.le_refl _) hp
  | grp i a ih => intro k hk p c hp; exact (ih k hk p c hp).map _ (fun _ => rfl)
  | look neg a ih =>
    intro k hk p c hp
    simp only [Pat.run, run_fixed ht hq hq' a k hk p c hp]
    exact Agree.rfl' _

/-! ### A lexicon -/

theorem agree_head {k q : Nat} {l l' : List (Nat × Caps)} (h : Agree k q l l') :
    (l = [] ∧ l' = []) ∨ (∃ r x x', l = r :: x ∧ l' = r :: x') ∨
    ∃ r r' x x', l = r :: x ∧ l' = r' :: x' ∧ q < r.1 + k ∧ q < r'.1 + k := by
  cases h with
  | nil => exact Or.inl ⟨rfl, rfl⟩
  | @cons r l l' _ => exact Or.inr (Or.inl ⟨r, l, l', rfl, rfl⟩)
  | far r r' l l' h1 h2 => exact Or.inr (Or.inr ⟨r, r', l, l', rfl, rfl, h1, h2⟩)

theorem allAt_agree {t t' : List α} {q k : Nat} (ht : t.take q = t'.take q) (hq : q ≤ t.length) (hq' : q ≤ t'.length)
    {pats : List (Pat α)} (hk : ∀ a ∈ pats, a.Known k) {p : Nat} (hp : p + k ≤ q) (i : Nat)
    (P : Mtch RM → Bool) (hP : ∀ m : Mtch RM, q < m.stop + k → P m = true) :
    (∀ m, (allAt t p i pats).find? P = some m → m.stop + k ≤ q → (allAt t' p i pats).find? P = some m) ∧
    ((allAt t p i pats).find? P = none → (allAt t' p i pats).find? P = none) := by
  induction pats generalizing i with
  | nil => refine ⟨fun m h _ => ?_, fun _ => rfl⟩; simp [allAt] at h
  | cons a as ih =>
    have ih := ih (fun b hb => hk b (List.mem_cons_of_mem _ hb)) (i + 1)
    have hag := run_agree ht hq hq' a k (hk a (List.mem_cons_self ..)) p [] hp
    simp only [allAt]
    generalize a.run t p [] = l0 at hag ⊢
    generalize a.run t' p [] = l1 at hag ⊢
    induction hag with
    | nil => simpa using ih
    | @cons r l l' _ ih2 =>
      simp only [List.map_cons, List.cons_append, List.find?_cons]
      split
      · exact ⟨fun m h _ => h, fun h => by cases h⟩
      · exact ih2
    | far r r' l l' h1 h2 =>
      simp only [List.map_cons, List.cons_append, List.find?_cons]
      rw [hP _ (by exact h1)]
      simp only
      refine ⟨fun m h hm => ?_, fun h => by cases h⟩
      simp only [Option.some.injEq] at h
      subst h
      simp only at hm
      omega

theorem rxMatch_agree {t t' : List α} {q k : Nat} (ht : t.take q = t'.take q) (hq : q ≤ t.length) (hq' : q ≤ t'.length)
    {pats : List (Pat α)} (hk : ∀ a ∈ pats, a.Known k) {p : Nat} (hp : p + k ≤ q) :
    (∀ m, rxMatch pats t p = some m → m.stop + k ≤ q → rxMatch pats t' p = some m) ∧
    (rxMatch pats t p = none → rxMatch pats t' p = none) := by
  have hh : ∀ l : List (Mtch RM), l.head? = l.find? (fun _ => true) := by intro l; cases l <;> rfl
  unfold rxMatch
  rw [if_pos (by omega), if_pos (by omega), hh, hh]
  exact allAt_agree ht hq hq' hk hp 0 _ (fun _ _ => rfl)

theorem rxScan_agree {t t' : List α} {q k : Nat} (ht : t.take q = t'.take q) (hq : q ≤ t.length) (hq' : q ≤ t'.length)
    {pats : List (Pat α)} (hk : ∀ a ∈ pats, a.Known k) {p : Nat} {m : Mtch RM}
    (h : rxScan pats t (t.length + 1 - p) p = some m) (hm : m.stop + k ≤ q) :
    rxScan pats t' (t'.length + 1 - p) p = some m := by
  obtain ⟨h1, h2, h3⟩ := rxScan_some h
  have h4 := rxMatch_some h2
  have h5 := (rxMatch_agree ht hq hq' hk (p := m.start) (by omega)).1 m h2 hm
  have key : ∀ n p, n = m.start - p → p ≤ m.start → (∀ i, p ≤ i → i < m.start → rxMatch pats t i = none) →
      rxScan pats t' (t'.length + 1 - p) p = some m := by
    intro n
    induction n with
    | zero => intro p hn hp _; rw [show p = m.start by omega]; exact rxScan_start h5
    | succ n ih =>
      intro p hn hp h
      rw [show t'.length + 1 - p = (t'.length - p) + 1 by omega, rxScan,
        (rxMatch_agree ht hq hq' hk (p := p) (by omega)).2 (h p (Nat.le_refl _) (by omega)), show t'.length - p = t'.length + 1 - (p + 1) by omega]
      exact ih (p + 1) (by omega) (by omega) (fun i hi => h i (by omega))
  exact key _ p rfl h1 h3

theorem rxSearch_agree {t t' : List α} {q k : Nat} (ht : t.take q = t'.take q) (hq : q ≤ t.length) (hq' : q ≤ t'.length)
    {pats : List (Pat α)} (hk : ∀ a ∈ pats, a.Known k) {p : Nat} {b : Bool} {m : Mtch RM}
    (h : rxSearch pats t p b = some m) (hm : m.stop + k ≤ q) : rxSearch pats t' p b = some m := by
  have hb := rxSearch_some h
  unfold rxSearch at h ⊢
  cases b with
  | false =>
    rw [if_neg (by simp)] at h ⊢
    exact rxScan_agree ht hq hq' hk h hm
  | true =>
    rw [if_pos rfl] at h ⊢
    have hn := allAt_agree ht hq hq' hk (p := p) (by omega) 0 (fun m => decide (p < m.stop))
      (fun m hm => by simp only [decide_eq_true_eq]; omega)
    unfold rxNonempty at h ⊢
    split at h
    · next m' hm' =>
      injection h with h; subst h
      rw [hn.1 _ hm' hm]
    · next hm' =>
      rw [hn.2 hm']
      rw [show t.length - p = t.length + 1 - (p + 1) by omega] at h
      rw [show t'.length - p = t'.length + 1 - (p + 1) by omega]
      exact rxScan_agree ht hq hq' hk h hm

theorem slice_take {t t' : List α} {q a b : Nat} (ht : t.take q = t'.take q) (hb : b ≤ q) : slice t a b = slice t' a b := by
  unfold slice
  have : t.take b = t'.take b := by
    have := congrArg (List.take b) ht
    rwa [List.take_take, List.take_take, Nat.min_eq_left hb] at this
  rw [this]

theorem ruleOut_agree {t t' : List α} {q : Nat} (ht : t.take q = t'.take q) (noAct : A) (rules : List (PRule α L A))
    {m : Mtch RM} (hm : m.stop ≤ q) : ruleOut noAct rules t' m = ruleOut noAct rules t m := by
  unfold ruleOut groupTexts
  rw [slice_take ht hm]

/-- A compiled lexicon looks at most `k` characters ahead. -/
theorem compile_ahead (noAct : A) (rules : List (PRule α L A)) (d : Dflt α L A) {k : Nat}
    (hk : ∀ r ∈ rules, r.pat.Known k) : RB.Ahead k (compile noAct rules d) := by
  unfold compile
  cases rules with
  | nil => cases d <;> trivial
  | cons r rs =>
    intro t t' q ht hq hq'
    have hk' : ∀ a ∈ (r :: rs).map (·.pat), a.Known k := by
      intro a ha
      obtain ⟨x, hx, rfl⟩ := List.mem_map.1 ha
      exact hk x hx
    refine ⟨fun p b m h hm => rxSearch_agree ht hq hq' hk' h hm, fun p m h hm => ?_, fun p h hp => ?_, fun m hm => ?_⟩
    · have := rxMatch_some h
      exact (rxMatch_agree ht hq hq' hk' (p := p) (by omega)).1 m h hm
    · exact (rxMatch_agree ht hq hq' hk' hp).2 h
    · exact ruleOut_agree ht noAct _ (by omega)

/-! ### Short forms -/

theorem bound_known (w : α → Bool) {k : Nat} (hk : 1 ≤ k) : (Pat.bound w).Known k := by
  intro t t' p q ht hq hq' hp
  simp only
  rw [take_get ht (show p < q by omega), take_get ht (show p - 1 < q by omega)]

theorem str_maxLen [DecidableEq α] (w : List α) : (Pat.str w).maxLen = some w.length := by
  induction w with
  | nil => rfl
  | cons c w ih =>
    cases w with
    | nil => rfl
    | cons d w =>
      simp only [Pat.str, Pat.maxLen, ih, Pat.chr, List.length_cons]
      congr 1; omega

theorem bound_fixed (w : α → Bool) {k : Nat} (hk : 1 ≤ k) : (Pat.bound w).Fixed k := bound_known w hk

theorem str_fixed [DecidableEq α] (w : List α) : ∀ k, w.length ≤ k → (Pat.str w).Fixed k := by
  induction w with
  | nil => intro k _; trivial
  | cons c w ih =>
    intro k hk
    simp only [List.length_cons] at hk
    cases w with
    | nil => exact hk
    | cons d w => exact ⟨by show 1 ≤ k; omega, 1, k - 1, rfl, by omega, ih (k - 1) (by omega)⟩

theorem str_known [DecidableEq α] (w : List α) : ∀ k, w.length ≤ k → (Pat.str w).Known k := by
  induction w with
  | nil => intro k _; trivial
  | cons c w ih =>
    intro k hk
    simp only [List.length_cons] at hk
    cases w with
    | nil => exact hk
    | cons d w => exact Or.inr ⟨by show 1 ≤ k; omega, 1, k - 1, rfl, by omega, ih (k - 1) (by omega)⟩

theorem alts_fixed {l : List (Pat α)} {k : Nat} (hk : 1 ≤ k) (h : ∀ a ∈ l, a.Fixed k) : (Pat.alts l).Fixed k := by
  induction l with
  | nil => exact hk
  | cons a l ih =>
    cases l with
    | nil => exact h a (by simp)
    | cons b l => exact ⟨h a (by simp), ih (fun x hx => h x (by simp [hx]))⟩

theorem alts_maxLen {l : List (Pat α)} {n : Nat} (hn : 1 ≤ n) (h : ∀ a ∈ l, ∃ m, a.maxLen = some m ∧ m ≤ n) :
    ∃ m, (Pat.alts l).maxLen = some m ∧ m ≤ n := by
  induction l with
  | nil => exact ⟨1, rfl, hn⟩
  | cons a l ih =>
    cases l with
    | nil => exact h a (by simp)
    | cons b l =>
      obtain ⟨m1, h1, h2⟩ := h a (by simp)
      obtain ⟨m2, h3, h4⟩ := ih (fun x hx => h x (by simp [hx]))
      exact ⟨max m1 m2, by simp only [Pat.alts, Pat.maxLen, h1, h3], by omega⟩

theorem alts_known {l : List (Pat α)} {k : Nat} (hk : 1 ≤ k) (h : ∀ a ∈ l, a.Known k) : (Pat.alts l).Known k := by
  induction l with
  | nil => exact hk
  | cons a l ih =>
    cases l with
    | nil => exact h a (by simp)
    | cons b l => exact ⟨h a (by simp), ih (fun x hx => h x (by simp [hx]))⟩

end Parce

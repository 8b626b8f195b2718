import Verif.Spec.Circular
import Verif.Lemmas.Lexer
/-!
# The detection of circular targets: chains of targets that enter at most one lexicon each
-/
namespace Parce.Circ
variable {L : Type}

/-- Endlessly many numbers below a bound: one comes twice. -/
theorem pigeon : ∀ (M : Nat) (g : Nat → Nat), (∀ i, i ≤ M → g i < M) → ∃ i j, i < j ∧ j ≤ M ∧ g i = g j
  | 0, g, h => absurd (h 0 (Nat.le_refl 0)) (Nat.not_lt_zero _)
  | M + 1, g, h => by
    by_cases hx : ∃ i, i ≤ M ∧ g i = g (M + 1)
    · obtain ⟨i, hi, e⟩ := hx
      exact ⟨i, M + 1, by omega, Nat.le_refl _, e⟩
    · have hne : ∀ i, i ≤ M → g i ≠ g (M + 1) := fun i hi e => hx ⟨i, hi, e⟩
      obtain ⟨i, j, h1, h2, h3⟩ := pigeon M (fun i => if g i = M then g (M + 1) else g i) (by
        intro i hi
        have h1 := h i (by omega)
        have h2 := h (M + 1) (Nat.le_refl _)
        have h3 := hne i hi
        split <;> omega)
      have hi := hne i (by omega)
      have hj := hne j (by omega)
      refine ⟨i, j, h1, by omega, ?_⟩
      split at h3 <;> split at h3 <;> omega

/-- A chain of targets that does not end: the stacks, the targets, and what was seen. -/
structure Chain (p B : Nat) (f : L → Option (Target L)) (S : Nat → List L) (T : Nat → Target L) (C : Nat → List (Nat × Nat × Nat)) : Prop where
  ne : ∀ i, S i ≠ []
  tgt : ∀ i top rest, S i = top :: rest → ∃ tg0, f top = some tg0 ∧ T i = clampPop (S i) tg0
  next : ∀ i, S (i + 1) = (T i).apply (S i)
  single : ∀ i, (T i).push.length ≤ 1
  act : ∀ i, (T i).pop = 0 → (T i).push ≠ []
  bound : ∀ i, (S i).length ≤ B
  circ : ∀ i, ((p, (S i).length - (T i).pop, (T i).push.length) ∈ C i ∧ (T i).push = [] ∧ C (i + 1) = []) ∨
    ((p, (S i).length - (T i).pop, (T i).push.length) ∉ C i ∧ C (i + 1) = (p, (S i).length - (T i).pop, (T i).push.length) :: C i)

/-- What is seen at a step. -/
def st (p : Nat) (S : Nat → List L) (T : Nat → Target L) (i : Nat) : Nat × Nat × Nat := (p, (S i).length - (T i).pop, (T i).push.length)

/-- The target of the lexicon at the top does not leave lexicons. -/
def Good (f : L → Option (Target L)) : List L → Prop
  | [] => True
  | x :: r => ∀ tg0, f x = some tg0 → (clampPop (x :: r) tg0).pop = 0

open Classical in
/-- The number of parts of the stack that are not good. -/
noncomputable def bads (f : L → Option (Target L)) : List L → Nat
  | [] => 0
  | x :: r => (if Good f (x :: r) then 0 else 1) + bads f r

theorem bads_drop (f : L → Option (Target L)) (s : List L) (n : Nat) : bads f (s.drop n) ≤ bads f s := by
  induction s generalizing n with
  | nil => simp
  | cons x r ih =>
    cases n with
    | zero => simp
    | succ n =>
      have := ih n
      simp only [List.drop_succ_cons, bads]
      omega

theorem bads_tail (f : L → Option (Target L)) (s : List L) : bads f s.tail ≤ bads f s := by
  cases s with
  | nil => simp
  | cons x r => simp only [List.tail_cons, bads]; omega

theorem clamp_lt (s : List L) (hs : s ≠ []) (tg : Target L) : (clampPop s tg).pop < s.length := by
  have := List.length_pos_iff.2 hs
  unfold clampPop
  split
  · simp only; omega
  · omega

/-- A sequence that does not increase is constant in the end. -/
theorem settles (u : Nat → Nat) (h : ∀ i, u (i + 1) ≤ u i) : ∃ N, ∀ i, N ≤ i → u i = u N := by
  have mono : ∀ i n, u (i + n) ≤ u i := by
    intro i n
    induction n with
    | zero => exact Nat.le_refl _
    | succ n ih => exact Nat.le_trans (h (i + n)) ih
  have key : ∀ v, ∀ N, u N = v → ∃ M, ∀ i, M ≤ i → u i = u M := by
    intro v
    induction v using Nat.strongRecOn with
    | _ v ih =>
      intro N hN
      by_cases hx : ∃ i, N ≤ i ∧ u i < v
      · obtain ⟨i, _, hlt⟩ := hx
        exact ih (u i) hlt i rfl
      · refine ⟨N, fun i hi => ?_⟩
        have h1 := mono N (i - N)
        rw [show N + (i - N) = i by omega] at h1
        have h2 : ¬ u i < v := fun hlt => hx ⟨i, hi, hlt⟩
        omega
  exact key (u 0) 0 rfl

variable {p B : Nat} {f : L → Option (Target L)} {S : Nat → List L} {T : Nat → Target L} {C : Nat → List (Nat × Nat × Nat)}

theorem Chain.lt (h : Chain p B f S T C) (i : Nat) : (T i).pop < (S i).length := by
  cases hs : S i with
  | nil => exact absurd hs (h.ne i)
  | cons top rest =>
    obtain ⟨tg0, _, e⟩ := h.tgt i top rest hs
    rw [← hs, e]
    exact clamp_lt _ (h.ne i) _

theorem Chain.len (h : Chain p B f S T C) (i : Nat) : (S (i + 1)).length = (S i).length - (T i).pop + (T i).push.length := by
  rw [h.next i, Target.apply]
  simp
  omega

theorem Chain.same (h : Chain p B f S T C) {i j : Nat} (e : S i = S j) : T i = T j ∧ S (i + 1) = S (j + 1) := by
  have ht : T i = T j := by
    cases hs : S i with
    | nil => exact absurd hs (h.ne i)
    | cons top rest =>
      obtain ⟨tg0, h1, h2⟩ := h.tgt i top rest hs
      obtain ⟨tg1, h3, h4⟩ := h.tgt j top rest (by rw [← e, hs])
      rw [h1] at h3
      cases h3
      rw [h2, h4, e]
  exact ⟨ht, by rw [h.next i, h.next j, ht, e]⟩

theorem Chain.shift (h : Chain p B f S T C) {i j : Nat} (e : S i = S j) (n : Nat) : S (i + n) = S (j + n) ∧ T (i + n) = T (j + n) := by
  induction n with
  | zero => exact ⟨e, (h.same e).1⟩
  | succ n ih =>
    have h1 := (h.same ih.1).2
    exact ⟨h1, (h.same (i := i + (n + 1)) (j := j + (n + 1)) h1).1⟩

theorem Chain.st_shift (h : Chain p B f S T C) {i j : Nat} (e : S i = S j) (n : Nat) : st p S T (i + n) = st p S T (j + n) := by
  have := h.shift e n
  unfold st
  rw [this.1, this.2]

/-- The number of bad parts below the top does not increase, and decreases when a bad part comes to the top by leaving lexicons. -/
theorem Chain.bads_step (h : Chain p B f S T C) (i : Nat) :
    bads f (S (i + 1)).tail ≤ bads f (S i).tail ∧
    ((T i).push = [] → ¬ Good f (S (i + 1)) → bads f (S (i + 1)).tail < bads f (S i).tail) := by
  obtain ⟨top, rest, hs⟩ : ∃ top rest, S i = top :: rest := by
    cases hs : S i with
    | nil => exact absurd hs (h.ne i)
    | cons top rest => exact ⟨top, rest, rfl⟩
  have hn := h.next i
  unfold Target.apply at hn
  by_cases hp : (T i).pop = 0
  · have hpush := h.act i hp
    obtain ⟨tg0, h1, h2⟩ := h.tgt i top rest hs
    have hg : Good f (S i) := by
      rw [hs]
      intro tg1 h3
      rw [h1] at h3
      cases h3
      rw [← hs, ← h2]
      exact hp
    have hl : ∃ a, (T i).push = [a] := by
      have h3 := h.single i
      cases hc : (T i).push with
      | nil => exact absurd hc hpush
      | cons a r =>
        rw [hc] at h3
        cases r with
        | nil => exact ⟨a, rfl⟩
        | cons b r => simp at h3
    obtain ⟨a, ha⟩ := hl
    rw [ha, hp] at hn
    simp at hn
    refine ⟨?_, fun e => absurd e hpush⟩
    rw [hn, hs]
    rw [hs] at hg
    simp only [List.tail_cons, bads, if_pos hg]
    omega
  · have hd : (S i).drop (T i).pop = (S i).tail.drop ((T i).pop - 1) := by
      rw [hs, List.tail_cons]
      obtain ⟨n, hn⟩ : ∃ n, (T i).pop = n + 1 := ⟨(T i).pop - 1, by omega⟩
      rw [hn]
      rfl
    have hb := bads_drop f (S i).tail ((T i).pop - 1)
    rw [← hd] at hb
    have hsingle := h.single i
    cases hc : (T i).push with
    | nil =>
      rw [hc] at hn
      simp at hn
      rw [hn]
      refine ⟨Nat.le_trans (bads_tail f _) hb, fun _ hg => ?_⟩
      cases hx : (S i).drop (T i).pop with
      | nil => rw [hx] at hg; exact absurd trivial hg
      | cons x r =>
        rw [hx] at hg hb
        simp only [bads, if_neg hg, List.tail_cons] at hb ⊢
        omega
    | cons a r =>
      rw [hc] at hn hsingle
      cases r with
      | cons b r => simp at hsingle
      | nil =>
        simp at hn
        refine ⟨?_, fun e => by cases e⟩
        rw [hn, List.tail_cons]
        exact hb

/-- In the end, when lexicons are left, the lexicon that comes to the top enters another one. -/
theorem Chain.again (h : Chain p B f S T C) : ∃ N, ∀ i, N ≤ i → (T i).push = [] → st p S T (i + 1) = (p, (S i).length - (T i).pop, 1) := by
  obtain ⟨N, hN⟩ := settles (fun i => bads f (S i).tail) (fun i => (h.bads_step i).1)
  refine ⟨N, fun i hi he => ?_⟩
  have h1 := hN i hi
  have h2 := hN (i + 1) (by omega)
  have hg : Good f (S (i + 1)) := by
    refine Classical.byContradiction fun hg => ?_
    have := (h.bads_step i).2 he hg
    omega
  have hpop : (T (i + 1)).pop = 0 := by
    cases hs : S (i + 1) with
    | nil => exact absurd hs (h.ne _)
    | cons top rest =>
      obtain ⟨tg0, h3, h4⟩ := h.tgt (i + 1) top rest hs
      rw [hs] at hg h4
      rw [h4]
      exact hg tg0 h3
  have hlen := h.len i
  rw [he] at hlen
  simp at hlen
  have hk : (T (i + 1)).push.length = 1 := by
    have h3 := h.single (i + 1)
    have h4 := List.length_pos_iff.2 (h.act (i + 1) hpop)
    omega
  unfold st
  rw [hpop, hlen, hk]
  simp

/-- The set is emptied. -/
def Clear (p : Nat) (S : Nat → List L) (T : Nat → Target L) (C : Nat → List (Nat × Nat × Nat)) (i : Nat) : Prop := st p S T i ∈ C i

theorem Chain.clear (h : Chain p B f S T C) {i : Nat} (hc : Clear p S T C i) : (T i).push = [] ∧ C (i + 1) = [] := by
  rcases h.circ i with h1 | h1
  · exact h1.2
  · exact absurd hc h1.1

theorem Chain.add (h : Chain p B f S T C) {i : Nat} (hc : ¬ Clear p S T C i) : C (i + 1) = st p S T i :: C i := by
  rcases h.circ i with h1 | h1
  · exact absurd h1.1 hc
  · exact h1.2

theorem Chain.stays (h : Chain p B f S T C) {i : Nat} : ∀ n, (∀ x, i ≤ x → x < i + n → ¬ Clear p S T C x) → 0 < n → st p S T i ∈ C (i + n)
  | 0, _, hn => absurd hn (Nat.lt_irrefl 0)
  | n + 1, hx, _ => by
    have h1 := h.add (hx (i + n) (by omega) (by omega))
    rw [show i + (n + 1) = i + n + 1 by omega, h1]
    rcases Nat.eq_zero_or_pos n with h0 | h0
    · subst h0; simp
    · exact List.mem_cons_of_mem _ (h.stays n (fun x h2 h3 => hx x h2 (by omega)) h0)

/-- Between two times that the set is emptied, nothing is seen twice. -/
theorem Chain.nodup (h : Chain p B f S T C) {x y : Nat} (hxy : x < y) (hc : ∀ z, x ≤ z → z ≤ y → ¬ Clear p S T C z) : st p S T x ≠ st p S T y := by
  intro e
  have h1 := h.stays (i := x) (y - x) (fun z h2 h3 => hc z h2 (by omega)) (by omega)
  rw [show x + (y - x) = y by omega, e] at h1
  exact hc y (by omega) (Nat.le_refl y) h1

/-- The set is emptied again and again. -/
theorem Chain.clears (h : Chain p B f S T C) (N : Nat) : ∃ c, N ≤ c ∧ Clear p S T C c := by
  refine Classical.byContradiction fun hn => ?_
  have hno : ∀ c, N ≤ c → ¬ Clear p S T C c := fun c hc h1 => hn ⟨c, hc, h1⟩
  obtain ⟨i, j, h1, _, h2⟩ := pigeon (2 * B + 2) (fun n => 2 * ((S (N + n)).length - (T (N + n)).pop) + (T (N + n)).push.length) (by
    intro i _
    have h1 := h.bound (N + i)
    have h2 := h.single (N + i)
    omega)
  have h3 := h.single (N + i)
  have h4 := h.single (N + j)
  refine h.nodup (x := N + i) (y := N + j) (by omega) (fun z hz _ => hno z (by omega)) ?_
  unfold st
  rw [show (S (N + i)).length - (T (N + i)).pop = (S (N + j)).length - (T (N + j)).pop by omega,
    show (T (N + i)).push.length = (T (N + j)).push.length by omega]

theorem least {P : Nat → Prop} {N : Nat} (h : ∃ c, N ≤ c ∧ P c) : ∃ c, N ≤ c ∧ P c ∧ ∀ x, N ≤ x → x < c → ¬ P x := by
  obtain ⟨c, hc, hp⟩ := h
  induction c using Nat.strongRecOn with
  | _ c ih =>
    by_cases hx : ∃ x, N ≤ x ∧ x < c ∧ P x
    · obtain ⟨x, h1, h2, h3⟩ := hx
      exact ih x h2 h1 h3
    · exact ⟨c, hc, hp, fun x h1 h2 h3 => hx ⟨x, h1, h2, h3⟩⟩

theorem greatest {P : Nat → Prop} {N : Nat} : ∀ {M : Nat}, (∃ c, N ≤ c ∧ c < M ∧ P c) → ∃ c, N ≤ c ∧ c < M ∧ P c ∧ ∀ x, c < x → x < M → ¬ P x
  | 0, ⟨_, _, h, _⟩ => absurd h (Nat.not_lt_zero _)
  | M + 1, ⟨c, h1, h2, h3⟩ => by
    by_cases hm : P M
    · exact ⟨M, by omega, by omega, hm, fun x h4 h5 => by omega⟩
    · have hc : c ≠ M := fun e => hm (e ▸ h3)
      obtain ⟨d, h4, h5, h6, h7⟩ := greatest (P := P) (N := N) (M := M) ⟨c, h1, by omega, h3⟩
      refine ⟨d, h4, by omega, h6, fun x h8 h9 => ?_⟩
      by_cases hx : x = M
      · rw [hx]; exact hm
      · exact h7 x h8 (by omega)

/-- What was seen is what was seen since the set was emptied. -/
theorem Chain.seen (h : Chain p B f S T C) {c : Nat} (hc : C (c + 1) = []) : ∀ n v, v ∈ C (c + 1 + n) → ∃ x, c < x ∧ x < c + 1 + n ∧ st p S T x = v
  | 0, v, hv => by
    rw [Nat.add_zero, hc] at hv
    cases hv
  | n + 1, v, hv => by
    by_cases hx : Clear p S T C (c + 1 + n)
    · rw [show c + 1 + (n + 1) = c + 1 + n + 1 by omega, (h.clear hx).2] at hv
      cases hv
    · rw [show c + 1 + (n + 1) = c + 1 + n + 1 by omega, h.add hx] at hv
      rcases List.mem_cons.1 hv with e | hm
      · exact ⟨c + 1 + n, by omega, by omega, e.symm⟩
      · obtain ⟨x, h1, h2, h3⟩ := h.seen hc n v hm
        exact ⟨x, h1, by omega, h3⟩

/-- After the set was emptied, it is emptied again, because of something that was seen since; the last such time. -/
theorem Chain.next_clear (h : Chain p B f S T C) {c : Nat} (hc : Clear p S T C c) :
    ∃ i j, c < i ∧ i < j ∧ Clear p S T C j ∧ (∀ x, c < x → x < j → ¬ Clear p S T C x) ∧
      st p S T i = st p S T j ∧ ∀ x, i < x → x < j → st p S T x ≠ st p S T j := by
  obtain ⟨j, h1, h2, h3⟩ := least (h.clears (c + 1))
  have h4 : ∃ x, c + 1 ≤ x ∧ x < j ∧ st p S T x = st p S T j := by
    have h5 := h.seen (h.clear hc).2 (j - (c + 1)) (st p S T j)
    rw [show c + 1 + (j - (c + 1)) = j by omega] at h5
    obtain ⟨x, h6, h7, h8⟩ := h5 h2
    exact ⟨x, h6, h7, h8⟩
  obtain ⟨i, h5, h6, h7, h8⟩ := greatest h4
  exact ⟨i, j, h5, h6, h2, fun x hx => h3 x hx, h7, h8⟩

/-- The stack grows by at most one, so on its way up it passes each height. -/
theorem Chain.passes (h : Chain p B f S T C) (m : Nat) : ∀ n a, (S a).length ≤ m → m < (S (a + n)).length →
    ∃ x, a ≤ x ∧ x < a + n ∧ st p S T x = (p, m, 1)
  | 0, a, h1, h2 => by
    rw [Nat.add_zero] at h2
    omega
  | n + 1, a, h1, h2 => by
    by_cases hx : (S (a + n)).length ≤ m
    · have h3 := h.len (a + n)
      have h4 := h.single (a + n)
      rw [show a + (n + 1) = a + n + 1 by omega] at h2
      refine ⟨a + n, by omega, by omega, ?_⟩
      unfold st
      rw [show (S (a + n)).length - (T (a + n)).pop = m by omega, show (T (a + n)).push.length = 1 by omega]
    · obtain ⟨x, h3, h4, h5⟩ := h.passes m n a h1 (by omega)
      exact ⟨x, h3, by omega, h5⟩

/-- What is below stays as long as it is not left. -/
theorem Chain.below (h : Chain p B f S T C) {a : Nat} : ∀ n, (∀ x, a ≤ x → x < a + n → (S a).length ≤ (S x).length - (T x).pop) →
    ∃ y, S (a + n) = y ++ S a
  | 0, _ => ⟨[], rfl⟩
  | n + 1, hx => by
    obtain ⟨y, hy⟩ := h.below n (fun x h1 h2 => hx x h1 (by omega))
    have h1 := hx (a + n) (by omega) (by omega)
    rw [hy, List.length_append] at h1
    have h2 := h.lt (a + n)
    rw [hy, List.length_append] at h2
    refine ⟨(T (a + n)).push.reverse ++ y.drop (T (a + n)).pop, ?_⟩
    rw [show a + (n + 1) = a + n + 1 by omega, h.next (a + n), Target.apply, hy,
      List.drop_append_of_le_length (by omega), List.append_assoc]

/-- Such a chain does not exist. -/
theorem Chain.false (h : Chain p B f S T C) : False := by
  obtain ⟨N, hN⟩ := h.again
  obtain ⟨c, hcN, hc⟩ := h.clears N
  obtain ⟨i, j, hci, hij, hj, hno, hst, hlast⟩ := h.next_clear hc
  have hpj := (h.clear hj).1
  have hk : (T i).push.length = (T j).push.length := congrArg (fun v => v.2.2) hst
  have hm : (S i).length - (T i).pop = (S j).length - (T j).pop := congrArg (fun v => v.2.1) hst
  have hpi : (T i).push = [] := by
    rw [hpj] at hk
    exact List.length_eq_zero_iff.1 hk
  have hi1 := hN i (by omega) hpi
  have hi1j : i + 1 < j := by
    rcases Nat.lt_or_ge (i + 1) j with h1 | h1
    · exact h1
    · have e : i + 1 = j := by omega
      rw [e] at hi1
      have h2 : (T j).push.length = 1 := congrArg (fun v => v.2.2) hi1
      rw [hpj] at h2
      cases h2
  have hli : (S (i + 1)).length = (S i).length - (T i).pop := by
    have := h.len i
    rw [hpi] at this
    simpa using this
  have hpopj : (T j).pop ≠ 0 := fun e => h.act j e hpj
  have hltj := h.lt j
  have hm1 : (S (i + 1)).length - (T (i + 1)).pop = (S i).length - (T i).pop := congrArg (fun v => v.2.1) hi1
  have hlow : ∀ l, i + 1 ≤ l → l < j → (S (i + 1)).length ≤ (S l).length - (T l).pop := by
    intro l h1 h2
    refine Classical.byContradiction fun h3 => ?_
    have hl : l ≠ i + 1 := by
      intro e
      rw [e] at h3
      omega
    have h4 := h.len l
    have h5 := h.single l
    obtain ⟨x, h6, h7, h8⟩ := h.passes (S (i + 1)).length (j - (l + 1)) (l + 1) (by omega) (by
      rw [show l + 1 + (j - (l + 1)) = j by omega]
      omega)
    refine h.nodup (x := i + 1) (y := x) (by omega) (fun z h9 h10 => hno z (by omega) (by omega)) ?_
    rw [hi1, h8, hli]
  have hsame : S (i + 1) = S (j + 1) := by
    obtain ⟨y, hy⟩ := h.below (a := i + 1) (j + 1 - (i + 1)) (by
      intro x h1 h2
      by_cases hx : x = j
      · rw [hx]; omega
      · exact hlow x h1 (by omega))
    rw [show i + 1 + (j + 1 - (i + 1)) = j + 1 by omega] at hy
    have h1 := h.len j
    rw [hpj] at h1
    simp only [List.length_nil, Nat.add_zero] at h1
    have h2 := congrArg List.length hy
    rw [List.length_append] at h2
    have h3 : y = [] := List.length_eq_zero_iff.1 (by omega)
    rw [hy, h3]
    rfl
  obtain ⟨i2, j2, hji, hij2, hj2, hno2, hst2, -⟩ := h.next_clear hj
  have hpj2 := (h.clear hj2).1
  have hsh : ∀ x, i + 1 ≤ x → st p S T x = st p S T (x + (j - i)) := by
    intro x hx
    have h1 := h.st_shift hsame (x - (i + 1))
    rw [show i + 1 + (x - (i + 1)) = x by omega, show j + 1 + (x - (i + 1)) = x + (j - i) by omega] at h1
    exact h1
  have hj1 : st p S T (j + 1) = st p S T (j + 1 + (j - i)) := hsh (j + 1) (by omega)
  have hle : j2 ≤ j + (j - i) := by
    rcases Nat.lt_or_ge (j + (j - i)) j2 with h1 | h1
    · exfalso
      rcases Nat.lt_or_ge (j + 1 + (j - i)) j2 with h2 | h2
      · exact h.nodup (x := j + 1) (y := j + 1 + (j - i)) (by omega) (fun z h3 h4 => hno2 z (by omega) (by omega)) hj1
      · have e : j + 1 + (j - i) = j2 := by omega
        have h3 := hsh (i + 1) (Nat.le_refl _)
        rw [show i + 1 + (j - i) = j + 1 by omega, hj1, e, hi1] at h3
        have h4 : 1 = (T j2).push.length := congrArg (fun v => v.2.2) h3
        rw [hpj2] at h4
        cases h4
    · exact h1
  have e1 := hsh (i2 - (j - i)) (by omega)
  have e2 := hsh (j2 - (j - i)) (by omega)
  rw [show i2 - (j - i) + (j - i) = i2 by omega] at e1
  rw [show j2 - (j - i) + (j - i) = j2 by omega] at e2
  by_cases hend : j2 - (j - i) = j
  · refine hlast (i2 - (j - i)) (by omega) (by omega) ?_
    rw [e1, hst2, ← e2, hend]
  · refine h.nodup (x := i2 - (j - i)) (y := j2 - (j - i)) (by omega) (fun z h1 h2 => hno z (by omega) (by omega)) ?_
    rw [e1, hst2, ← e2]

/-! ### The lexer -/

variable {α A ρ : Type} [DecidableEq α]

/-- After a tuple without text and target, the next one moves on. -/
theorem after_noText {noAct : A} {ld : LexDef α L A ρ} {t : List α} {p : Nat} {ps' ps'' : PS ρ} {tok tok2 : Tok α L A ρ}
    (hld : LexOK ld) (hn : NoStuckMatch ld) (hp : p ≤ t.length) (h : parseNext noAct ld t (.at p false) = some (tok, ps'))
    (ht : tok.text = []) (htg : tok.tgt = none) (hf : ps'.floor t = p) (h2 : parseNext noAct ld t ps' = some (tok2, ps'')) :
    p < tok2.pos + tok2.text.length := by
  have htail : ∀ (d : Dflt α L A) (p : Nat), tailTok (ρ := ρ) noAct d t p = some (tok, ps') → False := by
    intro d p h'
    unfold tailTok at h'
    split at h'
    · split at h'
      · simp at h'
      · simp only [Option.some.injEq, Prod.mk.injEq] at h'
        obtain ⟨rfl, rfl⟩ := h'
        simp at ht
        omega
      · simp only [Option.some.injEq, Prod.mk.injEq] at h'
        obtain ⟨rfl, rfl⟩ := h'
        simp at htg
    · simp at h'
  simp only [parseNext] at h
  cases ld with
  | empty d => exact (htail _ p h).elim
  | literal n a tg' d =>
    exfalso
    have hlit : ∀ (i : Nat), (litTok n a tg' i : Tok α L A ρ × PS ρ) = (tok, ps') → False := by
      intro i h'
      simp only [litTok, Prod.mk.injEq] at h'
      obtain ⟨rfl, rfl⟩ := h'
      exact hld ht
    cases d with
    | skip =>
      simp only at h
      cases hf : findSub n t p with
      | none => rw [hf] at h; simp at h
      | some i => rw [hf] at h; simp only [Option.some.injEq] at h; exact hlit i h
    | target tg =>
      simp only at h
      split at h
      · simp only [Option.some.injEq] at h; exact hlit p h
      · exact htail _ p h
    | action f =>
      simp only at h
      cases hf : findSub n t p with
      | none => rw [hf] at h; exact htail _ p h
      | some i =>
        rw [hf] at h
        obtain ⟨h1, h2, h3⟩ := findSub_some hld hf
        simp only at h
        split at h
        · simp only [Option.some.injEq, Prod.mk.injEq] at h
          obtain ⟨rfl, rfl⟩ := h
          have hl : (slice t p i).length = i - p := slice_self_length (by omega) (by omega)
          simp only at ht
          rw [ht] at hl
          simp at hl
          omega
        · simp only [Option.some.injEq] at h; exact hlit i h
  | regex search matchAt rule d =>
    obtain ⟨hs, hm⟩ := hld
    have hmatch : ∀ (m : Mtch ρ), m.start ≤ m.stop → m.stop ≤ t.length → matchTok rule t m = (tok, ps') →
        m.start = m.stop ∧ (rule t m).2 = none ∧ ps' = .at p true := by
      intro m hq h3 h'
      simp only [matchTok, Prod.mk.injEq] at h'
      obtain ⟨rfl, rfl⟩ := h'
      have hl : (slice t m.start m.stop).length = m.stop - m.start := slice_self_length hq h3
      simp only at ht htg
      rw [ht] at hl
      have : m.start = m.stop := by simp at hl; omega
      simp only [PS.floor] at hf
      exact ⟨this, htg, by simp [this, hf]⟩
    have hnext : ∀ m, search t p true = some m → matchTok rule t m = (tok2, ps'') → p < tok2.pos + tok2.text.length := by
      intro m h3 h4
      obtain ⟨h5, h6, h7, h8⟩ := hs t p true m h3
      simp only [matchTok, Prod.mk.injEq] at h4
      obtain ⟨rfl, rfl⟩ := h4
      have hl : (slice t m.start m.stop).length = m.stop - m.start := slice_self_length h6 h7
      have := h8 rfl
      simp only
      omega
    cases d with
    | skip =>
      simp only at h
      cases hx : search t p false with
      | none => rw [hx] at h; simp at h
      | some m =>
        rw [hx] at h
        simp only [Option.some.injEq] at h
        obtain ⟨h3, h4, h5, _⟩ := hs t p false m hx
        obtain ⟨_, _, rfl⟩ := hmatch m h4 h5 h
        simp only [parseNext] at h2
        cases hy : search t p true with
        | none => rw [hy] at h2; simp at h2
        | some m2 =>
          rw [hy] at h2
          simp only [Option.some.injEq] at h2
          exact hnext m2 hy h2
    | action f =>
      simp only at h
      cases hx : search t p false with
      | none => rw [hx] at h; exact (htail _ p h).elim
      | some m =>
        rw [hx] at h
        obtain ⟨h3, h4, h5, _⟩ := hs t p false m hx
        simp only at h
        split at h
        · simp only [Option.some.injEq, Prod.mk.injEq] at h
          obtain ⟨rfl, rfl⟩ := h
          have hl : (slice t p m.start).length = m.start - p := slice_self_length (by omega) (by omega)
          simp only at ht
          rw [ht] at hl
          simp at hl
          omega
        · simp only [Option.some.injEq] at h
          obtain ⟨_, _, rfl⟩ := hmatch m h4 h5 h
          simp only [parseNext] at h2
          cases hy : search t p true with
          | none =>
            rw [hy] at h2
            simp only [tailTok] at h2
            split at h2
            · simp only [Option.some.injEq, Prod.mk.injEq] at h2
              obtain ⟨rfl, rfl⟩ := h2
              simp
              omega
            · simp at h2
          | some m2 =>
            rw [hy] at h2
            obtain ⟨h6, h7, h8, _⟩ := hs t p true m2 hy
            simp only at h2
            split at h2
            · simp only [Option.some.injEq, Prod.mk.injEq] at h2
              obtain ⟨rfl, rfl⟩ := h2
              have hl : (slice t p m2.start).length = m2.start - p := slice_self_length (by omega) (by omega)
              simp only
              omega
            · simp only [Option.some.injEq] at h2
              exact hnext m2 hy h2
    | target tg =>
      simp only at h
      cases hx : matchAt t p with
      | none => rw [hx] at h; exact (htail _ p h).elim
      | some m =>
        rw [hx] at h
        obtain ⟨h1, h3, h4⟩ := hm t p m hx
        simp only [Option.some.injEq] at h
        obtain ⟨h5, h6, _⟩ := hmatch m (by omega) h4 h
        exact absurd h6 (hn t p m hx h5)

/-- The state after a number of steps (or the last one). -/
def after (lang : Lang α L A ρ) (t : List α) (s : LState L ρ) : Nat → LState L ρ
  | 0 => s
  | n + 1 => match lexStep lang t (after lang t s n) with
    | none => after lang t s n
    | some r => r.1

theorem after_succ {lang : Lang α L A ρ} {t : List α} {s s1 : LState L ρ} {ev : List (Event α L A)} (h : lexStep lang t s = some (s1, ev)) :
    ∀ n, after lang t s (n + 1) = after lang t s1 n
  | 0 => by simp [after, h]
  | n + 1 => by
    have ih := after_succ h n
    rw [after, ih]
    rfl

theorem run_none {lang : Lang α L A ρ} {t : List α} : ∀ (n : Nat) (s : LState L ρ), lexStep lang t (after lang t s n) = none →
    ∃ k, (lexRun lang t k s).2 = none
  | 0, s, h => ⟨1, by simp only [after] at h; simp [lexRun, h]⟩
  | n + 1, s, h => by
    cases hs : lexStep lang t s with
    | none => exact ⟨1, by simp [lexRun, hs]⟩
    | some r =>
      obtain ⟨s1, ev⟩ := r
      rw [after_succ hs n] at h
      obtain ⟨k, hk⟩ := run_none n s1 h
      exact ⟨k + 1, by simp [lexRun, hs, hk]⟩

/-- A bounded sequence that does not decrease is constant in the end. -/
theorem settles_up (u : Nat → Nat) (b : Nat) (h : ∀ i, u i ≤ u (i + 1)) (hb : ∀ i, u i ≤ b) : ∃ N, ∀ i, N ≤ i → u i = u N := by
  obtain ⟨N, hN⟩ := settles (fun i => b - u i) (fun i => by have := h i; omega)
  refine ⟨N, fun i hi => ?_⟩
  have h1 := hN i hi
  have h2 := hb i
  have h3 := hb N
  omega

/-- A step that does not move on. -/
theorem step_stays {lang : Lang α L A ρ} {t : List α} {s s' : LState L ρ} {ev : List (Event α L A)} {p : Nat}
    (hl : ∀ l, LexOK (lang.ld l)) (hn : ∀ l, NoStuckMatch (lang.ld l)) (hok : StOK lang t s)
    (h : lexStep lang t s = some (s', ev)) (h1 : s.ps.floor t = p) (h2 : s'.ps.floor t = p) :
    (s'.stack = s.stack ∧ s'.ps.rank < s.ps.rank ∧ ∃ top rest tok, s.stack = top :: rest ∧
      parseNext lang.noAct (lang.ld top) t s.ps = some (tok, s'.ps) ∧ tok.text = [] ∧ tok.tgt = none) ∨
    (s'.ps = .at p false ∧ ∃ top rest tok ps' tg0, s.stack = top :: rest ∧
      parseNext lang.noAct (lang.ld top) t s.ps = some (tok, ps') ∧ tok.text = [] ∧ tok.pos = p ∧ tok.tgt = some tg0 ∧
      s'.stack = (clampPop s.stack tg0).apply s.stack ∧
      (((p, s.stack.length - (clampPop s.stack tg0).pop, (clampPop s.stack tg0).push.length) ∈ s.circ ∧ s'.circ = [] ∧
          (p < t.length → (clampPop s.stack tg0).push = [])) ∨
        ((p, s.stack.length - (clampPop s.stack tg0).pop, (clampPop s.stack tg0).push.length) ∉ s.circ ∧
          s'.circ = (p, s.stack.length - (clampPop s.stack tg0).pop, (clampPop s.stack tg0).push.length) :: s.circ))) := by
  obtain ⟨_, top, rest, tok, ps', hst, hp, hT, _, hf, _⟩ := lexStep_pos hl hok h
  obtain ⟨top2, rest2, tok2, ps2, hst2, hp2, hc⟩ := lexStep_cases h
  rw [hst] at hst2; cases hst2
  rw [hp] at hp2; cases hp2
  have hge := hT.ge
  have hlen : tok.text.length = 0 := by omega
  have hte : tok.text = [] := List.length_eq_zero_iff.1 hlen
  have hpos : tok.pos = p := by omega
  rcases hc with ⟨_, h4, _⟩ | ⟨h4, _, rfl, _⟩ | ⟨tg0, tg, _, _, h4, _⟩ | ⟨tg0, tg, h4, h5, _, _, ⟨h6, rfl⟩ | ⟨h6, rfl⟩⟩
  · exact absurd hte h4
  · left
    refine ⟨rfl, ?_, top, rest, tok, hst, hp, hte, h4⟩
    rcases parseNext_noText (hl top) (hok top rest hst) (hn top) hp hte h4 with h5 | ⟨_, h5⟩
    · simp only at h2; omega
    · exact h5
  · exact absurd hte h4
  · right
    subst h5
    rw [hpos] at h6 h2 ⊢
    have hno : ¬ ((clampPop s.stack tg0).push ≠ [] ∧ p < t.length) := by
      intro hx
      simp only [if_pos hx, PS.floor] at h2
      omega
    simp only [if_neg hno]
    refine ⟨by trivial, top, rest, tok, ps', tg0, hst, hp, hte, hpos, h4, by trivial, Or.inl ⟨h6, by trivial, fun hx => ?_⟩⟩
    exact Classical.byContradiction fun hy => hno ⟨hy, hx⟩
  · right
    subst h5
    rw [hpos] at h6 ⊢
    exact ⟨rfl, top, rest, tok, ps', tg0, hst, hp, hte, hpos, h4, rfl, Or.inr ⟨h6, rfl⟩⟩

/-- The target followed at the top of the stack. -/
def topTarget (lang : Lang α L A ρ) (t : List α) (p : Nat) : List L → Target L
  | [] => ⟨0, []⟩
  | top :: rest => match emptyTarget lang t p top with
    | none => ⟨0, []⟩
    | some tg => clampPop (top :: rest) tg

/-- Following one more target. -/
theorem follow_succ {lang : Lang α L A ρ} {t : List α} {p : Nat} : ∀ (n : Nat) (s : List L) {top : L} {rest : List L} {tg : Target L},
    follow lang t p n s = some (top :: rest) → emptyTarget lang t p top = some tg →
    follow lang t p (n + 1) s = some ((clampPop (top :: rest) tg).apply (top :: rest))
  | 0, s, top, rest, tg, h, h1 => by
    cases h
    simp [follow, h1]
  | n + 1, [], top, rest, tg, h, h1 => by simp [follow] at h
  | n + 1, a :: r, top, rest, tg, h, h1 => by
    rw [follow] at h ⊢
    cases ha : emptyTarget lang t p a with
    | none => rw [ha] at h; simp at h
    | some tg1 =>
      rw [ha] at h
      simp only at h ⊢
      exact follow_succ n _ h h1

theorem apply_root {s : List L} (hs : s ≠ []) (tg : Target L) : ((clampPop s tg).apply s).getLast? = s.getLast? := by
  have hlt := clamp_lt s hs tg
  unfold Target.apply
  rw [List.getLast?_append, List.getLast?_drop, if_neg (by omega)]
  cases h : s.getLast? with
  | none => exact absurd (List.getLast?_eq_none_iff.1 h) hs
  | some x => rfl

theorem follow_root {lang : Lang α L A ρ} {t : List α} {p : Nat} : ∀ (n : Nat) (s : List L) {s' : List L},
    follow lang t p n s = some s' → s'.getLast? = s.getLast?
  | 0, s, s', h => by cases h; rfl
  | n + 1, [], s', h => by simp [follow] at h
  | n + 1, a :: r, s', h => by
    rw [follow] at h
    cases ha : emptyTarget lang t p a with
    | none => rw [ha] at h; simp at h
    | some tg1 =>
      rw [ha] at h
      rw [follow_root n _ h, apply_root (by simp)]

theorem clamp_push (s : List L) (tg : Target L) : (clampPop s tg).push = tg.push := by
  unfold clampPop
  split <;> rfl

/-- Lexing ends. -/
theorem ends {lang : Lang α L A ρ} {t : List α} (hl : ∀ l, LexOK (lang.ld l)) (hn : ∀ l, NoStuckMatch (lang.ld l)) {root : L}
    (he : EndsOrCircles lang t root) {s : LState L ρ} (hs : StOK lang t s) (hroot : s.stack.getLast? = some root) :
    ∃ n, (lexRun lang t n s).2 = none := by
  refine Classical.byContradiction fun hinf => ?_
  have hgo : ∀ n, ∃ ev, lexStep lang t (after lang t s n) = some (after lang t s (n + 1), ev) := by
    intro n
    cases hx : lexStep lang t (after lang t s n) with
    | none => exact absurd (run_none n s hx) hinf
    | some r => exact ⟨r.2, by simp [after, hx]⟩
  have hinv : ∀ n, StOK lang t (after lang t s n) ∧ (after lang t s n).stack.getLast? = some root := by
    intro n
    induction n with
    | zero => exact ⟨hs, hroot⟩
    | succ n ih =>
      obtain ⟨ev, h1⟩ := hgo n
      exact ⟨(lexStep_pos hl ih.1 h1).1, by rw [lexStep_root h1, ih.2]⟩
  have hne : ∀ n, (after lang t s n).stack ≠ [] := by
    intro n hx
    have := (hinv n).2
    rw [hx] at this
    cases this
  obtain ⟨N, hN⟩ := settles_up (fun n => (after lang t s n).ps.floor t) t.length (by
    intro n
    obtain ⟨ev, h1⟩ := hgo n
    obtain ⟨_, top, rest, tok, ps', _, _, h2, _, h3, _⟩ := lexStep_pos hl (hinv n).1 h1
    have := h2.ge
    omega) (fun n => floor_le (hinv n).1 (hne n))
  generalize hp : (after lang t s N).ps.floor t = p at hN
  have hple : p ≤ t.length := hp ▸ floor_le (hinv N).1 (hne N)
  have hstep : ∀ n, N ≤ n → _ := fun n hn' =>
    step_stays (p := p) hl hn (hinv n).1 (hgo n).choose_spec (hN n hn') (hN (n + 1) (by omega))
  -- a target is followed
  have hfirst : ∃ M, N ≤ M ∧ (after lang t s M).ps = .at p false := by
    refine Classical.byContradiction fun hx => ?_
    have hdec : ∀ n, N ≤ n → (after lang t s (n + 1)).ps.rank < (after lang t s n).ps.rank := by
      intro n hn'
      rcases hstep n hn' with h1 | h1
      · exact h1.2.1
      · exact absurd ⟨n + 1, by omega, h1.1⟩ hx
    have hr : ∀ n, (after lang t s (N + n)).ps.rank + n ≤ (after lang t s N).ps.rank := by
      intro n
      induction n with
      | zero => exact Nat.le_refl _
      | succ n ih =>
        have h1 := hdec (N + n) (by omega)
        rw [show N + (n + 1) = N + n + 1 by omega]
        omega
    have := hr ((after lang t s N).ps.rank + 1)
    omega
  obtain ⟨M, hNM, hM⟩ := hfirst
  -- from then on only targets are followed
  have hall : ∀ n, (after lang t s (M + n)).ps = .at p false := by
    intro n
    induction n with
    | zero => exact hM
    | succ n ih =>
      rcases hstep (M + n) (by omega) with ⟨h1, _, top, rest, tok, h2, h3, h4, h5⟩ | h1
      · exfalso
        rw [ih] at h3
        have hf1 := hN (M + n + 1) (by omega)
        have hf2 := hN (M + n + 1 + 1) (by omega)
        obtain ⟨ev, hs2⟩ := hgo (M + n + 1)
        obtain ⟨_, top2, rest2, tok2, ps2, hst2, hp2, hT, _, hf, _⟩ := lexStep_pos hl (hinv (M + n + 1)).1 hs2
        rw [h1, h2] at hst2
        cases hst2
        have := after_noText (hl top) (hn top) hple h3 h4 h5 hf1 hp2
        omega
      · exact h1.1
  have htgt : ∀ n, ∃ top rest tg0, (after lang t s (M + n)).stack = top :: rest ∧ emptyTarget lang t p top = some tg0 ∧
      (after lang t s (M + (n + 1))).stack = (clampPop (top :: rest) tg0).apply (top :: rest) ∧
      (((p, (top :: rest).length - (clampPop (top :: rest) tg0).pop, (clampPop (top :: rest) tg0).push.length) ∈ (after lang t s (M + n)).circ ∧
          (p < t.length → (clampPop (top :: rest) tg0).push = []) ∧ (after lang t s (M + (n + 1))).circ = []) ∨
        ((p, (top :: rest).length - (clampPop (top :: rest) tg0).pop, (clampPop (top :: rest) tg0).push.length) ∉ (after lang t s (M + n)).circ ∧
          (after lang t s (M + (n + 1))).circ =
            (p, (top :: rest).length - (clampPop (top :: rest) tg0).pop, (clampPop (top :: rest) tg0).push.length) :: (after lang t s (M + n)).circ)) := by
    intro n
    rcases hstep (M + n) (by omega) with ⟨_, h1, _⟩ | ⟨_, top, rest, tok, ps', tg0, h2, h3, h4, h5, h6, h7, h8⟩
    · have h2 := hall (n + 1)
      rw [show M + (n + 1) = M + n + 1 by omega] at h2
      rw [h2, hall n] at h1
      exact absurd h1 (Nat.lt_irrefl _)
    · refine ⟨top, rest, tg0, h2, ?_, ?_, ?_⟩
      · rw [hall n] at h3
        unfold emptyTarget
        rw [h3]
        simp only
        rw [if_pos ⟨h4, h5⟩, h6]
      · rw [← h2]; exact h7
      · rw [← h2]
        rcases h8 with ⟨h9, h10, h11⟩ | h8
        · exact Or.inl ⟨h9, h11, h10⟩
        · exact Or.inr h8
  have hfol : ∀ n, follow lang t p n (after lang t s M).stack = some (after lang t s (M + n)).stack := by
    intro n
    induction n with
    | zero => rfl
    | succ n ih =>
      obtain ⟨top, rest, tg0, h1, h2, h3, _⟩ := htgt n
      rw [h1] at ih
      rw [follow_succ n _ ih h2, h3]
  rcases he p (after lang t s M).stack hple (hinv M).2 with ⟨n, h1⟩ | ⟨hlt, ⟨B, hB⟩, hone⟩
  · rw [hfol n] at h1
    cases h1
  · have hT : ∀ n, ∃ top rest tg0, (after lang t s (M + n)).stack = top :: rest ∧ emptyTarget lang t p top = some tg0 ∧
        topTarget lang t p (after lang t s (M + n)).stack = clampPop (top :: rest) tg0 := by
      intro n
      obtain ⟨top, rest, tg0, h1, h2, _⟩ := htgt n
      exact ⟨top, rest, tg0, h1, h2, by rw [h1]; simp [topTarget, h2]⟩
    have hchain : Chain p B (emptyTarget lang t p) (fun n => (after lang t s (M + n)).stack)
        (fun n => topTarget lang t p (after lang t s (M + n)).stack) (fun n => (after lang t s (M + n)).circ) := by
      refine ⟨fun n => hne (M + n), ?_, ?_, ?_, ?_, fun n => hB n _ (hfol n), ?_⟩
      · intro n top rest h1
        obtain ⟨top', rest', tg0, h2, h3, h4⟩ := hT n
        rw [h1] at h2
        cases h2
        exact ⟨tg0, h3, by rw [h4, h1]⟩
      · intro n
        obtain ⟨top, rest, tg0, h1, h2, h3, _⟩ := htgt n
        rw [h3, h1]
        simp [topTarget, h2]
      · intro n
        obtain ⟨top, rest, tg0, h2, h3, h4⟩ := hT n
        have h5 := hfol n
        rw [h2] at h5
        rw [h4, clamp_push]
        exact (hone n top rest tg0 h5 h3).1
      · intro n h1
        obtain ⟨top, rest, tg0, h2, h3, h4⟩ := hT n
        have h5 := hfol n
        rw [h2] at h5
        rw [h4, clamp_push]
        refine (hone n top rest tg0 h5 h3).2 ?_
        rw [h4] at h1
        unfold clampPop at h1
        split at h1
        · right
          simp only [List.length_cons, Nat.add_sub_cancel] at h1
          exact List.length_eq_zero_iff.1 h1
        · exact Or.inl h1
      · intro n
        obtain ⟨top, rest, tg0, h1, h2, _, h3⟩ := htgt n
        have e : topTarget lang t p (after lang t s (M + n)).stack = clampPop (top :: rest) tg0 := by
          rw [h1]; simp [topTarget, h2]
        rw [e, h1]
        rcases h3 with ⟨h4, h5, h6⟩ | h3
        · exact Or.inl ⟨h4, h5 hlt, h6⟩
        · exact Or.inr h3
    exact hchain.false

/-! ### Default targets -/

/-- When no empty match has a target, what is followed without consuming text is the default target, and not at the end of the text. -/
theorem emptyTarget_dflt {lang : Lang α L A ρ} {t : List α} {p : Nat} {l : L} {tg : Target L} (hl : LexOK (lang.ld l))
    (hm : NoEmptyMatchTarget (lang.ld l)) (h : emptyTarget lang t p l = some tg) : (lang.ld l).dflt = .target tg ∧ p < t.length := by
  unfold emptyTarget at h
  cases hp : parseNext lang.noAct (lang.ld l) t (.at p false) with
  | none => rw [hp] at h; simp at h
  | some r =>
    obtain ⟨tok, ps'⟩ := r
    rw [hp] at h
    simp only at h
    split at h
    · rename_i hc
      generalize hld : lang.ld l = ld at *
      have htail : ∀ (d : Dflt α L A) (p : Nat), tailTok (ρ := ρ) lang.noAct d t p = some (tok, ps') → d = .target tg ∧ p < t.length := by
        intro d p h'
        refine ⟨tail_emptyTgt h' h, ?_⟩
        unfold tailTok at h'
        split at h'
        · assumption
        · simp at h'
      have hlit : ∀ (n : List α) (a : A) (tg' : Option (Target L)) (i : Nat), n ≠ [] → (litTok n a tg' i : Tok α L A ρ × PS ρ) = (tok, ps') → False := by
        intro n a tg' i hn h'
        simp only [litTok, Prod.mk.injEq] at h'
        obtain ⟨rfl, rfl⟩ := h'
        exact hn hc.1
      have hgap : ∀ (i j : Nat) (m : Option (Mtch ρ)) (a : A) (ps1 : PS ρ), (Tok.mk i (slice t i j) m a none, ps1) = (tok, ps') → False := by
        intro i j m a ps1 h'
        simp only [Prod.mk.injEq] at h'
        obtain ⟨rfl, rfl⟩ := h'
        cases h
      simp only [parseNext] at hp
      cases ld with
      | empty d => exact htail d p hp
      | literal n a tg' d =>
        cases d with
        | skip =>
          simp only at hp
          split at hp
          · exact (hlit n a tg' _ hl (by simpa using hp)).elim
          · cases hp
        | target tg1 =>
          simp only at hp
          split at hp
          · exact (hlit n a tg' _ hl (by simpa using hp)).elim
          · exact htail _ p hp
        | action f =>
          simp only at hp
          split at hp
          · split at hp
            · simp only [Option.some.injEq] at hp
              exact (hgap _ _ _ _ _ hp).elim
            · exact (hlit n a tg' _ hl (by simpa using hp)).elim
          · exact htail _ p hp
      | regex search matchAt rule d =>
        obtain ⟨hs, hma⟩ := hl
        have hmatch : ∀ m, Finds search matchAt t m → m.start ≤ m.stop → m.stop ≤ t.length → matchTok rule t m = (tok, ps') → False := by
          intro m h1 h2 h3 h'
          simp only [matchTok, Prod.mk.injEq] at h'
          obtain ⟨rfl, rfl⟩ := h'
          have hlen : (slice t m.start m.stop).length = m.stop - m.start := slice_self_length h2 h3
          simp only at hc h
          rw [hc.1] at hlen
          have h4 := hm t m h1 (by simp at hlen; omega)
          rw [h4] at h
          cases h
        cases d with
        | skip =>
          simp only at hp
          split at hp
          · rename_i m hx
            obtain ⟨h1, h2, h3, _⟩ := hs t p false m hx
            exact (hmatch m (Or.inr ⟨p, false, hx⟩) h2 h3 (by simpa using hp)).elim
          · cases hp
        | target tg1 =>
          simp only at hp
          split at hp
          · rename_i m hx
            obtain ⟨h1, h2, h3⟩ := hma t p m hx
            exact (hmatch m (Or.inl ⟨p, hx⟩) (by omega) h3 (by simpa using hp)).elim
          · exact htail _ p hp
        | action f =>
          simp only at hp
          split at hp
          · rename_i m hx
            obtain ⟨h1, h2, h3, _⟩ := hs t p false m hx
            split at hp
            · simp only [Option.some.injEq] at hp
              exact (hgap _ _ _ _ _ hp).elim
            · exact (hmatch m (Or.inr ⟨p, false, hx⟩) h2 h3 (by simpa using hp)).elim
          · exact htail _ p hp
    · cases h

/-- How high the stack can become. -/
def peak (rk : L → Nat) : List L → Nat
  | [] => 0
  | x :: r => max (r.length + 1 + rk x) (peak rk r)

theorem peak_drop (rk : L → Nat) (s : List L) (n : Nat) : peak rk (s.drop n) ≤ peak rk s := by
  induction s generalizing n with
  | nil => simp
  | cons x r ih =>
    cases n with
    | zero => simp
    | succ n =>
      have := ih n
      simp only [List.drop_succ_cons, peak]
      omega

theorem le_peak (rk : L → Nat) : ∀ s : List L, s.length ≤ peak rk s
  | [] => Nat.le_refl 0
  | x :: r => by simp only [List.length_cons, peak]; omega

/-- The stack stays low when lexicons enter lexicons of a lower rank. -/
theorem follow_peak {lang : Lang α L A ρ} {t : List α} {p : Nat} {rk : L → Nat}
    (h : ∀ l tg, emptyTarget lang t p l = some tg → tg.push.length ≤ 1 ∧ ∀ x ∈ tg.push, rk x < rk l) :
    ∀ (n : Nat) (s s' : List L), follow lang t p n s = some s' → peak rk s' ≤ peak rk s
  | 0, s, s', h1 => by cases h1; exact Nat.le_refl _
  | n + 1, [], s', h1 => by simp [follow] at h1
  | n + 1, top :: rest, s', h1 => by
    rw [follow] at h1
    cases ha : emptyTarget lang t p top with
    | none => rw [ha] at h1; simp at h1
    | some tg =>
      rw [ha] at h1
      refine Nat.le_trans (follow_peak h n _ s' h1) ?_
      obtain ⟨h2, h3⟩ := h top tg ha
      unfold Target.apply
      rw [clamp_push]
      have h4 := peak_drop rk (top :: rest) (clampPop (top :: rest) tg).pop
      cases hc : tg.push with
      | nil => simpa using h4
      | cons x r =>
        rw [hc] at h2 h3
        cases r with
        | cons y r => simp at h2
        | nil =>
          have h5 := h3 x (by simp)
          have h6 : ((top :: rest).drop (clampPop (top :: rest) tg).pop).length ≤ rest.length + 1 := by
            rw [List.length_drop]; simp
          simp only [List.reverse_cons, List.reverse_nil, List.nil_append, List.cons_append, peak] at h4 ⊢
          omega

end Parce.Circ

import Verif.Model.Process
/-!
# Lemmas about the rebuild protocol
-/
namespace Parce.TB
variable {C : Type}

theorem get_set {β : Type} {l : List β} {i j : Nat} {a p : β} :
    (l.set i a)[j]? = some p ↔ (i = j ∧ i < l.length ∧ p = a) ∨ (i ≠ j ∧ l[j]? = some p) := by
  rw [List.getElem?_set]
  by_cases h : i = j
  · subst h
    by_cases h2 : i < l.length
    · simp [h2, eq_comm]
    · simp [h2]
  · simp [h]

theorem get_lt {β : Type} {l : List β} {i : Nat} {p : β} (h : l[i]? = some p) : i < l.length := by
  rw [List.getElem?_eq_some_iff] at h
  exact h.1

theorem set_self {β : Type} {l : List β} {i : Nat} {a p : β} (h : l[i]? = some p) : (l.set i a)[i]? = some a :=
  get_set.2 (Or.inl ⟨rfl, get_lt h, rfl⟩)

theorem set_other {β : Type} {l : List β} {i j : Nat} {a p q : β} (h : l[i]? = some p) (h2 : l[j]? = some q)
    (hne : p ≠ q) : (l.set i a)[j]? = some q := by
  refine get_set.2 (Or.inr ⟨?_, h2⟩)
  rintro rfl
  rw [h] at h2
  exact hne (Option.some.inj h2)

structure Inv (s : State C) : Prop where
  hist : s.added = s.taken ++ s.changes
  lock1 : ∀ (i : Nat), s.lock = some i → s.pcs[i]? = some .final
  lock2 : ∀ (i : Nat), s.pcs[i]? = some .final → s.lock = some i
  fin : ∀ (i : Nat), s.pcs[i]? = some .final → s.changes = []
  busy : s.busy = true → ∃ (i : Nat) (p : PC C), s.pcs[i]? = some p ∧ p.running = true
  pend : s.changes ≠ [] → ∃ (i : Nat) (p : PC C), s.pcs[i]? = some p ∧ (p = .test ∨ p = .setBusy ∨ p = .start ∨ p = .building)

theorem Inv.init (n : Nat) : Inv (State.init C n) := by
  refine ⟨rfl, by simp [State.init], ?_, by simp [State.init], by simp [State.init], by simp [State.init]⟩
  intro i h
  simp only [State.init, List.getElem?_replicate] at h
  split at h <;> simp at h

theorem Inv.step {s s' : State C} (hs : Inv s) (h : Step s s') : Inv s' := by
  obtain ⟨h1, h2, h3, h4, h5, h6⟩ := hs
  have keep : ∀ {i : Nat} {p a : PC C} {P : PC C → Prop}, s.pcs[i]? = some p → ¬ P p →
      (∃ (j : Nat) (q : PC C), s.pcs[j]? = some q ∧ P q) → ∃ (j : Nat) (q : PC C), (s.pcs.set i a)[j]? = some q ∧ P q := by
    rintro i p a P hi hp ⟨j, q, hj, hq⟩
    refine ⟨j, q, set_other hi hj ?_, hq⟩
    rintro rfl; exact hp hq
  have fin' : ∀ {i j : Nat} {p a : PC C}, s.pcs[i]? = some p → a ≠ .final → (s.pcs.set i a)[j]? = some .final →
      s.pcs[j]? = some .final := by
    intro i j p a hi ha hj
    rcases get_set.1 hj with ⟨_, _, h⟩ | ⟨_, h⟩
    · exact absurd h.symm ha
    · exact h
  have lk : ∀ {i j : Nat} {p a : PC C}, s.pcs[i]? = some p → p ≠ .final → s.lock = some j →
      (s.pcs.set i a)[j]? = some .final := by
    intro i j p a hi hp hj
    exact set_other hi (h2 j hj) hp
  cases h with
  | call i c h =>
    refine ⟨h1, fun j hj => lk h (by simp) hj, fun j hj => h3 j (fin' h (by simp) hj),
      fun j hj => h4 j (fin' h (by simp) hj), fun hb => keep h (by simp [PC.running]) (h5 hb),
      fun hb => keep h (by simp) (h6 hb)⟩
  | add i c h hl =>
    refine ⟨by simp [h1], fun j hj => lk h (by simp) hj, fun j hj => h3 j (fin' h (by simp) hj), ?_,
      fun hb => keep h (by simp [PC.running]) (h5 hb), fun _ => ⟨i, _, set_self h, by simp⟩⟩
    intro j hj
    have := h3 j (fin' h (by simp) hj)
    rw [hl] at this
    simp at this
  | testBusy i h hb =>
    refine ⟨h1, fun j hj => lk h (by simp) hj, fun j hj => h3 j (fin' h (by simp) hj),
      fun j hj => h4 j (fin' h (by simp) hj), fun hb => keep h (by simp [PC.running]) (h5 hb), ?_⟩
    intro hc
    obtain ⟨j, q, hj, hq⟩ := h5 hb
    refine ⟨j, q, set_other h hj (by rintro rfl; simp [PC.running] at hq), ?_⟩
    cases q <;> simp [PC.running] at hq ⊢
    exact hc (h4 j hj)
  | testFree i h hb =>
    refine ⟨h1, fun j hj => lk h (by simp) hj, fun j hj => h3 j (fin' h (by simp) hj),
      fun j hj => h4 j (fin' h (by simp) hj), fun hb => keep h (by simp [PC.running]) (h5 hb),
      fun _ => ⟨i, _, set_self h, by simp⟩⟩
  | setBusy i h =>
    refine ⟨h1, fun j hj => lk h (by simp) hj, fun j hj => h3 j (fin' h (by simp) hj),
      fun j hj => h4 j (fin' h (by simp) hj), fun _ => ⟨i, _, set_self h, rfl⟩,
      fun _ => ⟨i, _, set_self h, by simp⟩⟩
  | take i h hl hc =>
    refine ⟨by simp [h1], fun j hj => lk h (by simp) hj, fun j hj => h3 j (fin' h (by simp) hj),
      fun _ _ => rfl, fun _ => ⟨i, _, set_self h, rfl⟩, fun hc => absurd rfl hc⟩
  | none i h hl hc =>
    refine ⟨h1, ?_, ?_, fun _ _ => hc, fun _ => ⟨i, _, set_self h, rfl⟩, fun hc' => absurd hc hc'⟩
    · intro j hj
      simp only [Option.some.injEq] at hj
      subst hj
      exact set_self h
    · intro j hj
      rcases get_set.1 hj with ⟨hij, _, _⟩ | ⟨_, hj⟩
      · simp [hij]
      · have := h3 j hj
        rw [hl] at this
        simp at this
  | poll i c cs h hc =>
    refine ⟨by simp [h1, hc], h2, h3, ?_, h5, fun _ => ⟨i, _, h, by simp⟩⟩
    intro j hj
    have := h4 j hj
    rw [hc] at this
    simp at this
  | built i h =>
    refine ⟨h1, fun j hj => lk h (by simp) hj, fun j hj => h3 j (fin' h (by simp) hj),
      fun j hj => h4 j (fin' h (by simp) hj), fun _ => ⟨i, _, set_self h, rfl⟩,
      fun _ => ⟨i, _, set_self h, by simp⟩⟩
  | finish i h =>
    have hli := h3 i h
    refine ⟨h1, by simp, ?_, fun j hj => h4 j (fin' h (by simp) hj), by simp, fun hc => absurd (h4 i h) hc⟩
    intro j hj
    have := get_set.1 hj
    rcases this with ⟨_, _, h'⟩ | ⟨hne, h'⟩
    · simp at h'
    · have := h3 j h'
      rw [hli] at this
      exact absurd (Option.some.inj this) hne

theorem Reach.inv {n : Nat} {s : State C} (h : Reach n s) : Inv s := by
  induction h with
  | init => exact Inv.init n
  | step _ h2 ih => exact ih.step h2

/-! ### The calls of rebuild do not overlap -/

structure InvOne (s : State C) : Prop where
  one : ∀ (i j : Nat) (p q : PC C), s.pcs[i]? = some p → s.pcs[j]? = some q → p.running = true → q.running = true → i = j
  busy : ∀ (i : Nat) (p : PC C), s.pcs[i]? = some p → p.running = true → s.busy = true
  free : ∀ (i : Nat), s.pcs[i]? = some .setBusy → s.busy = false

theorem InvOne.step {s s' : State C} (hs : InvOne s)
    (hone : ∀ (i j : Nat) (p q : PC C), s.pcs[i]? = some p → s.pcs[j]? = some q → p.calling = true → q.calling = true → i = j)
    (h : Step s s') : InvOne s' := by
  obtain ⟨h1, h2, h3⟩ := hs
  -- a step that sets a thread to a state that is not running and not `setBusy`
  have quiet : ∀ (i : Nat) (a : PC C), a.running = false → a ≠ .setBusy → ∀ (b : Bool) (ch ad tk : List C) (lk : Option Nat),
      (b = s.busy) → InvOne ⟨ch, b, lk, s.pcs.set i a, ad, tk⟩ := by
    intro i a ha hsb b ch ad tk lk hb
    subst hb
    refine ⟨?_, ?_, ?_⟩
    · intro x y p q hx hy hp hq
      rcases get_set.1 hx with ⟨_, _, h⟩ | ⟨_, hx⟩
      · rw [h, ha] at hp; simp at hp
      · rcases get_set.1 hy with ⟨_, _, h⟩ | ⟨_, hy⟩
        · rw [h, ha] at hq; simp at hq
        · exact h1 x y p q hx hy hp hq
    · intro x p hx hp
      rcases get_set.1 hx with ⟨_, _, h⟩ | ⟨_, hx⟩
      · rw [h, ha] at hp; simp at hp
      · exact h2 x p hx hp
    · intro x hx
      rcases get_set.1 hx with ⟨_, _, h⟩ | ⟨_, hx⟩
      · exact absurd h.symm hsb
      · exact h3 x hx
  -- a step between running states
  have run : ∀ (i : Nat) (r a : PC C), s.pcs[i]? = some r → r.running = true → a ≠ .setBusy →
      ∀ (ch ad tk : List C) (lk : Option Nat), InvOne ⟨ch, s.busy, lk, s.pcs.set i a, ad, tk⟩ := by
    intro i r a hi hr hsb ch ad tk lk
    refine ⟨?_, ?_, ?_⟩
    · intro x y p q hx hy hp hq
      rcases get_set.1 hx with ⟨hix, _, _⟩ | ⟨hix, hx⟩
      · rcases get_set.1 hy with ⟨hiy, _, _⟩ | ⟨hiy, hy⟩
        · omega
        · exact absurd (h1 i y r q hi hy hr hq) hiy
      · rcases get_set.1 hy with ⟨hiy, _, _⟩ | ⟨hiy, hy⟩
        · exact absurd (h1 i x r p hi hx hr hp) hix
        · exact h1 x y p q hx hy hp hq
    · intro x p hx hp
      exact h2 i r hi hr
    · intro x hx
      rcases get_set.1 hx with ⟨_, _, h⟩ | ⟨_, hx⟩
      · exact absurd h.symm hsb
      · exact h3 x hx
  cases h with
  | call i c h => exact quiet i _ rfl (by simp) _ _ _ _ _ rfl
  | add i c h hl => exact quiet i _ rfl (by simp) _ _ _ _ _ rfl
  | testBusy i h hb => exact quiet i _ rfl (by simp) _ _ _ _ _ rfl
  | testFree i h hb =>
    refine ⟨?_, ?_, fun _ _ => hb⟩
    · intro x y p q hx hy hp hq
      rcases get_set.1 hx with ⟨_, _, h⟩ | ⟨_, hx⟩
      · rw [h] at hp; simp [PC.running] at hp
      · exact absurd (h2 x p hx hp) (by simp [hb])
    · intro x p hx hp
      rcases get_set.1 hx with ⟨_, _, h⟩ | ⟨_, hx⟩
      · rw [h] at hp; simp [PC.running] at hp
      · exact h2 x p hx hp
  | setBusy i h =>
    have hb := h3 i h
    have hno : ∀ (x : Nat) (p : PC C), s.pcs[x]? = some p → p.running = true → False := by
      intro x p hx hp
      have := h2 x p hx hp
      rw [hb] at this
      simp at this
    refine ⟨?_, fun _ _ _ _ => rfl, ?_⟩
    · intro x y p q hx hy hp hq
      rcases get_set.1 hx with ⟨hix, _, _⟩ | ⟨_, hx⟩
      · rcases get_set.1 hy with ⟨hiy, _, _⟩ | ⟨_, hy⟩
        · omega
        · exact (hno y q hy hq).elim
      · exact (hno x p hx hp).elim
    · intro x hx
      rcases get_set.1 hx with ⟨_, _, h'⟩ | ⟨hne, hx⟩
      · simp at h'
      · exact absurd (hone i x _ _ h hx rfl rfl) hne
  | take i h hl hc => exact run i _ _ h rfl (by simp) _ _ _ _
  | none i h hl hc => exact run i _ _ h rfl (by simp) _ _ _ _
  | poll i c cs h hc => exact ⟨h1, h2, h3⟩
  | built i h => exact run i _ _ h rfl (by simp) _ _ _ _
  | finish i h =>
    refine ⟨?_, ?_, fun _ _ => rfl⟩
    · intro x y p q hx hy hp hq
      rcases get_set.1 hx with ⟨_, _, h'⟩ | ⟨_, hx⟩
      · rw [h'] at hp; simp [PC.running] at hp
      · rcases get_set.1 hy with ⟨_, _, h'⟩ | ⟨_, hy⟩
        · rw [h'] at hq; simp [PC.running] at hq
        · exact h1 x y p q hx hy hp hq
    · intro x p hx hp
      rcases get_set.1 hx with ⟨_, _, h'⟩ | ⟨hne, hx⟩
      · rw [h'] at hp; simp [PC.running] at hp
      · exact absurd (h1 i x _ p h hx rfl hp) hne

theorem init_pcs {n i : Nat} {p : PC C} (h : (State.init C n).pcs[i]? = some p) : p = .idle := by
  simp only [State.init, List.getElem?_replicate] at h
  split at h
  · exact (Option.some.inj h).symm
  · simp at h

theorem ReachOne.inv {n : Nat} {s : State C} (h : ReachOne n s) : InvOne s ∧
    (∀ (i j : Nat) (p q : PC C), s.pcs[i]? = some p → s.pcs[j]? = some q → p.calling = true → q.calling = true → i = j) := by
  induction h with
  | init =>
    refine ⟨⟨?_, ?_, ?_⟩, ?_⟩
    · intro i j p q hi _ hp _; rw [init_pcs hi] at hp; simp [PC.running] at hp
    · intro i p hi hp; rw [init_pcs hi] at hp; simp [PC.running] at hp
    · intro i hi; simp [State.init]
    · intro i j p q hi _ hp _; rw [init_pcs hi] at hp; simp [PC.calling] at hp
  | step _ h2 h3 ih => exact ⟨ih.1.step ih.2 h2, h3⟩

/-! ### Termination -/

def PC.weight : PC C → Nat
  | .idle => 0
  | .final => 1
  | .start => 2
  | .building => 3
  | .setBusy => 3
  | .test => 4
  | .adding _ => 7

def State.weight (s : State C) : Nat := (s.pcs.map PC.weight).sum + 2 * s.changes.length

theorem sum_set (l : List (PC C)) (i : Nat) (p a : PC C) (h : l[i]? = some p) :
    ((l.set i a).map PC.weight).sum + p.weight = (l.map PC.weight).sum + a.weight := by
  induction l generalizing i with
  | nil => simp at h
  | cons x xs ih =>
    cases i with
    | zero =>
      simp only [List.getElem?_cons_zero, Option.some.injEq] at h
      subst h
      simp only [List.set_cons_zero, List.map_cons, List.sum_cons]
      omega
    | succ i =>
      have := ih i (by simpa using h)
      simp only [List.set_cons_succ, List.map_cons, List.sum_cons]
      omega

end Parce.TB

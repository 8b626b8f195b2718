import Verif.Model.Worker
import Verif.Lemmas.Process
/-!
# Lemmas about the worker protocol
-/
namespace Parce.WK
open Parce.TB (get_set get_lt set_self set_other)
variable {C : Type}

/-- Will look at the changes again. -/
def PC.willLook : PC C → Bool
  | .test => true
  | .setBusy => true
  | .begin => true
  | .start => true
  | .building _ => true
  | _ => false

/-- Between `busy = True` and `busy = False`. -/
def PC.owner : PC C → Bool
  | .begin => true
  | .start => true
  | .building _ => true
  | .final => true
  | _ => false

/-- The tree state must be BUILD or REPLACE. -/
def PC.active : PC C → Bool
  | .start => true
  | .building _ => true
  | .final => true
  | _ => false

structure Inv (s : State C) : Prop where
  hist : ∀ c ∈ s.added, c ∈ s.built ∨ c ∈ s.changes ∨ ∃ (i : Nat) (ds : List C), s.pcs[i]? = some (.building ds) ∧ c ∈ ds
  lock2 : ∀ (i : Nat), s.pcs[i]? = some .final → s.lock = some i
  fin : ∀ (i : Nat), s.pcs[i]? = some .final → s.changes = []
  busy : s.busy = true → ∃ (i : Nat) (p : PC C), s.pcs[i]? = some p ∧ p.owner = true
  pend : s.changes ≠ [] → ∃ (i : Nat) (p : PC C), s.pcs[i]? = some p ∧ p.willLook = true

theorem init_pcs {n i : Nat} {p : PC C} (h : (State.init C n).pcs[i]? = some p) : p = .idle := by
  simp only [State.init, List.getElem?_replicate] at h
  split at h
  · exact (Option.some.inj h).symm
  · simp at h

theorem Inv.init (n : Nat) : Inv (State.init C n) := by
  refine ⟨by simp [State.init], ?_, by simp [State.init], by simp [State.init], by simp [State.init]⟩
  intro i h
  have := init_pcs h
  simp at this

theorem Inv.step {s s' : State C} (hs : Inv s) (h : Step s s') : Inv s' := by
  obtain ⟨h1, h3, h4, h5, h6⟩ := hs
  have keep : ∀ {i : Nat} {p a : PC C} {P : PC C → Bool}, s.pcs[i]? = some p → P p = false →
      (∃ (j : Nat) (q : PC C), s.pcs[j]? = some q ∧ P q = true) →
      ∃ (j : Nat) (q : PC C), (s.pcs.set i a)[j]? = some q ∧ P q = true := by
    rintro i p a P hi hp ⟨j, q, hj, hq⟩
    refine ⟨j, q, set_other hi hj ?_, hq⟩
    rintro rfl; rw [hp] at hq; simp at hq
  have keepB : ∀ {i : Nat} {p a : PC C} {c : C}, s.pcs[i]? = some p → (∀ ds, p ≠ .building ds) → c ∈ s.added →
      c ∈ s.built ∨ c ∈ s.changes ∨ ∃ (j : Nat) (ds : List C), (s.pcs.set i a)[j]? = some (.building ds) ∧ c ∈ ds := by
    intro i p a c hi hp hc
    rcases h1 c hc with h | h | ⟨j, ds, hj, hd⟩
    · exact Or.inl h
    · exact Or.inr (Or.inl h)
    · exact Or.inr (Or.inr ⟨j, ds, set_other hi hj (hp ds), hd⟩)
  have fin' : ∀ {i j : Nat} {p a : PC C}, s.pcs[i]? = some p → a ≠ .final → (s.pcs.set i a)[j]? = some .final →
      s.pcs[j]? = some .final := by
    intro i j p a hi ha hj
    rcases get_set.1 hj with ⟨_, _, h⟩ | ⟨_, h⟩
    · exact absurd h.symm ha
    · exact h
  cases h with
  | call i c h =>
    exact ⟨fun _ hc => keepB h (by simp) hc, fun j hj => h3 j (fin' h (by simp) hj),
      fun j hj => h4 j (fin' h (by simp) hj), fun hb => keep h rfl (h5 hb), fun hb => keep h rfl (h6 hb)⟩
  | add i c h hl =>
    refine ⟨?_, fun j hj => h3 j (fin' h (by simp) hj), ?_,
      fun hb => keep h rfl (h5 hb), fun _ => ⟨i, _, set_self h, rfl⟩⟩
    · intro c' hc'
      simp only [List.mem_append, List.mem_singleton] at hc'
      rcases hc' with hc' | rfl
      · rcases keepB (a := .test) h (by simp) hc' with h' | h' | h'
        · exact Or.inl h'
        · exact Or.inr (Or.inl (by simp [h']))
        · exact Or.inr (Or.inr h')
      · exact Or.inr (Or.inl (by simp))
    · intro j hj
      have := h3 j (fin' h (by simp) hj)
      rw [hl] at this
      simp at this
  | testBusy i h hb =>
    refine ⟨fun _ hc => keepB h (by simp) hc, fun j hj => h3 j (fin' h (by simp) hj),
      fun j hj => h4 j (fin' h (by simp) hj), fun hb => keep h rfl (h5 hb), ?_⟩
    intro hc
    obtain ⟨j, q, hj, hq⟩ := h5 hb
    refine ⟨j, q, set_other h hj (by rintro rfl; simp [PC.owner] at hq), ?_⟩
    cases q <;> simp [PC.owner, PC.willLook] at hq ⊢
    exact hc (h4 j hj)
  | testFree i h hb =>
    exact ⟨fun _ hc => keepB h (by simp) hc, fun j hj => h3 j (fin' h (by simp) hj),
      fun j hj => h4 j (fin' h (by simp) hj), fun hb => keep h rfl (h5 hb), fun _ => ⟨i, _, set_self h, rfl⟩⟩
  | setBusy i h =>
    exact ⟨fun _ hc => keepB h (by simp) hc, fun j hj => h3 j (fin' h (by simp) hj),
      fun j hj => h4 j (fin' h (by simp) hj), fun _ => ⟨i, _, set_self h, rfl⟩, fun _ => ⟨i, _, set_self h, rfl⟩⟩
  | begin i h =>
    exact ⟨fun _ hc => keepB h (by simp) hc, fun j hj => h3 j (fin' h (by simp) hj),
      fun j hj => h4 j (fin' h (by simp) hj), fun _ => ⟨i, _, set_self h, rfl⟩, fun _ => ⟨i, _, set_self h, rfl⟩⟩
  | take i h hl hc =>
    refine ⟨?_, fun j hj => h3 j (fin' h (by simp) hj),
      fun _ _ => rfl, fun _ => ⟨i, _, set_self h, rfl⟩, fun hc => absurd rfl hc⟩
    intro c hc
    rcases keepB (a := .building s.changes) h (by simp) hc with h' | h' | h'
    · exact Or.inl h'
    · exact Or.inr (Or.inr ⟨i, _, set_self h, h'⟩)
    · exact Or.inr (Or.inr h')
  | none i h hl hc =>
    refine ⟨fun _ hc => keepB h (by simp) hc, ?_, fun _ _ => hc, fun _ => ⟨i, _, set_self h, rfl⟩, fun hc' => absurd hc hc'⟩
    intro j hj
    rcases get_set.1 hj with ⟨hij, _, _⟩ | ⟨_, hj⟩
    · simp [hij]
    · have := h3 j hj
      rw [hl] at this
      simp at this
  | poll i c cs ds h hc =>
    refine ⟨?_, fun j hj => h3 j (fin' h (by simp) hj), ?_, fun _ => ⟨i, _, set_self h, rfl⟩, fun _ => ⟨i, _, set_self h, rfl⟩⟩
    · intro c' hc'
      rcases h1 c' hc' with h' | h' | ⟨j, es, hj, he⟩
      · exact Or.inl h'
      · rw [hc] at h'
        rcases List.mem_cons.1 h' with rfl | h'
        · exact Or.inr (Or.inr ⟨i, _, set_self h, by simp⟩)
        · exact Or.inr (Or.inl h')
      · by_cases hij : i = j
        · subst hij
          rw [h] at hj
          cases hj
          exact Or.inr (Or.inr ⟨i, _, set_self h, by simp [he]⟩)
        · exact Or.inr (Or.inr ⟨j, es, get_set.2 (Or.inr ⟨hij, hj⟩), he⟩)
    · intro j hj
      have := h4 j (fin' h (by simp) hj)
      rw [hc] at this
      simp at this
  | built i ds h =>
    refine ⟨?_, fun j hj => h3 j (fin' h (by simp) hj),
      fun j hj => h4 j (fin' h (by simp) hj), fun _ => ⟨i, _, set_self h, rfl⟩, fun _ => ⟨i, _, set_self h, rfl⟩⟩
    intro c' hc'
    rcases h1 c' hc' with h' | h' | ⟨j, es, hj, he⟩
    · exact Or.inl (by simp [h'])
    · exact Or.inr (Or.inl h')
    · by_cases hij : i = j
      · subst hij
        rw [h] at hj
        cases hj
        exact Or.inl (by simp [he])
      · exact Or.inr (Or.inr ⟨j, es, get_set.2 (Or.inr ⟨hij, hj⟩), he⟩)
  | finish i h =>
    have hli := h3 i h
    refine ⟨fun _ hc => keepB h (by simp) hc, ?_, fun j hj => h4 j (fin' h (by simp) hj), by simp, fun hc => absurd (h4 i h) hc⟩
    intro j hj
    have := get_set.1 hj
    rcases this with ⟨_, _, h'⟩ | ⟨hne, h'⟩
    · simp at h'
    · have := h3 j h'
      rw [hli] at this
      exact absurd (Option.some.inj this) hne
  | done i h =>
    exact ⟨fun _ hc => keepB h (by simp) hc, fun j hj => h3 j (fin' h (by simp) hj),
      fun j hj => h4 j (fin' h (by simp) hj), fun hb => keep h rfl (h5 hb), fun hb => keep h rfl (h6 hb)⟩
  | finished i h =>
    exact ⟨fun _ hc => keepB h (by simp) hc, fun j hj => h3 j (fin' h (by simp) hj),
      fun j hj => h4 j (fin' h (by simp) hj), fun hb => keep h rfl (h5 hb), fun hb => keep h rfl (h6 hb)⟩
  | tail i h =>
    exact ⟨fun _ hc => keepB h (by simp) hc, fun j hj => h3 j (fin' h (by simp) hj),
      fun j hj => h4 j (fin' h (by simp) hj), fun hb => keep h rfl (h5 hb), fun hb => keep h rfl (h6 hb)⟩

theorem Reach.inv {n : Nat} {s : State C} (h : Reach n s) : Inv s := by
  induction h with
  | init => exact Inv.init n
  | step _ h2 ih => exact ih.step h2

theorem ReachOne.reach {n : Nat} {s : State C} (h : ReachOne n s) : Reach n s := by
  induction h with
  | init => exact .init
  | step _ h2 _ ih => exact .step ih h2

/-- With at most one thread in `process()`, the tree state is BUILD or REPLACE while the builder
    is active. -/
theorem ReachOne.active {n : Nat} {s : State C} (h : ReachOne n s) :
    ((∃ (i : Nat) (p : PC C), s.pcs[i]? = some p ∧ p.active = true) → s.busyTree = true) ∧
    (∀ (i j : Nat) (p q : PC C), s.pcs[i]? = some p → s.pcs[j]? = some q →
        p.processing = true → q.processing = true → i = j) := by
  induction h with
  | init =>
    refine ⟨?_, ?_⟩
    · rintro ⟨i, p, hi, hp⟩; rw [init_pcs hi] at hp; simp [PC.active] at hp
    · intro i j p q hi _ hp _; rw [init_pcs hi] at hp; simp [PC.processing] at hp
  | step _ h2 h3 ih =>
    refine ⟨?_, h3⟩
    obtain ⟨h1, hone⟩ := ih
    have quiet : ∀ {s : State C} (i : Nat) (a : PC C), a.active = false →
        (∃ (j : Nat) (p : PC C), (s.pcs.set i a)[j]? = some p ∧ p.active = true) →
        ∃ (j : Nat) (p : PC C), s.pcs[j]? = some p ∧ p.active = true := by
      rintro s i a ha ⟨j, p, hj, hp⟩
      rcases get_set.1 hj with ⟨_, _, h⟩ | ⟨_, h⟩
      · rw [h, ha] at hp; simp at hp
      · exact ⟨j, p, h, hp⟩
    have act : ∀ {p : PC C}, p.active = true → p.processing = true := by
      intro p hp; cases p <;> simp [PC.active, PC.processing] at hp ⊢
    cases h2 with
    | call i c h => exact fun hx => h1 (quiet i _ rfl hx)
    | add i c h hl => exact fun hx => h1 (quiet i _ rfl hx)
    | testBusy i h hb => exact fun hx => h1 (quiet i _ rfl hx)
    | testFree i h hb => exact fun hx => h1 (quiet i _ rfl hx)
    | setBusy i h => exact fun hx => h1 (quiet i _ rfl hx)
    | begin i h => exact fun _ => rfl
    | take i h hl hc => exact fun _ => rfl
    | none i h hl hc => exact fun _ => h1 ⟨i, _, h, rfl⟩
    | poll i c cs ds h hc => exact fun _ => h1 ⟨i, _, h, rfl⟩
    | built i ds h => exact fun _ => h1 ⟨i, _, h, rfl⟩
    | finish i h => exact fun _ => h1 ⟨i, _, h, rfl⟩
    | done i h =>
      rintro ⟨j, p, hj, hp⟩
      rcases get_set.1 hj with ⟨_, _, h'⟩ | ⟨hne, h'⟩
      · rw [h'] at hp; simp [PC.active] at hp
      · exact absurd (hone i j _ p h h' rfl (act hp)) hne
    | finished i h =>
      rintro ⟨j, p, hj, hp⟩
      rcases get_set.1 hj with ⟨_, _, h'⟩ | ⟨hne, h'⟩
      · rw [h'] at hp; simp [PC.active] at hp
      · exact absurd (hone i j _ p h h' rfl (act hp)) hne
    | tail i h =>
      rintro ⟨j, p, hj, hp⟩
      rcases get_set.1 hj with ⟨_, _, h'⟩ | ⟨hne, h'⟩
      · rw [h'] at hp; simp [PC.active] at hp
      · exact absurd (hone i j _ p h h' rfl (act hp)) hne

end Parce.WK

import Verif.Lemmas.Caching
import Verif.Spec.Caching
/-!
# Lemmas on cached methods
-/
namespace Parce.Cache
variable {O K : Type} [DecidableEq O] [DecidableEq K]

/-- The thread has this lock. -/
def MPhase.Inside (l : Nat) : MPhase O K → Prop
  | .holds _ _ l' _ | .calls _ _ l' _ | .leaves _ _ l' _ _ => l' = l
  | _ => False

/-- The thread made the lock that is in the table for the object. -/
def MPhase.Owns (o : O) : MPhase O K → Prop
  | .asks o' _ _ own | .holds o' _ _ own | .calls o' _ _ own | .leaves o' _ _ own _ => o' = o ∧ own = true
  | .clears o' _ _ => o' = o
  | .idle => False

/-- The invariant of all executions. -/
structure MInv (s : MState O K) : Prop where
  inside : ∀ t l, (s.phase t).Inside l → s.holder l = some t
  locked : ∀ t l, s.holder l = some t → (s.phase t).Inside l
  owner : ∀ t u o, (s.phase t).Owns o → (s.phase u).Owns o → t = u
  present : ∀ t o, (s.phase t).Owns o → s.table o ≠ none

theorem MInv.init : MInv (O := O) (K := K) {} := by
  constructor <;> simp [MPhase.Inside, MPhase.Owns]

/-- A step that changes what one thread does, but neither who has which lock nor who owns which. -/
theorem MInv.same {s s' : MState O K} (h : MInv s) (t : Nat) (p : MPhase O K) (hp : s'.phase = upd s.phase t p)
    (hin : ∀ l, p.Inside l ↔ (s.phase t).Inside l) (hown : ∀ o, p.Owns o ↔ (s.phase t).Owns o) (hh : s'.holder = s.holder)
    (ht : s'.table = s.table) : MInv s' := by
  have hin' : ∀ u l, (s'.phase u).Inside l ↔ (s.phase u).Inside l := by
    intro u l
    rw [hp]
    by_cases e : u = t
    · rw [e, upd_same]; exact hin l
    · rw [upd_other _ _ e]
  have hown' : ∀ u o, (s'.phase u).Owns o ↔ (s.phase u).Owns o := by
    intro u l
    rw [hp]
    by_cases e : u = t
    · rw [e, upd_same]; exact hown l
    · rw [upd_other _ _ e]
  constructor
  · intro u l hu; rw [hh]; exact h.inside u l ((hin' u l).1 hu)
  · intro u l hu; rw [hh] at hu; exact (hin' u l).2 (h.locked u l hu)
  · intro u v o hu hv; exact h.owner u v o ((hown' u o).1 hu) ((hown' v o).1 hv)
  · intro u o hu; rw [ht]; exact h.present u o ((hown' u o).1 hu)

theorem MInv.step {a : Act O K} {s s' : MState O K} (h : MInv s) (hs : MStep a s s') : MInv s' := by
  cases hs with
  | find t o k l hi ht =>
    exact h.same t _ rfl (by intro l; simp [MPhase.Inside, hi]) (by intro o; simp [MPhase.Owns, hi]) rfl rfl
  | make t o k hi ht =>
    have hno : ∀ u, ¬ (s.phase u).Owns o := fun u hu => h.present u o hu ht
    refine ⟨?_, ?_, ?_, ?_⟩
    · intro u l hu
      by_cases e : u = t
      · subst e; simp [upd, MPhase.Inside] at hu
      · exact h.inside u l (by simpa [upd, e] using hu)
    · intro u l hu
      have h1 := h.locked u l hu
      have e : u ≠ t := by rintro rfl; rw [hi] at h1; exact h1
      simpa [upd, e] using h1
    · intro u v o' hu hv
      by_cases eu : u = t <;> by_cases ev : v = t
      · rw [eu, ev]
      · subst eu
        have h1 : o = o' := by simpa [upd, MPhase.Owns] using hu
        subst h1
        exact absurd (by simpa [upd, ev] using hv) (hno v)
      · subst ev
        have h1 : o = o' := by simpa [upd, MPhase.Owns] using hv
        subst h1
        exact absurd (by simpa [upd, eu] using hu) (hno u)
      · exact h.owner u v o' (by simpa [upd, eu] using hu) (by simpa [upd, ev] using hv)
    · intro u o' hu
      by_cases e' : o' = o
      · simp [upd, e']
      · have e : u ≠ t := by
          rintro rfl
          have h1 : o = o' := by simpa [upd, MPhase.Owns] using hu
          exact e' h1.symm
        have := h.present u o' (by simpa [upd, e] using hu)
        simpa [upd, e'] using this
  | acquire t o k l own hi hl =>
    refine ⟨?_, ?_, ?_, ?_⟩
    · intro u l' hu
      by_cases e : u = t
      · subst e
        have h1 : l = l' := by simpa [upd, MPhase.Inside] using hu
        simp [upd, h1]
      · have h1 := h.inside u l' (by simpa [upd, e] using hu)
        have e' : l' ≠ l := by rintro rfl; rw [hl] at h1; cases h1
        simpa [upd, e'] using h1
    · intro u l' hu
      by_cases e' : l' = l
      · subst e'
        have h1 : t = u := by simpa [upd] using hu
        subst h1
        simp [upd, MPhase.Inside]
      · have h1 := h.locked u l' (by simpa [upd, e'] using hu)
        have e : u ≠ t := by rintro rfl; rw [hi] at h1; exact h1
        simpa [upd, e] using h1
    · intro u v o' hu hv
      refine h.owner u v o' ?_ ?_
      · by_cases e : u = t
        · subst e; rw [hi]; simpa [upd, MPhase.Owns] using hu
        · simpa [upd, e] using hu
      · by_cases e : v = t
        · subst e; rw [hi]; simpa [upd, MPhase.Owns] using hv
        · simpa [upd, e] using hv
    · intro u o' hu
      refine h.present u o' ?_
      by_cases e : u = t
      · subst e; rw [hi]; simpa [upd, MPhase.Owns] using hu
      · simpa [upd, e] using hu
  | hit t o k l own v hi hc =>
    exact h.same t _ rfl (by intro l; simp [MPhase.Inside, hi]) (by intro o; simp [MPhase.Owns, hi]) rfl rfl
  | miss t o k l own hi hc =>
    exact h.same t _ rfl (by intro l; simp [MPhase.Inside, hi]) (by intro o; simp [MPhase.Owns, hi]) rfl rfl
  | value t o k l own hi =>
    exact h.same t _ rfl (by intro l; simp [MPhase.Inside, hi]) (by intro o; simp [MPhase.Owns, hi]) rfl rfl
  | raise t o k l own hi =>
    exact h.same t _ rfl (by intro l; simp [MPhase.Inside, hi]) (by intro o; simp [MPhase.Owns, hi]) rfl rfl
  | release t o k l r hi =>
    refine ⟨?_, ?_, ?_, ?_⟩
    · intro u l' hu
      by_cases e : u = t
      · subst e; simp [upd, MPhase.Inside] at hu
      · have h1 := h.inside u l' (by simpa [upd, e] using hu)
        have e' : l' ≠ l := by
          rintro rfl
          have h2 := h.inside t l' (by rw [hi]; rfl)
          rw [h1] at h2
          exact e (Option.some.inj h2)
        simpa [upd, e'] using h1
    · intro u l' hu
      have e' : l' ≠ l := by rintro rfl; simp [upd] at hu
      have h0 : s.holder l' = some u := by simpa [upd, e'] using hu
      have h1 := h.locked u l' h0
      have e : u ≠ t := by rintro rfl; rw [hi] at h1; exact e' h1.symm
      simpa [upd, e] using h1
    · intro u v o' hu hv
      have e : u ≠ t := by rintro rfl; simp [upd, MPhase.Owns] at hu
      have e' : v ≠ t := by rintro rfl; simp [upd, MPhase.Owns] at hv
      exact h.owner u v o' (by simpa [upd, e] using hu) (by simpa [upd, e'] using hv)
    · intro u o' hu
      have e : u ≠ t := by rintro rfl; simp [upd, MPhase.Owns] at hu
      exact h.present u o' (by simpa [upd, e] using hu)
  | clear t o k l r hi =>
    refine ⟨?_, ?_, ?_, ?_⟩
    · intro u l' hu
      by_cases e : u = t
      · subst e; simp [upd, MPhase.Inside] at hu
      · have h1 := h.inside u l' (by simpa [upd, e] using hu)
        have e' : l' ≠ l := by
          rintro rfl
          have h2 := h.inside t l' (by rw [hi]; rfl)
          rw [h1] at h2
          exact e (Option.some.inj h2)
        simpa [upd, e'] using h1
    · intro u l' hu
      have e' : l' ≠ l := by rintro rfl; simp [upd] at hu
      have h0 : s.holder l' = some u := by simpa [upd, e'] using hu
      have h1 := h.locked u l' h0
      have e : u ≠ t := by rintro rfl; rw [hi] at h1; exact e' h1.symm
      simpa [upd, e] using h1
    · intro u v o' hu hv
      refine h.owner u v o' ?_ ?_
      · by_cases e : u = t
        · subst e; rw [hi]; simpa [upd, MPhase.Owns] using hu
        · simpa [upd, e] using hu
      · by_cases e : v = t
        · subst e; rw [hi]; simpa [upd, MPhase.Owns] using hv
        · simpa [upd, e] using hv
    · intro u o' hu
      refine h.present u o' ?_
      by_cases e : u = t
      · subst e; rw [hi]; simpa [upd, MPhase.Owns] using hu
      · simpa [upd, e] using hu
  | remove t o k r hi =>
    refine ⟨?_, ?_, ?_, ?_⟩
    · intro u l hu
      by_cases e : u = t
      · subst e; simp [upd, MPhase.Inside] at hu
      · exact h.inside u l (by simpa [upd, e] using hu)
    · intro u l hu
      have h1 := h.locked u l hu
      have e : u ≠ t := by rintro rfl; rw [hi] at h1; exact h1
      simpa [upd, e] using h1
    · intro u v o' hu hv
      have e : u ≠ t := by rintro rfl; simp [upd, MPhase.Owns] at hu
      have e' : v ≠ t := by rintro rfl; simp [upd, MPhase.Owns] at hv
      exact h.owner u v o' (by simpa [upd, e] using hu) (by simpa [upd, e'] using hv)
    · intro u o' hu
      have e : u ≠ t := by rintro rfl; simp [upd, MPhase.Owns] at hu
      have h0 : (s.phase u).Owns o' := by simpa [upd, e] using hu
      have e' : o' ≠ o := by
        rintro rfl
        exact e (h.owner u t o' h0 (by rw [hi]; rfl))
      simpa [upd, e'] using h.present u o' h0

theorem MReach.inv {P : Act O K → Prop} {s : MState O K} (h : MReach P s) : MInv s := by
  induction h with
  | init => exact MInv.init
  | step _ _ hs ih => exact ih.step hs

/-! ### One key for each object, and no exceptions -/

/-- The thread is at work for the object, with this lock. -/
def MPhase.At (o : O) (k : K) (l : Nat) : MPhase O K → Prop
  | .asks o' k' l' _ | .holds o' k' l' _ | .calls o' k' l' _ | .leaves o' k' l' _ _ => o' = o ∧ k' = k ∧ l' = l
  | _ => False

/-- The thread is about to return this. -/
def MPhase.Gives (o : O) (k : K) (r : Res) : MPhase O K → Prop
  | .leaves o' k' _ _ r' | .clears o' k' r' => o' = o ∧ k' = k ∧ r' = r
  | _ => False

structure SInv (key : O → K) (s : MState O K) : Prop where
  keyed : ∀ t o k l, (s.phase t).At o k l → k = key o
  keyed' : ∀ t o k r, (s.phase t).Gives o k r → k = key o
  fresh : ∀ t o k l, (s.phase t).At o k l → s.table o = some l ∨ s.cache o k ≠ none
  calling : ∀ t o k l own, s.phase t = .calls o k l own → s.cache o k = none
  gives : ∀ t o k r, (s.phase t).Gives o k r → ∃ v, r = .val v ∧ s.cache o k = some v
  back : ∀ o k r, (o, k, r) ∈ s.returned → ∃ v, r = .val v ∧ s.cache o k = some v
  called : ∀ o k, (o, k) ∈ s.called → s.cache o k ≠ none ∨ ∃ t l own, s.phase t = .calls o k l own
  once : s.called.Nodup

theorem SInv.init (key : O → K) : SInv key {} := by
  constructor <;> simp [MPhase.At, MPhase.Gives]

/-- A step that changes what one thread does. -/
theorem SInv.same {key : O → K} {s s' : MState O K} (h : SInv key s) (t : Nat) (p : MPhase O K) (hp : s'.phase = upd s.phase t p)
    (hat : ∀ o k l, p.At o k l → (s.phase t).At o k l ∨ (k = key o ∧ s.table o = some l))
    (hgives : ∀ o k r, p.Gives o k r → (s.phase t).Gives o k r ∨ (k = key o ∧ ∃ v, r = .val v ∧ s.cache o k = some v))
    (hcalls : ∀ o k l own, p ≠ .calls o k l own) (hcalls' : ∀ o k l own, s.phase t ≠ .calls o k l own)
    (ht : s'.table = s.table) (hc : s'.cache = s.cache) (hr : s'.returned = s.returned) (hd : s'.called = s.called) : SInv key s' := by
  refine ⟨?_, ?_, ?_, ?_, ?_, ?_, ?_, ?_⟩
  · intro u o k l hu
    rw [hp] at hu
    by_cases e : u = t
    · rw [e, upd_same] at hu
      rcases hat o k l hu with h1 | h1
      · exact h.keyed t o k l h1
      · exact h1.1
    · rw [upd_other _ _ e] at hu
      exact h.keyed u o k l hu
  · intro u o k r hu
    rw [hp] at hu
    by_cases e : u = t
    · rw [e, upd_same] at hu
      rcases hgives o k r hu with h1 | h1
      · exact h.keyed' t o k r h1
      · exact h1.1
    · rw [upd_other _ _ e] at hu
      exact h.keyed' u o k r hu
  · intro u o k l hu
    rw [ht, hc]
    rw [hp] at hu
    by_cases e : u = t
    · rw [e, upd_same] at hu
      rcases hat o k l hu with h1 | h1
      · exact h.fresh t o k l h1
      · exact Or.inl h1.2
    · rw [upd_other _ _ e] at hu
      exact h.fresh u o k l hu
  · intro u o k l own hu
    rw [hc]
    rw [hp] at hu
    by_cases e : u = t
    · rw [e, upd_same] at hu
      exact absurd hu (hcalls o k l own)
    · rw [upd_other _ _ e] at hu
      exact h.calling u o k l own hu
  · intro u o k r hu
    rw [hc]
    rw [hp] at hu
    by_cases e : u = t
    · rw [e, upd_same] at hu
      rcases hgives o k r hu with h1 | h1
      · exact h.gives t o k r h1
      · exact h1.2
    · rw [upd_other _ _ e] at hu
      exact h.gives u o k r hu
  · intro o k r hm
    rw [hc]
    rw [hr] at hm
    exact h.back o k r hm
  · intro o k hm
    rw [hc]
    rw [hd] at hm
    rcases h.called o k hm with h1 | ⟨u, l, own, hu⟩
    · exact Or.inl h1
    · have e : u ≠ t := by rintro rfl; exact hcalls' o k l own hu
      exact Or.inr ⟨u, l, own, by rw [hp, upd_other _ _ e]; exact hu⟩
  · rw [hd]; exact h.once

/-- Not two threads run the function for the same object. -/
theorem SInv.alone {key : O → K} {s : MState O K} (h : SInv key s) (hi : MInv s) {t u : Nat} {o : O} {k : K} {l l' : Nat}
    (ht : (s.phase t).At o k l) (htl : (s.phase t).Inside l) (hu : (s.phase u).At o k l') (hul : (s.phase u).Inside l')
    (hc : s.cache o k = none) : t = u := by
  have h1 := (h.fresh t o k l ht).resolve_right (fun e => e hc)
  have h2 := (h.fresh u o k l' hu).resolve_right (fun e => e hc)
  rw [h1] at h2
  cases h2
  have h3 := hi.inside t l htl
  have h4 := hi.inside u l hul
  rw [h3] at h4
  exact Option.some.inj h4

theorem SInv.step {key : O → K} {a : Act O K} {s s' : MState O K} (h : SInv key s) (hi : MInv s) (ha : Single key a) (hs : MStep a s s') :
    SInv key s' := by
  cases hs with
  | find t o k l hp ht =>
    refine h.same t _ rfl ?_ ?_ (by simp) (by simp [hp]) rfl rfl rfl rfl
    · rintro o' k' l' ⟨rfl, rfl, rfl⟩
      exact Or.inr ⟨ha, ht⟩
    · rintro o' k' r h
      exact absurd h (by simp [MPhase.Gives])
  | make t o k hp ht =>
    have hf : ∀ u k' l', (s.phase u).At o k' l' → s.cache o k' ≠ none := by
      intro u k' l' hu
      refine (h.fresh u o k' l' hu).resolve_left ?_
      rw [ht]
      simp
    refine ⟨?_, ?_, ?_, ?_, ?_, h.back, ?_, h.once⟩
    · intro u o' k' l' hu
      by_cases e : u = t
      · subst e
        obtain ⟨rfl, rfl, rfl⟩ : o = o' ∧ k = k' ∧ s.locks = l' := by simpa [upd, MPhase.At] using hu
        exact ha
      · exact h.keyed u o' k' l' (by simpa [upd, e] using hu)
    · intro u o' k' r hu
      by_cases e : u = t
      · subst e; simp [upd, MPhase.Gives] at hu
      · exact h.keyed' u o' k' r (by simpa [upd, e] using hu)
    · intro u o' k' l' hu
      by_cases e : u = t
      · subst e
        obtain ⟨rfl, rfl, rfl⟩ : o = o' ∧ k = k' ∧ s.locks = l' := by simpa [upd, MPhase.At] using hu
        exact Or.inl (upd_same _ _ _)
      · have h0 : (s.phase u).At o' k' l' := by simpa [upd, e] using hu
        by_cases e' : o' = o
        · subst e'; exact Or.inr (hf u k' l' h0)
        · rcases h.fresh u o' k' l' h0 with h1 | h1
          · exact Or.inl (by simpa [upd, e'] using h1)
          · exact Or.inr h1
    · intro u o' k' l' own hu
      by_cases e : u = t
      · subst e; simp [upd] at hu
      · exact h.calling u o' k' l' own (by simpa [upd, e] using hu)
    · intro u o' k' r hu
      by_cases e : u = t
      · subst e; simp [upd, MPhase.Gives] at hu
      · exact h.gives u o' k' r (by simpa [upd, e] using hu)
    · intro o' k' hm
      rcases h.called o' k' hm with h1 | ⟨u, l, own, hu⟩
      · exact Or.inl h1
      · have e : u ≠ t := by rintro rfl; rw [hp] at hu; cases hu
        exact Or.inr ⟨u, l, own, by simpa [upd, e] using hu⟩
  | acquire t o k l own hp hl =>
    refine h.same t _ rfl ?_ ?_ (by simp) (by simp [hp]) rfl rfl rfl rfl
    · intro o' k' l' hh
      exact Or.inl (by rw [hp]; exact hh)
    · rintro o' k' r h
      exact absurd h (by simp [MPhase.Gives])
  | hit t o k l own v hp hc =>
    refine h.same t _ rfl ?_ ?_ (by simp) (by simp [hp]) rfl rfl rfl rfl
    · intro o' k' l' hh
      exact Or.inl (by rw [hp]; exact hh)
    · rintro o' k' r ⟨rfl, rfl, rfl⟩
      exact Or.inr ⟨h.keyed t o k l (by rw [hp]; exact ⟨rfl, rfl, rfl⟩), v, rfl, hc⟩
  | miss t o k l own hp hc =>
    have hat : (s.phase t).At o k l := by rw [hp]; exact ⟨rfl, rfl, rfl⟩
    have hin : (s.phase t).Inside l := by rw [hp]; rfl
    refine ⟨?_, ?_, ?_, ?_, ?_, h.back, ?_, ?_⟩
    · intro u o' k' l' hu
      by_cases e : u = t
      · subst e
        exact h.keyed u o' k' l' (by rw [hp]; simpa [upd, MPhase.At] using hu)
      · exact h.keyed u o' k' l' (by simpa [upd, e] using hu)
    · intro u o' k' r hu
      by_cases e : u = t
      · subst e; simp [upd, MPhase.Gives] at hu
      · exact h.keyed' u o' k' r (by simpa [upd, e] using hu)
    · intro u o' k' l' hu
      by_cases e : u = t
      · subst e
        exact h.fresh u o' k' l' (by rw [hp]; simpa [upd, MPhase.At] using hu)
      · exact h.fresh u o' k' l' (by simpa [upd, e] using hu)
    · intro u o' k' l' own' hu
      by_cases e : u = t
      · subst e
        obtain ⟨rfl, rfl, rfl, rfl⟩ : o = o' ∧ k = k' ∧ l = l' ∧ own = own' := by simpa [upd] using hu
        exact hc
      · exact h.calling u o' k' l' own' (by simpa [upd, e] using hu)
    · intro u o' k' r hu
      by_cases e : u = t
      · subst e; simp [upd, MPhase.Gives] at hu
      · exact h.gives u o' k' r (by simpa [upd, e] using hu)
    · intro o' k' hm
      rcases List.mem_append.1 hm with hm | hm
      · rcases h.called o' k' hm with h1 | ⟨u, l', own', hu⟩
        · exact Or.inl h1
        · have e : u ≠ t := by rintro rfl; rw [hp] at hu; cases hu
          exact Or.inr ⟨u, l', own', by simpa [upd, e] using hu⟩
      · obtain ⟨rfl, rfl⟩ : o' = o ∧ k' = k := by simpa using hm
        exact Or.inr ⟨t, l, own, upd_same _ _ _⟩
    · refine List.nodup_append.2 ⟨h.once, by simp, ?_⟩
      rintro x hx y hy rfl
      simp at hy
      subst hy
      rcases h.called o k hx with h1 | ⟨u, l', own', hu⟩
      · exact h1 hc
      · have := h.alone hi hat hin (u := u) (l' := l') (by rw [hu]; exact ⟨rfl, rfl, rfl⟩) (by rw [hu]; rfl) hc
        subst this
        rw [hp] at hu
        cases hu
  | value t o k l own hp =>
    have hat : (s.phase t).At o k l := by rw [hp]; exact ⟨rfl, rfl, rfl⟩
    have hin : (s.phase t).Inside l := by rw [hp]; rfl
    have hc := h.calling t o k l own hp
    have hk := h.keyed t o k l hat
    have new : ∀ o' k', upd s.cache o (upd (s.cache o) k (some s.made)) o' k' = if o' = o ∧ k' = k then some s.made else s.cache o' k' := by
      intro o' k'
      by_cases e : o' = o
      · subst e
        rw [upd_same]
        by_cases e' : k' = k
        · subst e'; simp [upd]
        · simp [upd, e']
      · simp [upd, e]
    have keep : ∀ o' k' v, s.cache o' k' = some v → upd s.cache o (upd (s.cache o) k (some s.made)) o' k' = some v := by
      intro o' k' v hv
      rw [new, if_neg]
      · exact hv
      · rintro ⟨rfl, rfl⟩; rw [hc] at hv; cases hv
    have keep' : ∀ o' k', s.cache o' k' ≠ none → upd s.cache o (upd (s.cache o) k (some s.made)) o' k' ≠ none := by
      intro o' k' hn
      obtain ⟨v, hv⟩ := Option.ne_none_iff_exists'.1 hn
      rw [keep _ _ v hv]
      simp
    refine ⟨?_, ?_, ?_, ?_, ?_, ?_, ?_, h.once⟩
    · intro u o' k' l' hu
      by_cases e : u = t
      · subst e
        exact h.keyed u o' k' l' (by rw [hp]; simpa [upd, MPhase.At] using hu)
      · exact h.keyed u o' k' l' (by simpa [upd, e] using hu)
    · intro u o' k' r hu
      by_cases e : u = t
      · subst e
        obtain ⟨rfl, rfl, _⟩ : o = o' ∧ k = k' ∧ Res.val s.made = r := by simpa [upd, MPhase.Gives] using hu
        exact hk
      · exact h.keyed' u o' k' r (by simpa [upd, e] using hu)
    · intro u o' k' l' hu
      have h0 : (s.phase u).At o' k' l' := by
        by_cases e : u = t
        · subst e
          rw [hp]; simpa [upd, MPhase.At] using hu
        · simpa [upd, e] using hu
      rcases h.fresh u o' k' l' h0 with h1 | h1
      · exact Or.inl h1
      · exact Or.inr (keep' _ _ h1)
    · intro u o' k' l' own' hu
      by_cases e : u = t
      · subst e; simp [upd] at hu
      · have h0 : s.phase u = .calls o' k' l' own' := by simpa [upd, e] using hu
        show upd s.cache o (upd (s.cache o) k (some s.made)) o' k' = none
        rw [new, if_neg]
        · exact h.calling u o' k' l' own' h0
        · rintro ⟨rfl, rfl⟩
          exact e (h.alone hi hat hin (u := u) (l' := l') (by rw [h0]; exact ⟨rfl, rfl, rfl⟩) (by rw [h0]; rfl) hc).symm
    · intro u o' k' r hu
      by_cases e : u = t
      · subst e
        obtain ⟨rfl, rfl, rfl⟩ : o = o' ∧ k = k' ∧ Res.val s.made = r := by simpa [upd, MPhase.Gives] using hu
        exact ⟨_, rfl, by show upd s.cache o (upd (s.cache o) k (some s.made)) o k = _; rw [new]; simp⟩
      · obtain ⟨v, hv, hv'⟩ := h.gives u o' k' r (by simpa [upd, e] using hu)
        exact ⟨v, hv, keep _ _ _ hv'⟩
    · intro o' k' r hm
      obtain ⟨v, hv, hv'⟩ := h.back o' k' r hm
      exact ⟨v, hv, keep _ _ _ hv'⟩
    · intro o' k' hm
      by_cases e0 : o' = o ∧ k' = k
      · exact Or.inl (by show upd s.cache o (upd (s.cache o) k (some s.made)) o' k' ≠ _; rw [new]; simp [e0])
      · rcases h.called o' k' hm with h1 | ⟨u, l', own', hu⟩
        · exact Or.inl (keep' _ _ h1)
        · have e : u ≠ t := by
            rintro rfl
            rw [hp] at hu
            cases hu
            exact e0 ⟨rfl, rfl⟩
          exact Or.inr ⟨u, l', own', by simpa [upd, e] using hu⟩
  | raise t o k l own hp => exact absurd ha (by simp [Single])
  | release t o k l r hp =>
    have hg := h.gives t o k r (by rw [hp]; exact ⟨rfl, rfl, rfl⟩)
    refine ⟨?_, ?_, ?_, ?_, ?_, ?_, ?_, h.once⟩
    · intro u o' k' l' hu
      have e : u ≠ t := by rintro rfl; simp [upd, MPhase.At] at hu
      exact h.keyed u o' k' l' (by simpa [upd, e] using hu)
    · intro u o' k' r hu
      have e : u ≠ t := by rintro rfl; simp [upd, MPhase.Gives] at hu
      exact h.keyed' u o' k' r (by simpa [upd, e] using hu)
    · intro u o' k' l' hu
      have e : u ≠ t := by rintro rfl; simp [upd, MPhase.At] at hu
      exact h.fresh u o' k' l' (by simpa [upd, e] using hu)
    · intro u o' k' l' own' hu
      have e : u ≠ t := by rintro rfl; simp [upd] at hu
      exact h.calling u o' k' l' own' (by simpa [upd, e] using hu)
    · intro u o' k' r hu
      have e : u ≠ t := by rintro rfl; simp [upd, MPhase.Gives] at hu
      exact h.gives u o' k' r (by simpa [upd, e] using hu)
    · intro o' k' r' hm
      rcases List.mem_append.1 hm with hm | hm
      · exact h.back o' k' r' hm
      · obtain ⟨rfl, rfl, rfl⟩ : o' = o ∧ k' = k ∧ r' = r := by simpa using hm
        exact hg
    · intro o' k' hm
      rcases h.called o' k' hm with h1 | ⟨u, l', own', hu⟩
      · exact Or.inl h1
      · have e : u ≠ t := by rintro rfl; rw [hp] at hu; cases hu
        exact Or.inr ⟨u, l', own', by simpa [upd, e] using hu⟩
  | clear t o k l r hp =>
    refine h.same t _ rfl ?_ ?_ (by simp) (by simp [hp]) rfl rfl rfl rfl
    · intro o' k' l' hh
      exact absurd hh (by simp [MPhase.At])
    · intro o' k' r' hh
      exact Or.inl (by rw [hp]; exact hh)
  | remove t o k r hp =>
    have hg := h.gives t o k r (by rw [hp]; exact ⟨rfl, rfl, rfl⟩)
    have hk := h.keyed' t o k r (by rw [hp]; exact ⟨rfl, rfl, rfl⟩)
    refine ⟨?_, ?_, ?_, ?_, ?_, ?_, ?_, h.once⟩
    · intro u o' k' l' hu
      have e : u ≠ t := by rintro rfl; simp [upd, MPhase.At] at hu
      exact h.keyed u o' k' l' (by simpa [upd, e] using hu)
    · intro u o' k' r hu
      have e : u ≠ t := by rintro rfl; simp [upd, MPhase.Gives] at hu
      exact h.keyed' u o' k' r (by simpa [upd, e] using hu)
    · intro u o' k' l' hu
      have e : u ≠ t := by rintro rfl; simp [upd, MPhase.At] at hu
      have h0 : (s.phase u).At o' k' l' := by simpa [upd, e] using hu
      by_cases e' : o' = o
      · subst e'
        have hk' := h.keyed u o' k' l' h0
        rw [← hk] at hk'
        subst hk'
        obtain ⟨v, _, hv⟩ := hg
        exact Or.inr (by show s.cache o' k' ≠ none; rw [hv]; simp)
      · rcases h.fresh u o' k' l' h0 with h1 | h1
        · exact Or.inl (by simpa [upd, e'] using h1)
        · exact Or.inr h1
    · intro u o' k' l' own' hu
      have e : u ≠ t := by rintro rfl; simp [upd] at hu
      exact h.calling u o' k' l' own' (by simpa [upd, e] using hu)
    · intro u o' k' r hu
      have e : u ≠ t := by rintro rfl; simp [upd, MPhase.Gives] at hu
      exact h.gives u o' k' r (by simpa [upd, e] using hu)
    · intro o' k' r' hm
      rcases List.mem_append.1 hm with hm | hm
      · exact h.back o' k' r' hm
      · obtain ⟨rfl, rfl, rfl⟩ : o' = o ∧ k' = k ∧ r' = r := by simpa using hm
        exact hg
    · intro o' k' hm
      rcases h.called o' k' hm with h1 | ⟨u, l', own', hu⟩
      · exact Or.inl h1
      · have e : u ≠ t := by rintro rfl; rw [hp] at hu; cases hu
        exact Or.inr ⟨u, l', own', by simpa [upd, e] using hu⟩

theorem MReach.single {key : O → K} {s : MState O K} (h : MReach (Single key) s) : SInv key s := by
  induction h with
  | init => exact SInv.init key
  | step hr ha hs ih => exact ih.step hr.inv ha hs

end Parce.Cache

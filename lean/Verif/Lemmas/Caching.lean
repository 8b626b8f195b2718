import Verif.Model.Caching
/-!
# Lemmas on the caches that threads share
-/
namespace Parce.Cache
variable {O K : Type} [DecidableEq O] [DecidableEq K]

theorem upd_same {A B : Type} [DecidableEq A] (f : A → B) (a : A) (b : B) : upd f a b a = b := by simp [upd]

theorem upd_other {A B : Type} [DecidableEq A] (f : A → B) {a x : A} (b : B) (h : x ≠ a) : upd f a b x = f x := by simp [upd, h]

/-! ### One lock -/

/-- The thread has the lock. -/
def DPhase.Inside : DPhase K → Prop
  | .holds _ | .calls _ | .leaves _ _ => True
  | _ => False

/-- The results that are kept. -/
def kept (keepNone : Bool) : Res → Bool
  | .val _ => true
  | .nothing => keepNone
  | .raised => false

/-- The results for a key that are not kept. -/
def wasted (keepNone : Bool) (k : K) (rs : List (K × Res)) : Nat := rs.countP fun p => p.1 = k && !kept keepNone p.2

/-- The number of threads that run the function for a key. -/
def DState.callers (s : DState K) (k : K) : Nat := match s.lock with | none => 0 | some t => if s.phase t = .calls k then 1 else 0

structure DInv (keepNone : Bool) (s : DState K) : Prop where
  inside : ∀ t, (s.phase t).Inside → s.lock = some t
  locked : ∀ t, s.lock = some t → (s.phase t).Inside
  calling : ∀ t k, s.phase t = .calls k → s.cache k = none
  leaving : ∀ t k r, s.phase t = .leaves k r → kept keepNone r = true → s.cache k = some r
  given : ∀ t k r, s.phase t = .leaves k r → (k, r) ∈ s.results
  back : ∀ k r, (k, r) ∈ s.returned → kept keepNone r = true → s.cache k = some r
  got : ∀ k r, (k, r) ∈ s.returned → (k, r) ∈ s.results
  stored : ∀ k r, s.cache k = some r → kept keepNone r = true ∧ (k, r) ∈ s.results
  count : ∀ k, s.called.count k ≤ wasted keepNone k s.results + (if s.cache k = none then 0 else 1) + s.callers k

theorem DInv.init (keepNone : Bool) : DInv (K := K) keepNone {} := by
  constructor <;> simp [DPhase.Inside, DState.callers]

theorem DInv.unique {keepNone : Bool} {s : DState K} (h : DInv keepNone s) {t u : Nat} (ht : (s.phase t).Inside) (hu : (s.phase u).Inside) : t = u := by
  have h1 := h.inside t ht
  have h2 := h.inside u hu
  rw [h1] at h2
  exact Option.some.inj h2

theorem wasted_append (keepNone : Bool) (k : K) (rs : List (K × Res)) (k' : K) (r : Res) :
    wasted keepNone k (rs ++ [(k', r)]) = wasted keepNone k rs + (if k' = k ∧ kept keepNone r = false then 1 else 0) := by
  unfold wasted
  rw [List.countP_append]
  by_cases hk : k' = k <;> cases hr : kept keepNone r <;> simp [hk, hr]

theorem DInv.step {keepNone fast : Bool} {s s' : DState K} (h : DInv keepNone s) (hs : DStep keepNone fast s s') : DInv keepNone s' := by
  cases hs with
  | peek t k r hf hi hc =>
    have h1 := h.stored k r hc
    refine ⟨h.inside, h.locked, h.calling, h.leaving, h.given, ?_, ?_, h.stored, h.count⟩
    · intro k' r' hm hk
      rcases List.mem_append.1 hm with hm | hm
      · exact h.back k' r' hm hk
      · simp at hm; rw [hm.1, hm.2]; exact hc
    · intro k' r' hm
      rcases List.mem_append.1 hm with hm | hm
      · exact h.got k' r' hm
      · simp at hm; rw [hm.1, hm.2]; exact h1.2
  | ask t k hi =>
    have hn : s.lock ≠ some t := by
      intro hl
      have := h.locked t hl
      rw [hi] at this
      exact this
    refine ⟨?_, ?_, ?_, ?_, ?_, h.back, h.got, h.stored, ?_⟩
    · intro u hu
      by_cases e : u = t
      · subst e; simp [upd, DPhase.Inside] at hu
      · exact h.inside u (by simpa [upd, e] using hu)
    · intro u hu
      by_cases e : u = t
      · exact absurd (e ▸ hu) hn
      · simpa [upd, e] using h.locked u hu
    · intro u k' hu
      by_cases e : u = t
      · simp [upd, e] at hu
      · exact h.calling u k' (by simpa [upd, e] using hu)
    · intro u k' r hu
      by_cases e : u = t
      · simp [upd, e] at hu
      · exact h.leaving u k' r (by simpa [upd, e] using hu)
    · intro u k' r hu
      by_cases e : u = t
      · simp [upd, e] at hu
      · exact h.given u k' r (by simpa [upd, e] using hu)
    · intro k'
      have h1 := h.count k'
      unfold DState.callers at h1 ⊢
      cases hl : s.lock with
      | none => simpa [hl] using h1
      | some u =>
        have e : u ≠ t := by rintro rfl; exact hn hl
        simpa [hl, upd, e] using h1
  | acquire t k hi hl =>
    have hno : ∀ u, ¬ (s.phase u).Inside := by
      intro u hu
      have := h.inside u hu
      rw [hl] at this
      cases this
    refine ⟨?_, ?_, ?_, ?_, ?_, h.back, h.got, h.stored, ?_⟩
    · intro u hu
      by_cases e : u = t
      · simp [e]
      · exact absurd (by simpa [upd, e] using hu) (hno u)
    · intro u hu
      simp at hu
      simp [upd, hu, DPhase.Inside]
    · intro u k' hu
      by_cases e : u = t
      · simp [upd, e] at hu
      · exact h.calling u k' (by simpa [upd, e] using hu)
    · intro u k' r hu
      by_cases e : u = t
      · simp [upd, e] at hu
      · exact h.leaving u k' r (by simpa [upd, e] using hu)
    · intro u k' r hu
      by_cases e : u = t
      · simp [upd, e] at hu
      · exact h.given u k' r (by simpa [upd, e] using hu)
    · intro k'
      have h1 := h.count k'
      unfold DState.callers at h1 ⊢
      simpa [hl, upd] using h1
  | hit t k r hi hc =>
    have ht : (s.phase t).Inside := by rw [hi]; trivial
    have hl := h.inside t ht
    have h1 := h.stored k r hc
    have hother : ∀ u, u ≠ t → ¬ (s.phase u).Inside := fun u e hu => e (h.unique hu ht)
    refine ⟨?_, ?_, ?_, ?_, ?_, h.back, h.got, h.stored, ?_⟩
    · intro u hu
      by_cases e : u = t
      · rw [e]; exact hl
      · exact absurd (by simpa [upd, e] using hu) (hother u e)
    · intro u hu
      rw [hl] at hu
      simp at hu
      simp [upd, hu, DPhase.Inside]
    · intro u k' hu
      by_cases e : u = t
      · simp [upd, e] at hu
      · exact h.calling u k' (by simpa [upd, e] using hu)
    · intro u k' r' hu hk
      by_cases e : u = t
      · simp [upd, e] at hu
        rw [← hu.1, ← hu.2]; exact hc
      · exact h.leaving u k' r' (by simpa [upd, e] using hu) hk
    · intro u k' r' hu
      by_cases e : u = t
      · simp [upd, e] at hu
        rw [← hu.1, ← hu.2]; exact h1.2
      · exact h.given u k' r' (by simpa [upd, e] using hu)
    · intro k'
      have h1 := h.count k'
      unfold DState.callers at h1 ⊢
      simpa [hl, upd, hi] using h1
  | miss t k hi hc =>
    have ht : (s.phase t).Inside := by rw [hi]; trivial
    have hl := h.inside t ht
    have hother : ∀ u, u ≠ t → ¬ (s.phase u).Inside := fun u e hu => e (h.unique hu ht)
    refine ⟨?_, ?_, ?_, ?_, ?_, h.back, h.got, h.stored, ?_⟩
    · intro u hu
      by_cases e : u = t
      · rw [e]; exact hl
      · exact absurd (by simpa [upd, e] using hu) (hother u e)
    · intro u hu
      rw [hl] at hu
      simp at hu
      simp [upd, hu, DPhase.Inside]
    · intro u k' hu
      by_cases e : u = t
      · simp [upd, e] at hu
        rw [← hu]; exact hc
      · exact h.calling u k' (by simpa [upd, e] using hu)
    · intro u k' r' hu hk
      by_cases e : u = t
      · simp [upd, e] at hu
      · exact h.leaving u k' r' (by simpa [upd, e] using hu) hk
    · intro u k' r' hu
      by_cases e : u = t
      · simp [upd, e] at hu
      · exact h.given u k' r' (by simpa [upd, e] using hu)
    · intro k'
      have h1 := h.count k'
      unfold DState.callers at h1 ⊢
      simp only [hl, hi, List.count_append, List.count_singleton, upd_same] at h1 ⊢
      by_cases e : k = k'
      · subst e; simp at h1 ⊢; omega
      · simp [e] at h1 ⊢; omega
  | value t k hi =>
    have ht : (s.phase t).Inside := by rw [hi]; trivial
    have hl := h.inside t ht
    have hc := h.calling t k hi
    have hother : ∀ u, u ≠ t → ¬ (s.phase u).Inside := fun u e hu => e (h.unique hu ht)
    have keep : ∀ k' r', s.cache k' = some r' → upd s.cache k (some (Res.val s.made)) k' = some r' := by
      intro k' r' hk'
      have e : k' ≠ k := by rintro rfl; rw [hc] at hk'; cases hk'
      rw [upd_other _ _ e]; exact hk'
    refine ⟨?_, ?_, ?_, ?_, ?_, ?_, ?_, ?_, ?_⟩
    · intro u hu
      by_cases e : u = t
      · rw [e]; exact hl
      · exact absurd (by simpa [upd, e] using hu) (hother u e)
    · intro u hu
      rw [hl] at hu
      simp at hu
      simp [upd, hu, DPhase.Inside]
    · intro u k' hu
      by_cases e : u = t
      · simp [upd, e] at hu
      · have : s.phase u = .calls k' := by simpa [upd, e] using hu
        exact absurd (by rw [this]; trivial) (hother u e)
    · intro u k' r' hu hk
      by_cases e : u = t
      · simp [upd, e] at hu
        rw [← hu.1, ← hu.2]; exact upd_same _ _ _
      · exact keep _ _ (h.leaving u k' r' (by simpa [upd, e] using hu) hk)
    · intro u k' r' hu
      by_cases e : u = t
      · simp [upd, e] at hu
        rw [← hu.1, ← hu.2]; simp
      · exact List.mem_append_left _ (h.given u k' r' (by simpa [upd, e] using hu))
    · intro k' r' hm hk
      exact keep _ _ (h.back k' r' hm hk)
    · intro k' r' hm
      exact List.mem_append_left _ (h.got k' r' hm)
    · intro k' r' hk
      replace hk : upd s.cache k (some (Res.val s.made)) k' = some r' := hk
      by_cases e : k' = k
      · subst e
        rw [upd_same] at hk
        cases hk
        exact ⟨rfl, by simp⟩
      · rw [upd_other _ _ e] at hk
        exact ⟨(h.stored k' r' hk).1, List.mem_append_left _ (h.stored k' r' hk).2⟩
    · intro k'
      have h1 := h.count k'
      unfold DState.callers at h1 ⊢
      simp only [hl, hi, wasted_append, upd_same] at h1 ⊢
      by_cases e : k = k'
      · subst e; simp [hc, upd_same] at h1 ⊢; omega
      · have e' : k' ≠ k := fun h => e h.symm
        simp [e, upd_other _ _ e'] at h1 ⊢; omega
  | nothing t k hi =>
    have ht : (s.phase t).Inside := by rw [hi]; trivial
    have hl := h.inside t ht
    have hc := h.calling t k hi
    have hother : ∀ u, u ≠ t → ¬ (s.phase u).Inside := fun u e hu => e (h.unique hu ht)
    have keep : ∀ k' r', s.cache k' = some r' → (if keepNone then upd s.cache k (some Res.nothing) else s.cache) k' = some r' := by
      intro k' r' hk'
      have e : k' ≠ k := by rintro rfl; rw [hc] at hk'; cases hk'
      cases keepNone
      · exact hk'
      · simp only [if_true]; rw [upd_other _ _ e]; exact hk'
    refine ⟨?_, ?_, ?_, ?_, ?_, ?_, ?_, ?_, ?_⟩
    · intro u hu
      by_cases e : u = t
      · rw [e]; exact hl
      · exact absurd (by simpa [upd, e] using hu) (hother u e)
    · intro u hu
      rw [hl] at hu
      simp at hu
      simp [upd, hu, DPhase.Inside]
    · intro u k' hu
      by_cases e : u = t
      · simp [upd, e] at hu
      · have : s.phase u = .calls k' := by simpa [upd, e] using hu
        exact absurd (by rw [this]; trivial) (hother u e)
    · intro u k' r' hu hk
      by_cases e : u = t
      · simp [upd, e] at hu
        rw [← hu.2] at hk ⊢
        rw [← hu.1]
        cases keepNone
        · cases hk
        · exact upd_same _ _ _
      · exact keep _ _ (h.leaving u k' r' (by simpa [upd, e] using hu) hk)
    · intro u k' r' hu
      by_cases e : u = t
      · simp [upd, e] at hu
        rw [← hu.1, ← hu.2]; simp
      · exact List.mem_append_left _ (h.given u k' r' (by simpa [upd, e] using hu))
    · intro k' r' hm hk
      exact keep _ _ (h.back k' r' hm hk)
    · intro k' r' hm
      exact List.mem_append_left _ (h.got k' r' hm)
    · intro k' r' hk
      cases keepNone
      · exact ⟨(h.stored k' r' hk).1, List.mem_append_left _ (h.stored k' r' hk).2⟩
      · simp only [if_true] at hk
        by_cases e : k' = k
        · subst e
          rw [upd_same] at hk
          cases hk
          exact ⟨rfl, by simp⟩
        · rw [upd_other _ _ e] at hk
          exact ⟨(h.stored k' r' hk).1, List.mem_append_left _ (h.stored k' r' hk).2⟩
    · intro k'
      have h1 := h.count k'
      unfold DState.callers at h1 ⊢
      simp only [hl, hi, wasted_append, upd_same] at h1 ⊢
      by_cases e : k = k'
      · subst e
        cases keepNone
        · simp [hc, kept] at h1 ⊢; omega
        · simp [hc, upd_same, kept] at h1 ⊢; omega
      · have e' : k' ≠ k := fun h => e h.symm
        cases keepNone
        · simp [e] at h1 ⊢; omega
        · simp [e, upd_other _ _ e'] at h1 ⊢; omega
  | raise t k hi =>
    have ht : (s.phase t).Inside := by rw [hi]; trivial
    have hl := h.inside t ht
    have hc := h.calling t k hi
    have hother : ∀ u, u ≠ t → ¬ (s.phase u).Inside := fun u e hu => e (h.unique hu ht)
    refine ⟨?_, ?_, ?_, ?_, ?_, h.back, ?_, ?_, ?_⟩
    · intro u hu
      by_cases e : u = t
      · rw [e]; exact hl
      · exact absurd (by simpa [upd, e] using hu) (hother u e)
    · intro u hu
      rw [hl] at hu
      simp at hu
      simp [upd, hu, DPhase.Inside]
    · intro u k' hu
      by_cases e : u = t
      · simp [upd, e] at hu
      · exact h.calling u k' (by simpa [upd, e] using hu)
    · intro u k' r' hu hk
      by_cases e : u = t
      · simp [upd, e] at hu
        rw [← hu.2] at hk
        cases hk
      · exact h.leaving u k' r' (by simpa [upd, e] using hu) hk
    · intro u k' r' hu
      by_cases e : u = t
      · simp [upd, e] at hu
        rw [← hu.1, ← hu.2]; simp
      · exact List.mem_append_left _ (h.given u k' r' (by simpa [upd, e] using hu))
    · intro k' r' hm
      exact List.mem_append_left _ (h.got k' r' hm)
    · intro k' r' hk
      exact ⟨(h.stored k' r' hk).1, List.mem_append_left _ (h.stored k' r' hk).2⟩
    · intro k'
      have h1 := h.count k'
      unfold DState.callers at h1 ⊢
      simp only [hl, hi, wasted_append, upd_same] at h1 ⊢
      by_cases e : k = k'
      · subst e; simp [hc, kept] at h1 ⊢; omega
      · simp [e] at h1 ⊢; omega
  | release t k r hi =>
    have ht : (s.phase t).Inside := by rw [hi]; trivial
    have hl := h.inside t ht
    have hother : ∀ u, u ≠ t → ¬ (s.phase u).Inside := fun u e hu => e (h.unique hu ht)
    refine ⟨?_, ?_, ?_, ?_, ?_, ?_, ?_, h.stored, ?_⟩
    · intro u hu
      by_cases e : u = t
      · subst e; simp [upd, DPhase.Inside] at hu
      · exact absurd (by simpa [upd, e] using hu) (hother u e)
    · intro u hu
      cases hu
    · intro u k' hu
      by_cases e : u = t
      · simp [upd, e] at hu
      · exact h.calling u k' (by simpa [upd, e] using hu)
    · intro u k' r' hu hk
      by_cases e : u = t
      · simp [upd, e] at hu
      · exact h.leaving u k' r' (by simpa [upd, e] using hu) hk
    · intro u k' r' hu
      by_cases e : u = t
      · simp [upd, e] at hu
      · exact h.given u k' r' (by simpa [upd, e] using hu)
    · intro k' r' hm hk
      rcases List.mem_append.1 hm with hm | hm
      · exact h.back k' r' hm hk
      · simp at hm
        rw [hm.1, hm.2]
        exact h.leaving t k r hi (hm.2 ▸ hk)
    · intro k' r' hm
      rcases List.mem_append.1 hm with hm | hm
      · exact h.got k' r' hm
      · simp at hm
        rw [hm.1, hm.2]
        exact h.given t k r hi
    · intro k'
      have h1 := h.count k'
      unfold DState.callers at h1 ⊢
      simp only [hl, hi] at h1 ⊢
      simp at h1 ⊢
      exact h1

theorem DReach.inv {keepNone fast : Bool} {s : DState K} (h : DReach keepNone fast s) : DInv keepNone s := by
  induction h with
  | init => exact DInv.init keepNone
  | step _ hs ih => exact ih.step hs

end Parce.Cache

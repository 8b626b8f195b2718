import Verif.Lemmas.CachingMethod
/-!
# C87, C88: caches that threads share
-/
namespace Parce.Cache
variable {O K : Type} [DecidableEq O] [DecidableEq K]

/-! ### C87: caches with one lock -/

/-- **C87.** Whatever threads do, the function of a `caching_dict` is run by one thread at a time. -/
theorem C87_alone {keepNone fast : Bool} {s : DState K} (h : DReach keepNone fast s) {t u : Nat} {k k' : K}
    (ht : s.phase t = .calls k) (hu : s.phase u = .calls k') : t = u :=
  h.inv.unique (by rw [ht]; trivial) (by rw [hu]; trivial)

/-- **C87.** All threads get the same value for a key. If None is kept, they also do not get None at one time and a value at another. -/
theorem C87_same {keepNone fast : Bool} {s : DState K} (h : DReach keepNone fast s) {k : K} {r r' : Res}
    (hr : (k, r) ∈ s.returned) (hr' : (k, r') ∈ s.returned) (hn : r ≠ .raised) (hn' : r' ≠ .raised)
    (hk : keepNone = false → r ≠ .nothing ∧ r' ≠ .nothing) : r = r' := by
  have key : ∀ {x : Res}, x ≠ .raised → (keepNone = false → x ≠ .nothing) → kept keepNone x = true := by
    intro x hx hx'
    cases x with
    | val n => rfl
    | nothing =>
      cases keepNone
      · exact absurd rfl (hx' rfl)
      · rfl
    | raised => exact absurd rfl hx
  have h1 := h.inv.back k r hr (key hn fun e => (hk e).1)
  have h2 := h.inv.back k r' hr' (key hn' fun e => (hk e).2)
  rw [h1] at h2
  exact Option.some.inj h2

/-- **C87.** What a thread gets is what a call of the function for that key gave. -/
theorem C87_result {keepNone fast : Bool} {s : DState K} (h : DReach keepNone fast s) {k : K} {r : Res} (hr : (k, r) ∈ s.returned) :
    (k, r) ∈ s.results :=
  h.inv.got k r hr

/-- **C87.** The function is called once for a key, not counting calls that raised an exception and, if None is not kept, calls
    that gave None. -/
theorem C87_once {keepNone fast : Bool} {s : DState K} (h : DReach keepNone fast s) (k : K) :
    s.called.count k ≤ s.results.count (k, .raised) + (if keepNone then 0 else s.results.count (k, .nothing)) + 1 := by
  have h1 := h.inv.count k
  have h2 : wasted keepNone k s.results ≤ s.results.count (k, .raised) + (if keepNone then 0 else s.results.count (k, .nothing)) := by
    generalize s.results = rs
    induction rs with
    | nil => simp [wasted]
    | cons p rs ih =>
      obtain ⟨k', r⟩ := p
      unfold wasted at ih ⊢
      rw [List.countP_cons, List.count_cons, List.count_cons]
      by_cases e : k' = k
      · subst e
        cases r <;> cases keepNone <;> simp [kept] at ih ⊢ <;> omega
      · cases keepNone <;> simp [e] at ih ⊢ <;> omega
  have h3 : (if s.cache k = none then 0 else 1) + s.callers k ≤ 1 := by
    cases hl : s.lock with
    | none => simp [DState.callers, hl]; split <;> omega
    | some t =>
      by_cases hp : s.phase t = .calls k
      · rw [h.inv.calling t k hp]; simp [DState.callers, hl, hp]
      · simp [DState.callers, hl, hp]; split <;> omega
  omega

/-- **C87.** There is no deadlock: while a thread is in the cache, one of those that are can go on. -/
theorem C87_progress {keepNone fast : Bool} {s : DState K} (h : DReach keepNone fast s) {t : Nat} (ht : s.phase t ≠ .idle) :
    ∃ u s', DStep keepNone fast s s' ∧ s.phase u ≠ .idle ∧ s'.phase u ≠ s.phase u := by
  have inside : ∀ u, (s.phase u).Inside → ∃ s', DStep keepNone fast s s' ∧ s.phase u ≠ .idle ∧ s'.phase u ≠ s.phase u := by
    intro u hu
    cases hp : s.phase u with
    | idle => rw [hp] at hu; exact absurd hu (by simp [DPhase.Inside])
    | asks k => rw [hp] at hu; exact absurd hu (by simp [DPhase.Inside])
    | holds k =>
      cases hc : s.cache k with
      | none => exact ⟨_, .miss u k hp hc, by simp, by simp [upd]⟩
      | some r => exact ⟨_, .hit u k r hp hc, by simp, by simp [upd]⟩
    | calls k => exact ⟨_, .value u k hp, by simp, by simp [upd]⟩
    | leaves k r => exact ⟨_, .release u k r hp, by simp, by simp [upd]⟩
  cases hp : s.phase t with
  | idle => exact absurd hp ht
  | asks k =>
    cases hl : s.lock with
    | none => exact ⟨t, _, .acquire t k hp hl, ht, by simp [upd, hp]⟩
    | some u => exact ⟨u, inside u (h.inv.locked u hl)⟩
  | holds k => exact ⟨t, inside t (by rw [hp]; trivial)⟩
  | calls k => exact ⟨t, inside t (by rw [hp]; trivial)⟩
  | leaves k r => exact ⟨t, inside t (by rw [hp]; trivial)⟩

/-- Two threads ask for the same key at once; the function fails once and is then called again. -/
example : ∃ s : DState Nat, DReach true false s ∧ s.returned = [(7, .raised), (7, .val 0)] ∧ s.called = [7, 7] ∧ s.phase 2 = .asks 7 := by
  have h1 := DReach.step (.step (.step (.init (K := Nat) (keepNone := true) (fast := false)) (.ask 0 7 rfl)) (.ask 1 7 rfl)) (.ask 2 7 rfl)
  have h2 := DReach.step (.step (.step (.step h1 (.acquire 1 7 rfl rfl)) (.miss 1 7 rfl rfl)) (.raise 1 7 rfl)) (.release 1 7 .raised rfl)
  have h3 := DReach.step (.step (.step (.step h2 (.acquire 0 7 rfl rfl)) (.miss 0 7 rfl rfl)) (.value 0 7 rfl)) (.release 0 7 (.val 0) rfl)
  exact ⟨_, h3, rfl, rfl, rfl⟩

/-! ### C88: cached methods -/

/-- **C88, violated.** A cached method does not always return the same value for the same arguments. Thread 1 makes the lock of the
    object and calls the method with `0`; thread 0 gets the same lock and waits, to call it with `1`. Thread 1 is ready and removes the lock
    although thread 0 waits for it. While thread 0 runs the function, thread 1 calls the method with `1` as well, gets another lock, and runs
    the function too. -/
theorem C88_violated : ∃ s : MState Nat Nat, MReach Quiet s ∧ Differ s := by
  have h1 := MReach.step (.step (.init (O := Nat) (K := Nat) (P := Quiet)) (by trivial) (.make 1 0 0 rfl rfl)) (by trivial) (.find 0 0 1 0 rfl rfl)
  have h2 := MReach.step (.step (.step h1 (by trivial) (.acquire 1 0 0 0 true rfl rfl)) (by trivial) (.miss 1 0 0 0 true rfl rfl)) (by trivial)
    (.value 1 0 0 0 true rfl)
  have h3 := MReach.step (.step h2 (by trivial) (.clear 1 0 0 0 (.val 0) rfl)) (by trivial) (.remove 1 0 0 (.val 0) rfl)
  have h4 := MReach.step (.step h3 (by trivial) (.acquire 0 0 1 0 false rfl rfl)) (by trivial) (.miss 0 0 1 0 false rfl rfl)
  have h5 := MReach.step (.step (.step h4 (by trivial) (.make 1 0 1 rfl rfl)) (by trivial) (.acquire 1 0 1 1 true rfl rfl)) (by trivial)
    (.miss 1 0 1 1 true rfl rfl)
  have h6 := MReach.step (.step h5 (by trivial) (.value 0 0 1 0 false rfl)) (by trivial) (.value 1 0 1 1 true rfl)
  have h7 := MReach.step (.step (.step h6 (by trivial) (.release 0 0 1 0 (.val 1) rfl)) (by trivial) (.clear 1 0 1 1 (.val 2) rfl)) (by trivial)
    (.remove 1 0 1 (.val 2) rfl)
  exact ⟨_, h7, 0, 1, 1, 2, by simp, by simp, by simp⟩

/-- **C88, violated.** Nor does a cached property (no arguments), if the function raises an exception once. -/
theorem C88_raise_violated : ∃ s : MState Nat Unit, MReach Free s ∧ Differ s := by
  have h1 := MReach.step (.step (.init (O := Nat) (K := Unit) (P := Free)) (by trivial) (.make 1 0 () rfl rfl)) (by trivial) (.find 0 0 () 0 rfl rfl)
  have h2 := MReach.step (.step (.step h1 (by trivial) (.acquire 1 0 () 0 true rfl rfl)) (by trivial) (.miss 1 0 () 0 true rfl rfl)) (by trivial)
    (.raise 1 0 () 0 true rfl)
  have h3 := MReach.step (.step h2 (by trivial) (.clear 1 0 () 0 .raised rfl)) (by trivial) (.remove 1 0 () .raised rfl)
  have h4 := MReach.step (.step h3 (by trivial) (.acquire 0 0 () 0 false rfl rfl)) (by trivial) (.miss 0 0 () 0 false rfl rfl)
  have h5 := MReach.step (.step (.step h4 (by trivial) (.make 1 0 () rfl rfl)) (by trivial) (.acquire 1 0 () 1 true rfl rfl)) (by trivial)
    (.miss 1 0 () 1 true rfl rfl)
  have h6 := MReach.step (.step h5 (by trivial) (.value 0 0 () 0 false rfl)) (by trivial) (.value 1 0 () 1 true rfl)
  have h7 := MReach.step (.step (.step h6 (by trivial) (.release 0 0 () 0 (.val 0) rfl)) (by trivial) (.clear 1 0 () 1 (.val 1) rfl)) (by trivial)
    (.remove 1 0 () (.val 1) rfl)
  exact ⟨_, h7, 0, (), 0, 1, by simp, by simp, by simp⟩

/-- **C88, partial.** The claim is that all threads get the same value for an object and arguments, and that the function is called once for
    them. This holds if each object is used with one tuple of arguments only, as a cached property is, and the function raises no exception.
    Missing are methods with other arguments, and exceptions, for which it is false. -/
theorem C88_partial {key : O → K} {s : MState O K} (h : MReach (Single key) s) :
    s.called.Nodup ∧ (∀ o k r, (o, k, r) ∈ s.returned → ∃ v, r = .val v) ∧ ¬ Differ s := by
  have hi := h.single
  refine ⟨hi.once, ?_, ?_⟩
  · intro o k r hr
    obtain ⟨v, hv, _⟩ := hi.back o k r hr
    exact ⟨v, hv⟩
  · rintro ⟨o, k, m, n, hne, hm, hn⟩
    obtain ⟨v, hv, hv'⟩ := hi.back o k _ hm
    obtain ⟨w, hw, hw'⟩ := hi.back o k _ hn
    cases hv
    cases hw
    rw [hv'] at hw'
    exact hne (Option.some.inj hw')

/-- **C88.** The removal of a lock (`del locker[obj]`) finds the lock. -/
theorem C88_removes {P : Act O K → Prop} {s : MState O K} (h : MReach P s) {t : Nat} {o : O} {k : K} {r : Res} (ht : s.phase t = .clears o k r) :
    ∃ l, s.table o = some l :=
  Option.ne_none_iff_exists'.1 (h.inv.present t o (by rw [ht]; rfl))

/-- **C88.** There is no deadlock: while a thread is in the method, one of those that are can go on. -/
theorem C88_progress {P : Act O K → Prop} {s : MState O K} (h : MReach P s) {t : Nat} (ht : s.phase t ≠ .idle) :
    ∃ u s', MStep .other s s' ∧ s.phase u ≠ .idle ∧ s'.phase u ≠ s.phase u := by
  have inside : ∀ u l, (s.phase u).Inside l → ∃ s', MStep .other s s' ∧ s.phase u ≠ .idle ∧ s'.phase u ≠ s.phase u := by
    intro u l hu
    cases hp : s.phase u with
    | idle => rw [hp] at hu; exact absurd hu (by simp [MPhase.Inside])
    | asks o k l' own => rw [hp] at hu; exact absurd hu (by simp [MPhase.Inside])
    | clears o k r => rw [hp] at hu; exact absurd hu (by simp [MPhase.Inside])
    | holds o k l' own =>
      cases hc : s.cache o k with
      | none => exact ⟨_, .miss u o k l' own hp hc, by simp, by simp [upd]⟩
      | some r => exact ⟨_, .hit u o k l' own r hp hc, by simp, by simp [upd]⟩
    | calls o k l' own => exact ⟨_, .value u o k l' own hp, by simp, by simp [upd]⟩
    | leaves o k l' own r =>
      cases own
      · exact ⟨_, .release u o k l' r hp, by simp, by simp [upd]⟩
      · exact ⟨_, .clear u o k l' r hp, by simp, by simp [upd]⟩
  cases hp : s.phase t with
  | idle => exact absurd hp ht
  | asks o k l own =>
    cases hl : s.holder l with
    | none => exact ⟨t, _, .acquire t o k l own hp hl, ht, by simp [upd, hp]⟩
    | some u => exact ⟨u, inside u l (h.inv.locked u l hl)⟩
  | holds o k l own => exact ⟨t, inside t l (by rw [hp]; rfl)⟩
  | calls o k l own => exact ⟨t, inside t l (by rw [hp]; rfl)⟩
  | leaves o k l own r => exact ⟨t, inside t l (by rw [hp]; rfl)⟩
  | clears o k r => exact ⟨t, _, .remove t o k r hp, ht, by simp [upd, hp]⟩

/-- Three threads use a cached property of one object: one waits for the old lock, while another already has a new one. -/
example : ∃ s : MState Nat Unit, MReach (Single fun _ => ()) s ∧ s.returned = [(0, (), .val 0)] ∧ s.phase 0 = .holds 0 () 0 false ∧
    s.phase 2 = .holds 0 () 1 true := by
  have h1 := MReach.step (.step (.init (O := Nat) (K := Unit) (P := Single fun _ => ())) (by rfl) (.make 1 0 () rfl rfl)) (by rfl)
    (.find 0 0 () 0 rfl rfl)
  have h2 := MReach.step (.step (.step h1 (by trivial) (.acquire 1 0 () 0 true rfl rfl)) (by trivial) (.miss 1 0 () 0 true rfl rfl)) (by trivial)
    (.value 1 0 () 0 true rfl)
  have h3 := MReach.step (.step h2 (by trivial) (.clear 1 0 () 0 (.val 0) rfl)) (by trivial) (.remove 1 0 () (.val 0) rfl)
  have h4 := MReach.step (.step (.step h3 (by trivial) (.acquire 0 0 () 0 false rfl rfl)) (by rfl) (.make 2 0 () rfl rfl)) (by trivial)
    (.acquire 2 0 () 1 true rfl rfl)
  exact ⟨_, h4, rfl, rfl, rfl⟩

end Parce.Cache

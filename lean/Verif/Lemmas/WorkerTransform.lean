import Verif.Model.WorkerTransform
/-!
# Lemmas about the transform protocol
-/
namespace Parce.WT

/-- Before the end of building. -/
def PC.pre : PC → Bool
  | .start => true
  | .building _ => true
  | .replacing _ => true
  | _ => false

/-- The state `start()` leaves behind. -/
def State.tsB (s : State) : Prop := s.ts = if s.transformer.isSome then .build else .idle

/-- What holds in an execution without overlap when the only thread is at `p`. -/
def PInv (s : State) : PC → Prop
  | .start => s.tree = s.taken ∧ s.tsB
  | .building v => v = s.taken ∧ s.tsB
  | .replacing v => v = s.taken ∧ s.tsB
  | .fetch none => s.tree = s.taken ∧ s.tsB
  | .fetch (some t) => s.tree = s.taken ∧ s.transformer = some t ∧ s.ts = .done ∧ s.cache t = some s.tree
  | .tstart t => s.tree = s.taken ∧ s.transformer = some t ∧ s.ts = .build
  | .tinit t => s.tree = s.taken ∧ s.transformer = some t ∧ s.ts = .build
  | .loop t v => s.tree = s.taken ∧ s.transformer = some t ∧ s.ts = .build ∧ v = s.tree ∧ s.intr t = some false
  | .ready t r => s.tree = s.taken ∧ s.transformer = some t ∧ s.ts = .build ∧ r = some s.tree ∧ s.intr t = some false
  | .store t r => s.tree = s.taken ∧ s.transformer = some t ∧ s.ts = .replace ∧ r = some s.tree ∧ s.intr t = some false
  | .del t => s.tree = s.taken ∧ s.transformer = some t ∧ s.ts = .replace ∧ s.cache t = some s.tree ∧ s.intr t = some false
  | .tdone t => s.tree = s.taken ∧ s.transformer = some t ∧ s.ts = .replace ∧ s.cache t = some s.tree
  | .ending => s.tree = s.taken ∧
      ((s.transformer = none ∧ s.ts = .idle) ∨ ∃ t, s.transformer = some t ∧ s.ts = .done ∧ s.cache t = some s.tree)

/-- What holds when no thread is running. -/
structure NInv (s : State) : Prop where
  tree : s.tree = s.taken
  busy : s.busy = true → s.main = .start ∨ s.main = .spawn
  ts : s.ts = if s.main = .spawn ∧ s.transformer.isSome then .build else .idle
  idle : s.main = .idle → s.taken = s.want ∧ ∀ t, s.transformer = some t → s.cache t = some s.tree ∨ s.want = 0

structure Inv (s : State) : Prop where
  raised : s.raised = false
  le : s.taken ≤ s.want
  thr : (s.threads = [] ∧ NInv s) ∨ ∃ p, s.threads = [p] ∧ s.main ≠ .spawn ∧ PInv s p ∧
    (p.pre = false → (s.busy = true → s.main = .start) ∧ (s.main = .idle → s.taken = s.want))

theorem inv_init (tr : Option Nat) : Inv (init tr) :=
  ⟨rfl, Nat.le_refl _, .inl ⟨rfl, ⟨rfl, (fun h => by cases h), by simp [init], (fun _ => ⟨rfl, fun _ _ => .inr rfl⟩)⟩⟩⟩

theorem pinv_congr {s s' : State} {p : PC} (h : PInv s p) (h1 : s'.tree = s.tree) (h2 : s'.taken = s.taken)
    (h3 : s'.transformer = s.transformer) (h4 : s'.ts = s.ts) (h5 : s'.intr = s.intr) (h6 : s'.cache = s.cache) : PInv s' p := by
  cases p <;> try (rename_i o; cases o) <;> simpa only [PInv, State.tsB, h1, h2, h3, h4, h5, h6] using h
  all_goals simpa only [PInv, State.tsB, h1, h2, h3, h4, h5, h6] using h

theorem inv_thread {s s' : State} {i : Nat} {go : Bool} (h : Inv s) (hs : step s (.thread i go) = some s') : Inv s' := by
  obtain ⟨hr, hle, hthr⟩ := h
  rcases hthr with ⟨hn, _⟩ | ⟨p, hp, hm, hpi, hq⟩
  · simp [step, hn] at hs
  · cases i with
    | succ i => simp [step, hp] at hs
    | zero =>
      simp only [step, hp, List.getElem?_cons_zero, Option.map_some, Option.some.injEq] at hs
      subst hs
      cases p with
      | start =>
        simp only [threadStep]
        simp only [PInv] at hpi
        split
        · refine ⟨hr, Nat.le_refl _, .inr ⟨.building s.want, by simp only [State.goto, hp]; rfl, hm, ⟨rfl, hpi.2⟩, by simp [PC.pre]⟩⟩
        · next hlt =>
          refine ⟨hr, hle, .inr ⟨.fetch none, by simp only [State.goto, hp]; rfl, hm, ⟨hpi.1, hpi.2⟩, fun _ => ⟨(fun h => by cases h), fun _ => ?_⟩⟩⟩
          simp only [State.goto]
          omega
      | building v =>
        simp only [PInv] at hpi
        simp only [threadStep]
        cases ht : s.transformer with
        | none =>
          exact ⟨hr, hle, .inr ⟨.replacing v, by simp only [State.goto, hp]; rfl, hm, by simpa only [PInv, State.tsB, State.goto, ht] using hpi, by simp [PC.pre]⟩⟩
        | some t =>
          exact ⟨hr, hle, .inr ⟨.replacing v, by simp only [State.goto, hp]; rfl, hm, ⟨hpi.1, by have := hpi.2; simp only [State.tsB, ht] at this; exact this⟩, by simp [PC.pre]⟩⟩
      | replacing v =>
        simp only [PInv] at hpi
        exact ⟨hr, hle, .inr ⟨.start, by simp only [threadStep, State.goto, hp]; rfl, hm, ⟨hpi.1, hpi.2⟩, by simp [PC.pre]⟩⟩
      | fetch old =>
        simp only [threadStep]
        cases old with
        | none =>
          simp only [PInv, State.tsB] at hpi
          cases ht : s.transformer with
          | none =>
            rw [ht] at hpi
            exact ⟨hr, hle, .inr ⟨.ending, by simp only [State.goto, hp]; rfl, hm, ⟨hpi.1, .inl ⟨ht, hpi.2⟩⟩, fun _ => hq rfl⟩⟩
          | some t =>
            rw [ht] at hpi
            simp only [reduceCtorEq, if_false]
            exact ⟨hr, hle, .inr ⟨.tstart t, by simp only [State.goto, hp]; rfl, hm, ⟨hpi.1, ht, hpi.2⟩, fun _ => hq rfl⟩⟩
        | some u =>
          simp only [PInv] at hpi
          obtain ⟨h1, h2, h3, h4⟩ := hpi
          rw [h2]
          simp only [if_true]
          exact ⟨hr, hle, .inr ⟨.ending, by simp only [State.goto, hp]; rfl, hm, ⟨h1, .inr ⟨u, h2, h3, h4⟩⟩, fun _ => hq rfl⟩⟩
      | tstart t =>
        simp only [PInv] at hpi
        exact ⟨hr, hle, .inr ⟨.tinit t, by simp only [threadStep, State.goto, hp]; rfl, hm, ⟨hpi.1, hpi.2.1, rfl⟩, fun _ => hq rfl⟩⟩
      | tinit t =>
        simp only [PInv] at hpi
        exact ⟨hr, hle, .inr ⟨.loop t s.tree, by simp only [threadStep, State.goto, hp]; rfl, hm,
          ⟨hpi.1, hpi.2.1, hpi.2.2, rfl, by simp [threadStep, State.goto, put]⟩, fun _ => hq rfl⟩⟩
      | loop t v =>
        simp only [PInv] at hpi
        obtain ⟨h1, h2, h3, h4, h5⟩ := hpi
        simp only [threadStep, h5]
        split
        · exact ⟨hr, hle, .inr ⟨.ready t (some v), by simp only [State.goto, hp]; rfl, hm, ⟨h1, h2, h3, by rw [h4]; rfl, h5⟩, fun _ => hq rfl⟩⟩
        · exact ⟨hr, hle, .inr ⟨.loop t v, hp, hm, ⟨h1, h2, h3, h4, h5⟩, hq⟩⟩
      | ready t r =>
        simp only [PInv] at hpi
        obtain ⟨h1, h2, h3, h4, h5⟩ := hpi
        exact ⟨hr, hle, .inr ⟨.store t r, by simp only [threadStep, State.goto, hp]; rfl, hm, ⟨h1, h2, rfl, h4, h5⟩, fun _ => hq rfl⟩⟩
      | store t r =>
        simp only [PInv] at hpi
        obtain ⟨h1, h2, h3, h4, h5⟩ := hpi
        simp only [threadStep, h5]
        exact ⟨hr, hle, .inr ⟨.del t, by simp only [State.goto, hp]; rfl, hm,
          ⟨h1, h2, h3, by simp only [State.goto, put, if_true]; exact h4, h5⟩, fun _ => hq rfl⟩⟩
      | del t =>
        simp only [PInv] at hpi
        obtain ⟨h1, h2, h3, h4, h5⟩ := hpi
        simp only [threadStep, h5]
        exact ⟨hr, hle, .inr ⟨.tdone t, by simp only [State.goto, hp]; rfl, hm, ⟨h1, h2, h3, h4⟩, fun _ => hq rfl⟩⟩
      | tdone t =>
        simp only [PInv] at hpi
        obtain ⟨h1, h2, h3, h4⟩ := hpi
        exact ⟨hr, hle, .inr ⟨.fetch (some t), by simp only [threadStep, State.goto, hp]; rfl, hm, ⟨h1, h2, rfl, h4⟩, fun _ => hq rfl⟩⟩
      | ending =>
        simp only [PInv] at hpi
        obtain ⟨h1, h2⟩ := hpi
        have hq := hq rfl
        refine ⟨hr, hle, .inl ⟨by simp only [threadStep, hp]; rfl, h1, fun h => .inl (hq.1 h), ?_, fun h => ⟨hq.2 h, ?_⟩⟩⟩
        · simp only [threadStep]
          exact (if_neg (fun h => hm h.1)).symm
        · intro t ht
          rcases h2 with ⟨h2, _⟩ | ⟨u, hu, _, h2⟩
          · simp only [threadStep, h2] at ht; cases ht
          · simp only [threadStep, hu, Option.some.injEq] at ht
            subst ht
            exact .inl h2

theorem inv_main {s s' : State} (h : Inv s) (hs : step s .main = some s') (hc : s.main = .start → s.threads = []) : Inv s' := by
  obtain ⟨hr, hle, hthr⟩ := h
  simp only [step, mainStep] at hs
  cases hm : s.main with
  | idle => rw [hm] at hs; cases hs
  | test =>
    rw [hm] at hs
    simp only [Option.some.injEq] at hs
    subst hs
    rcases hthr with ⟨hn, ni⟩ | ⟨p, hp, hms, hpi, hq⟩
    · have hb : s.busy = false := by
        cases hb : s.busy with
        | false => rfl
        | true => rcases ni.busy hb with h | h <;> rw [hm] at h <;> cases h
      rw [hb]
      have hts := ni.ts
      rw [if_neg (by rw [hm]; simp)] at hts
      refine ⟨hr, hle, .inl ⟨hn, ni.tree, (fun h => by simp at h), ?_, (fun h => by cases h)⟩⟩
      simpa using hts
    · cases hb : s.busy with
      | true =>
        refine ⟨hr, hle, .inr ⟨p, hp, by simp, pinv_congr hpi rfl rfl rfl rfl rfl rfl, fun hpp => ?_⟩⟩
        have := (hq hpp).1 hb
        rw [hm] at this
        cases this
      | false =>
        exact ⟨hr, hle, .inr ⟨p, hp, by simp, pinv_congr hpi rfl rfl rfl rfl rfl rfl, fun hpp =>
          ⟨(fun h => by simp at h), (fun h => by cases h)⟩⟩⟩
  | setBusy =>
    rw [hm] at hs
    simp only [Option.some.injEq] at hs
    subst hs
    rcases hthr with ⟨hn, ni⟩ | ⟨p, hp, hms, hpi, hq⟩
    · have hts := ni.ts
      rw [if_neg (by rw [hm]; simp)] at hts
      refine ⟨hr, hle, .inl ⟨hn, ni.tree, (fun _ => .inl rfl), by simpa using hts, (fun h => by cases h)⟩⟩
    · exact ⟨hr, hle, .inr ⟨p, hp, by simp, pinv_congr hpi rfl rfl rfl rfl rfl rfl, fun hpp =>
        ⟨(fun _ => rfl), (fun h => by cases h)⟩⟩⟩
  | start =>
    have hn := hc hm
    rw [hm] at hs
    simp only [Option.some.injEq] at hs
    subst hs
    rcases hthr with ⟨_, ni⟩ | ⟨p, hp, _⟩
    · have hts := ni.ts
      rw [if_neg (by rw [hm]; simp)] at hts
      refine ⟨hr, hle, .inl ⟨hn, ni.tree, (fun _ => .inr rfl), ?_, (fun h => by cases h)⟩⟩
      simp only [hts, and_true, true_and]
    · rw [hn] at hp; cases hp
  | spawn =>
    rw [hm] at hs
    simp only [Option.some.injEq] at hs
    subst hs
    rcases hthr with ⟨hn, ni⟩ | ⟨p, hp, hms, _⟩
    · have hts := ni.ts
      refine ⟨hr, hle, .inr ⟨.start, by simp only [hn, List.nil_append], by simp, ⟨ni.tree, ?_⟩, by simp [PC.pre]⟩⟩
      simp only [State.tsB]
      rw [hts, hm]
      simp only [true_and]
    · exact absurd hm hms

theorem inv_update {s s' : State} (h : Inv s) (hs : step s .update = some s') : Inv s' := by
  obtain ⟨hr, hle, hthr⟩ := h
  simp only [step] at hs
  split at hs
  · next hm =>
    simp only [Option.some.injEq] at hs
    subst hs
    rcases hthr with ⟨hn, ni⟩ | ⟨p, hp, hms, hpi, hq⟩
    · have hts := ni.ts
      rw [if_neg (by rw [hm]; simp)] at hts
      refine ⟨hr, Nat.le_succ_of_le hle, .inl ⟨hn, ni.tree, fun h => ?_, by simpa using hts, (fun h => by cases h)⟩⟩
      rcases ni.busy h with h | h <;> rw [hm] at h <;> cases h
    · refine ⟨hr, Nat.le_succ_of_le hle, .inr ⟨p, hp, by simp, pinv_congr hpi rfl rfl rfl rfl rfl rfl, fun hpp =>
        ⟨fun h => ?_, (fun h => by cases h)⟩⟩⟩
      have := (hq hpp).1 h
      rw [hm] at this
      cases this
  · cases hs

theorem inv_setT {s s' : State} {t : Option Nat} (h : Inv s) (hs : step s (.setT t) = some s') (hc : s.threads = []) : Inv s' := by
  obtain ⟨hr, hle, hthr⟩ := h
  simp only [step] at hs
  split at hs
  · next hm =>
    simp only [Option.some.injEq] at hs
    subst hs
    split
    · exact ⟨hr, hle, hthr⟩
    · rcases hthr with ⟨hn, ni⟩ | ⟨p, hp, _⟩
      · have hts := ni.ts
        rw [if_neg (by rw [hm]; simp)] at hts
        refine ⟨hr, hle, .inl ⟨hn, ni.tree, fun h => ?_, ?_, ?_⟩⟩
        · rcases ni.busy h with h | h <;> rw [hm] at h <;> cases h
        · simp [hts, TS.waits]
        · simp [hts, TS.waits]
      · rw [hc] at hp; cases hp
  · cases hs

theorem Calm.inv {tr : Option Nat} {s : State} (h : Calm tr s) : Inv s := by
  induction h with
  | init => exact inv_init tr
  | step a _ hs h1 h2 ih =>
    cases a with
    | update => exact inv_update ih hs
    | setT t => exact inv_setT ih hs (h2 ⟨t, rfl⟩)
    | main => exact inv_main ih hs (fun h => h1 h rfl)
    | thread i go => exact inv_thread ih hs

/-- How far the thread is from its end. -/
def State.dist (s : State) : PC → Nat
  | .start => if s.taken < s.want then 13 + 3 else 13
  | .building _ => if s.taken < s.want then 13 + 5 else 13 + 2
  | .replacing _ => if s.taken < s.want then 13 + 4 else 13 + 1
  | .fetch none => 10
  | .tstart _ => 9
  | .tinit _ => 8
  | .loop _ _ => 7
  | .ready _ _ => 6
  | .store _ _ => 5
  | .del _ => 4
  | .tdone _ => 3
  | .fetch (some _) => 2
  | .ending => 1

/-- Every step of the thread (that ends the loop of `transform_tree` when it is there) brings it nearer to its end. -/
theorem dist_step {s : State} {p : PC} (h : Inv s) (hp : s.threads = [p]) :
    ((threadStep s 0 true p).threads = [] ∧ p = .ending) ∨
    ∃ q, (threadStep s 0 true p).threads = [q] ∧ (threadStep s 0 true p).dist q < s.dist p := by
  obtain ⟨hr, hle, hthr⟩ := h
  rcases hthr with ⟨hn, _⟩ | ⟨p', hp', hm, hpi, hq⟩
  · rw [hn] at hp; cases hp
  · rw [hp] at hp'
    simp only [List.cons.injEq, and_true] at hp'
    subst hp'
    cases p with
    | start =>
      right
      simp only [threadStep]
      split
      · next hlt => exact ⟨_, by simp only [State.goto, hp]; rfl, by simp [State.goto, State.dist, hlt]⟩
      · next hlt => exact ⟨_, by simp only [State.goto, hp]; rfl, by simp [State.dist, hlt]⟩
    | building v =>
      right
      refine ⟨.replacing v, ?_, ?_⟩
      · simp only [threadStep, State.goto]
        cases s.transformer <;> simp [hp]
      · simp only [threadStep, State.goto]
        split <;> (simp only [State.dist]; split <;> omega)
    | replacing v =>
      right
      refine ⟨.start, by simp only [threadStep, State.goto, hp]; rfl, ?_⟩
      show (if s.taken < s.want then 13 + 3 else 13) < (if s.taken < s.want then 13 + 4 else 13 + 1)
      split <;> omega
    | fetch old =>
      right
      cases old with
      | none =>
        simp only [threadStep]
        cases ht : s.transformer with
        | none => exact ⟨.ending, by simp only [State.goto, hp]; rfl, by simp [State.dist]⟩
        | some t => exact ⟨.tstart t, by simp [State.goto, hp], by simp [State.dist]⟩
      | some u =>
        obtain ⟨h1, h2, h3, h4⟩ := hpi
        refine ⟨.ending, by simp [threadStep, h2, State.goto, hp], by simp [State.dist]⟩
    | tstart t => exact .inr ⟨.tinit t, by simp only [threadStep, State.goto, hp]; rfl, by simp [State.dist]⟩
    | tinit t => exact .inr ⟨.loop t s.tree, by simp only [threadStep, State.goto, hp]; rfl, by simp [State.dist]⟩
    | loop t v =>
      obtain ⟨h1, h2, h3, h4, h5⟩ := hpi
      exact .inr ⟨.ready t (some v), by simp [threadStep, h5, State.goto, hp], by simp [State.dist]⟩
    | ready t r => exact .inr ⟨.store t r, by simp only [threadStep, State.goto, hp]; rfl, by simp [State.dist]⟩
    | store t r =>
      obtain ⟨h1, h2, h3, h4, h5⟩ := hpi
      exact .inr ⟨.del t, by simp [threadStep, h5, State.goto, hp], by simp [State.dist]⟩
    | del t =>
      obtain ⟨h1, h2, h3, h4, h5⟩ := hpi
      exact .inr ⟨.tdone t, by simp [threadStep, h5, State.goto, hp], by simp [State.dist]⟩
    | tdone t => exact .inr ⟨.fetch (some t), by simp only [threadStep, State.goto, hp]; rfl, by simp [State.dist]⟩
    | ending => exact .inl ⟨by simp only [threadStep, hp]; rfl, rfl⟩

/-- The condition of `Calm` on a step. -/
def calmOk (s : State) : Act → Bool
  | .main => s.main != .start || s.threads.isEmpty
  | .setT _ => s.threads.isEmpty
  | _ => true

/-- `run`, with that condition. -/
def calmRun (s : State) : List Act → Option State
  | [] => some s
  | a :: as => if calmOk s a then (step s a).bind (fun s' => calmRun s' as) else none

theorem calm_run {tr : Option Nat} : ∀ (as : List Act) {s s' : State}, Calm tr s → calmRun s as = some s' → Calm tr s'
  | [], s, s', h, hr => by
    simp only [calmRun, Option.some.injEq] at hr
    exact hr ▸ h
  | a :: as, s, s', h, hr => by
    simp only [calmRun] at hr
    split at hr
    · next hok =>
      cases hs : step s a with
      | none => rw [hs] at hr; cases hr
      | some s1 =>
        rw [hs] at hr
        refine calm_run as (.step a h hs (fun hm ha => ?_) (fun ⟨t, ha⟩ => ?_)) hr
        · subst ha
          simp only [calmOk, hm] at hok
          simpa using hok
        · subst ha
          simpa [calmOk] using hok
    · cases hr

end Parce.WT

import Verif.Lemmas.WorkerTransform
/-!
# Properties of updating the transform result (C114)
-/
namespace Parce.WT

/-- C114 (partial: in executions without overlap, see `Calm`). When `get_transform(wait=True)` returns after an `update()`, and a
    transformer is set, it returns the result of this transformer for the latest text. -/
theorem C114_result_partial (tr : Option Nat) (s : State) (h : Calm tr s) (hm : s.main = .idle) (t : Nat)
    (ht : s.transformer = some t) (hw : s.want ≠ 0) (r : Option Nat) (hr : getTransform s = some r) :
    r = some s.want ∧ s.tree = s.want := by
  obtain ⟨_, hle, hthr⟩ := h.inv
  simp only [getTransform, ht] at hr
  split at hr
  · cases hr
  · next hts =>
    simp only [Option.some.injEq] at hr
    subst hr
    rcases hthr with ⟨hn, ni⟩ | ⟨p, hp, _, hpi, hq⟩
    · obtain ⟨h1, h2⟩ := ni.idle hm
      rcases h2 t ht with h2 | h2
      · exact ⟨by rw [h2, ni.tree, h1], by rw [ni.tree, h1]⟩
      · exact absurd h2 hw
    · have fin : p.pre = false → s.tree = s.taken → s.cache t = some s.tree → s.cache t = some s.want ∧ s.tree = s.want := by
        intro hpp h1 h2
        have := (hq hpp).2 hm
        exact ⟨by rw [h2, h1, this], by rw [h1, this]⟩
      have tsb : s.tsB → False := by
        intro hb
        simp only [State.tsB, ht, Option.isSome_some, if_true] at hb
        rw [hb] at hts
        exact hts rfl
      cases p with
      | start => exact (tsb hpi.2).elim
      | building v => exact (tsb hpi.2).elim
      | replacing v => exact (tsb hpi.2).elim
      | fetch old =>
        cases old with
        | none => exact (tsb hpi.2).elim
        | some u =>
          obtain ⟨h1, h2, h3, h4⟩ := hpi
          rw [ht] at h2; cases h2
          exact fin rfl h1 h4
      | tstart u => rw [hpi.2.2] at hts; exact (hts rfl).elim
      | tinit u => rw [hpi.2.2] at hts; exact (hts rfl).elim
      | loop u v => rw [hpi.2.2.1] at hts; exact (hts rfl).elim
      | ready u v => rw [hpi.2.2.1] at hts; exact (hts rfl).elim
      | store u v => rw [hpi.2.2.1] at hts; exact (hts rfl).elim
      | del u => rw [hpi.2.2.1] at hts; exact (hts rfl).elim
      | tdone u => rw [hpi.2.2.1] at hts; exact (hts rfl).elim
      | ending =>
        obtain ⟨h1, h2 | ⟨u, hu, _, h2⟩⟩ := hpi
        · rw [ht] at h2; cases h2.1
        · rw [ht] at hu; cases hu
          exact fin rfl h1 h2

/-- C114 (partial: in executions without overlap). No thread ends with an exception, and at most one is in `process()`. -/
theorem C114_noerror_partial (tr : Option Nat) (s : State) (h : Calm tr s) : s.raised = false ∧ s.threads.length ≤ 1 := by
  obtain ⟨hr, _, hthr⟩ := h.inv
  refine ⟨hr, ?_⟩
  rcases hthr with ⟨hn, _⟩ | ⟨p, hp, _⟩
  · rw [hn]; decide
  · rw [hp]; exact Nat.le_refl _

/-- C114 (partial: in executions without overlap). The background thread comes to its end by its own steps, after at most 18 of them (when
    every run of the transformer does); and when no thread is running, `get_transform(wait=True)` returns. -/
theorem C114_ends_partial (tr : Option Nat) (s : State) (h : Calm tr s) (hm : s.main = .idle) :
    ∃ n s', n ≤ 18 ∧ run s (List.replicate n (.thread 0 true)) = some s' ∧ s'.threads = [] ∧ s'.want = s.want ∧
      s'.transformer = s.transformer ∧ getTransform s' ≠ none ∧ Calm tr s' := by
  have key : ∀ (k : Nat) (s : State), Calm tr s → s.main = .idle → (∀ p, s.threads = [p] → s.dist p ≤ k) →
      ∃ n s', n ≤ k ∧ run s (List.replicate n (.thread 0 true)) = some s' ∧ s'.threads = [] ∧ s'.want = s.want ∧
        s'.transformer = s.transformer ∧ getTransform s' ≠ none ∧ Calm tr s' := by
    intro k
    induction k with
    | zero =>
      intro s h hm hd
      rcases h.inv.thr with ⟨hn, ni⟩ | ⟨p, hp, _⟩
      · refine ⟨0, s, Nat.le_refl _, rfl, hn, rfl, rfl, ?_, h⟩
        have hts := ni.ts
        rw [if_neg (by rw [hm]; simp)] at hts
        unfold getTransform
        cases s.transformer <;> simp [hts, TS.waits]
      · have := hd p hp
        cases p with
        | fetch o => cases o <;> simp [State.dist] at this
        | start => simp only [State.dist] at this; split at this <;> omega
        | building v => simp only [State.dist] at this; split at this <;> omega
        | replacing v => simp only [State.dist] at this; split at this <;> omega
        | _ => simp [State.dist] at this
    | succ k ih =>
      intro s h hm hd
      rcases h.inv.thr with ⟨hn, ni⟩ | ⟨p, hp, _⟩
      · refine ⟨0, s, Nat.zero_le _, rfl, hn, rfl, rfl, ?_, h⟩
        have hts := ni.ts
        rw [if_neg (by rw [hm]; simp)] at hts
        unfold getTransform
        cases s.transformer <;> simp [hts, TS.waits]
      · have hst : step s (.thread 0 true) = some (threadStep s 0 true p) := by
          simp only [step, hp, List.getElem?_cons_zero, Option.map_some]
        have hkeep : (threadStep s 0 true p).main = s.main ∧ (threadStep s 0 true p).want = s.want ∧
            (threadStep s 0 true p).transformer = s.transformer := by
          cases p <;> simp only [threadStep, State.goto, State.raise] <;> (repeat' split) <;>
            first | exact ⟨rfl, rfl, rfl⟩ | (rename_i hx; exact ⟨rfl, rfl, hx.symm⟩) | (simp_all)
        have hcalm : Calm tr (threadStep s 0 true p) :=
          .step (.thread 0 true) h hst (fun _ h => by cases h) (fun ⟨t, h⟩ => by cases h)
        have hd' : ∀ q, (threadStep s 0 true p).threads = [q] → (threadStep s 0 true p).dist q ≤ k := by
          intro q hq
          have := hd p hp
          rcases dist_step h.inv hp with ⟨h1, _⟩ | ⟨q', h1, h2⟩
          · rw [h1] at hq; cases hq
          · rw [h1] at hq
            simp only [List.cons.injEq, and_true] at hq
            subst hq
            omega
        obtain ⟨n, s', h1, h2, h3, h4, h5, h6, h7⟩ := ih _ hcalm (by rw [hkeep.1, hm]) hd'
        refine ⟨n + 1, s', by omega, ?_, h3, by rw [h4, hkeep.2.1], by rw [h5, hkeep.2.2], h6, h7⟩
        rw [List.replicate_succ]
        simp only [run, hst, Option.bind_some]
        exact h2
  refine key 18 s h hm (fun p _ => ?_)
  cases p with
  | fetch o => cases o <;> simp [State.dist]
  | start => simp only [State.dist]; split <;> omega
  | building v => simp only [State.dist]; split <;> omega
  | replacing v => simp only [State.dist]; split <;> omega
  | _ => simp [State.dist]

/-- A call of `update()` that starts a thread. -/
private def upd : List Act := [.update, .main, .main, .main, .main]
/-- Steps of a thread. -/
private def thr (i n : Nat) : List Act := List.replicate n (.thread i true)

/-- What is looked at. -/
private def view (s : State) : Main × List PC × Nat × Nat × Option Nat × Option (Option Nat) × Bool :=
  (s.main, s.threads, s.want, s.tree, s.transformer, getTransform s, s.raised)

private theorem seen {tr : Option Nat} {as : List Act} {v : Main × List PC × Nat × Nat × Option Nat × Option (Option Nat) × Bool}
    (h : (run (init tr) as).map view = some v) : ∃ s, Reach tr s ∧ view s = v := by
  cases hr : run (init tr) as with
  | none => rw [hr] at h; cases h
  | some s =>
    rw [hr] at h
    simp only [Option.map_some, Option.some.injEq] at h
    exact ⟨s, reach_run as .init hr, h⟩

/-- C114 is violated by the code: `get_transform(wait=True)` returns the result for the first text after the second `update()` has
    returned. The thread of the first one is just finishing its transform when the second one is called, and sets the state to DONE. -/
theorem C114_stale_violated : ∃ s, Reach (some 1) s ∧ s.main = .idle ∧ s.want = 2 ∧ getTransform s = some (some 1) := by
  obtain ⟨s, h, hv⟩ := seen (tr := some 1) (as := upd ++ thr 0 11 ++ upd ++ thr 0 1) (v := (.idle, [.fetch (some 1), .start], 2, 1, some 1, some (some 1), false)) rfl
  simp only [view, Prod.mk.injEq] at hv
  exact ⟨s, h, hv.1, hv.2.2.1, hv.2.2.2.2.2.1⟩

/-- C114 is violated by the code: two threads can run the same transformer on the same tree, then the one that ends first deletes the mark
    the other one looks at. The other one ends with a KeyError and the result of the old text remains, when all is quiet. -/
theorem C114_raise_violated : ∃ s, Reach (some 1) s ∧ s.main = .idle ∧ s.threads = [] ∧ s.raised = true ∧ s.want = 2 ∧ s.tree = 2 ∧
    getTransform s = some (some 1) := by
  obtain ⟨s, h, hv⟩ := seen (tr := some 1) (as := upd ++ thr 0 7 ++ upd ++ thr 1 7 ++ thr 0 4 ++ thr 1 2 ++ thr 0 3)
    (v := (.idle, [], 2, 2, some 1, some (some 1), true)) rfl
  simp only [view, Prod.mk.injEq] at hv
  exact ⟨s, h, hv.1, hv.2.1, hv.2.2.2.2.2.2, hv.2.2.1, hv.2.2.2.1, hv.2.2.2.2.2.1⟩

/-- C114 is violated by the code: a transformer that is set (after None was set) while the thread is at its end is never run. Everything is
    quiet and `get_transform(wait=True)` returns None. -/
theorem C114_lost_violated : ∃ s, Reach (some 1) s ∧ s.main = .idle ∧ s.threads = [] ∧ s.want = 1 ∧ s.tree = 1 ∧ s.transformer = some 2 ∧
    getTransform s = some none := by
  obtain ⟨s, h, hv⟩ := seen (tr := some 1) (as := upd ++ [.setT none] ++ thr 0 5 ++ [.setT (some 2)] ++ thr 0 1)
    (v := (.idle, [], 1, 1, some 2, some none, false)) rfl
  simp only [view, Prod.mk.injEq] at hv
  exact ⟨s, h, hv.1, hv.2.1, hv.2.2.1, hv.2.2.2.1, hv.2.2.2.2.1, hv.2.2.2.2.2.1⟩

/-- C114 is violated by the code: when the transformer is replaced while it is running, `get_transform(wait=True)` returns None when the
    old one is done. -/
theorem C114_early_violated : ∃ s, Reach (some 1) s ∧ s.main = .idle ∧ s.transformer = some 2 ∧ s.want = 1 ∧ getTransform s = some none := by
  obtain ⟨s, h, hv⟩ := seen (tr := some 1) (as := upd ++ thr 0 7 ++ [.setT (some 2)] ++ thr 0 5)
    (v := (.idle, [.fetch (some 1)], 1, 1, some 2, some none, false)) rfl
  simp only [view, Prod.mk.injEq] at hv
  exact ⟨s, h, hv.1, hv.2.2.2.2.1, hv.2.2.1, hv.2.2.2.2.2.1⟩

/-- C114 is violated by the code: setting the first transformer while the tree is being built starts a second `process()`, and both build
    (and replace) the tree at the same time. -/
theorem C114_two_violated : ∃ s, Reach none s ∧ s.main = .idle ∧ s.threads = [.building 1, .building 2] := by
  obtain ⟨s, h, hv⟩ := seen (tr := none) (as := upd ++ thr 0 1 ++ [.setT (some 1), .main, .main, .update, .main] ++ thr 1 1)
    (v := (.idle, [.building 1, .building 2], 2, 0, some 1, none, false)) rfl
  simp only [view, Prod.mk.injEq] at hv
  exact ⟨s, h, hv.1, hv.2.1⟩

/-- C114 is violated by the code: an interrupted run of the transformer has no result, but its "no result" is stored when another thread has
    just set the mark anew. When all is quiet, the result that was there is gone. -/
theorem C114_none_violated : ∃ s, Reach (some 1) s ∧ s.main = .idle ∧ s.threads = [] ∧ s.want = 3 ∧ s.tree = 3 ∧ getTransform s = some none := by
  obtain ⟨s, h, hv⟩ := seen (tr := some 1) (as := upd ++ thr 0 14 ++ upd ++ thr 0 7 ++ upd ++ thr 1 2 ++ thr 0 1 ++ thr 1 5 ++ thr 0 3 ++ thr 1 2 ++ thr 0 3)
    (v := (.idle, [], 3, 3, some 1, some none, true)) rfl
  simp only [view, Prod.mk.injEq] at hv
  exact ⟨s, h, hv.1, hv.2.1, hv.2.2.1, hv.2.2.2.1, hv.2.2.2.2.2.1⟩

/-- C114, for all executions, with overlap too: as long as a transformer is marked as interrupted, no step of any thread changes its stored
    result. -/
theorem C114_interrupted (s s' : State) (a : Act) (h : step s a = some s') (t : Nat) (hi : s.intr t = some true) : s'.cache t = s.cache t := by
  cases a with
  | update =>
    simp only [step] at h
    split at h
    · obtain rfl := Option.some.inj h; rfl
    · cases h
  | setT t' =>
    simp only [step] at h
    split at h
    · obtain rfl := Option.some.inj h
      split <;> rfl
    · cases h
  | main =>
    simp only [step, mainStep] at h
    split at h
    · cases h
    all_goals
      obtain rfl := Option.some.inj h
      first | rfl | (split <;> rfl)
  | thread i go =>
    simp only [step] at h
    cases hp : s.threads[i]? with
    | none => rw [hp] at h; cases h
    | some p =>
      rw [hp] at h
      obtain rfl := Option.some.inj h
      cases p with
      | store t' r =>
        simp only [threadStep]
        split
        · rfl
        · rfl
        · next h' =>
          have : t ≠ t' := by intro he; rw [he, h'] at hi; cases hi
          simp only [State.goto, put, if_neg this]
      | start => simp only [threadStep]; split <;> rfl
      | building v => simp only [threadStep]; cases s.transformer <;> rfl
      | replacing v => rfl
      | fetch old =>
        simp only [threadStep]
        split
        · rfl
        · split <;> rfl
      | tstart t' => rfl
      | tinit t' => rfl
      | loop t' v =>
        simp only [threadStep]
        split
        · rfl
        · rfl
        · split <;> rfl
      | ready t' r => rfl
      | del t' => simp only [threadStep]; split <;> rfl
      | tdone t' => rfl
      | ending => rfl

/-- In this execution a thread is about to store a result while the transformer is marked. -/
example : ∃ s, Reach (some 1) s ∧ s.intr 1 = some true ∧ s.threads = [.store 1 (some 1), .replacing 2] := by
  cases hr : run (init (some 1)) (upd ++ thr 0 9 ++ upd ++ thr 1 2) with
  | none =>
    have := congrArg Option.isSome hr
    exact absurd this (by decide)
  | some s =>
    have h1 : (run (init (some 1)) (upd ++ thr 0 9 ++ upd ++ thr 1 2)).map (fun s => (s.intr 1, s.threads)) =
      some (some true, [.store 1 (some 1), .replacing 2]) := rfl
    rw [hr] at h1
    have h2 := Prod.mk.inj (Option.some.inj h1)
    exact ⟨s, reach_run _ .init hr, h2.1, h2.2⟩

/-- An execution without overlap: an update, another one while the tree is built, and a new transformer when all is quiet. -/
example : ∃ s, Calm (some 1) s ∧ s.main = .idle ∧ s.transformer = some 2 ∧ s.want = 2 ∧ getTransform s = some (some 2) := by
  have hv : (calmRun (init (some 1)) (upd ++ thr 0 1 ++ [.update, .main] ++ thr 0 16 ++ [.setT (some 2), .main, .main] ++ thr 0 11)).map view =
    some (.idle, [], 2, 2, some 2, some (some 2), false) := rfl
  cases hr : calmRun (init (some 1)) (upd ++ thr 0 1 ++ [.update, .main] ++ thr 0 16 ++ [.setT (some 2), .main, .main] ++ thr 0 11) with
  | none => rw [hr] at hv; cases hv
  | some s =>
    rw [hr] at hv
    simp only [Option.map_some, Option.some.injEq, view, Prod.mk.injEq] at hv
    exact ⟨s, calm_run _ .init hr, hv.1, hv.2.2.2.2.1, hv.2.2.1, hv.2.2.2.2.2.1⟩

end Parce.WT

import Verif.Lemmas.Observable
/-!
# Property C36: observers
-/
namespace Parce.Obs
variable {E F : Type} [DecidableEq E] [DecidableEq F]

/-- **C36.** Every sequence of operations on a new `Observable` goes through without exception and
    does what the specification `Runs` says: `emit` calls the connected functions in order of
    priority and, for equal priority, in order of connecting, and so on. (The functions do not
    themselves connect or disconnect for the event that is emitted; see
    `C36_violated_reentrant`.) -/
theorem C36_observable (ops : List (Op E F)) :
    ∃ c out cs, run Callbacks.empty ops = some (c, out) ∧ Runs [] ops cs out := by
  obtain ⟨c, out, cs, h1, h2, _⟩ := run_spec ops _ _ Rel.empty
  exact ⟨c, out, cs, h1, h2⟩

/-- **C36.** `has_connections` and `is_connected` tell what is connected. -/
theorem C36_connected (ops : List (Op E F)) :
    ∃ c out cs, run Callbacks.empty ops = some (c, out) ∧ Runs [] ops cs out ∧
      (∀ e, hasConnections c e = true ↔ ∃ k ∈ cs, k.event = e) ∧
      ∀ e f, isConnected c e f = true ↔ ∃ k ∈ cs, k.event = e ∧ k.func = f := by
  obtain ⟨c, out, cs, h1, h2, h3⟩ := run_spec ops _ _ Rel.empty
  refine ⟨c, out, cs, h1, h2, fun e => ?_, fun e f => ?_⟩
  · unfold hasConnections
    constructor
    · intro h
      cases hc : c e with
      | none => rw [hc] at h; simp at h
      | some s =>
        cases s with
        | nil => exact absurd hc (h3.nonempty e)
        | cons o os =>
          obtain ⟨k, hk, hke, _⟩ := (h3.mem e o).1 (by simp [hc])
          exact ⟨k, hk, hke⟩
    · rintro ⟨k, hk, hke⟩
      have := (h3.mem e ⟨k.func, k.once, k.prio⟩).2 ⟨k, hk, hke, rfl⟩
      cases hc : c e with
      | none => rw [hc] at this; simp at this
      | some s => rfl
  · have hm : isConnected c e f = true ↔ ∃ x ∈ (c e).getD [], x.func = f := by
      unfold isConnected
      cases hc : c e with
      | none => simp
      | some s => simp [List.any_eq_true]
    rw [hm]
    constructor
    · rintro ⟨x, hx, hf⟩
      obtain ⟨k, hk, hke, rfl⟩ := (h3.mem e x).1 hx
      exact ⟨k, hk, hke, hf⟩
    · rintro ⟨k, hk, hke, hf⟩
      exact ⟨_, (h3.mem e _).2 ⟨k, hk, hke, rfl⟩, hf⟩

/-- How often `f` was called for event `e`. -/
def callCount (e : E) (f : F) (out : List (E × List F)) : Nat :=
  (out.map (fun q => if q.1 = e then q.2.count f else 0)).sum

/-- Without connecting it again, a function that is not connected is not called, and a function
    connected once only is called at most one time. -/
theorem Runs.once {cs cs' : List (Conn E F)} {ops : List (Op E F)} {out : List (E × List F)} (h : Runs cs ops cs' out)
    (e : E) (f : F) (hops : ∀ once prio, Op.connect e f once prio ∉ ops)
    (hnd : ∀ e, ((cs.filter (fun c => decide (c.event = e))).map (·.func)).Nodup) :
    ((∀ k ∈ cs, k.event = e → k.func ≠ f) → callCount e f out = 0) ∧
    ((∀ k ∈ cs, k.event = e → k.func = f → k.once = true) → callCount e f out ≤ 1) := by
  have fnd : ∀ (cs : List (Conn E F)) (p : Conn E F → Bool),
      (∀ e, ((cs.filter (fun c => decide (c.event = e))).map (·.func)).Nodup) →
      ∀ e, (((cs.filter p).filter (fun c => decide (c.event = e))).map (·.func)).Nodup := by
    intro cs p h e
    rw [List.filter_filter, show (fun a : Conn E F => decide (a.event = e) && p a) = (fun a => p a && decide (a.event = e)) from by
      funext a; exact Bool.and_comm _ _, ← List.filter_filter]
    exact (h e).sublist (List.Sublist.map _ List.filter_sublist)
  induction h with
  | nil cs => exact ⟨fun _ => rfl, fun _ => by simp [callCount]⟩
  | again cs ops cs' out e' f' once prio hx hr ih =>
    exact ih (fun o p hm => hops o p (List.mem_cons_of_mem _ hm)) hnd
  | connect cs ops cs' out e' f' once prio hx hr ih =>
    have hne : ¬ (e' = e ∧ f' = f) := by
      rintro ⟨rfl, rfl⟩
      exact hops once prio (by simp)
    have hnd' : ∀ e, (((cs ++ [(⟨e', f', once, prio⟩ : Conn E F)]).filter (fun c : Conn E F => decide (c.event = e))).map (·.func)).Nodup := by
      intro e2
      by_cases he : e' = e2
      · subst he
        simp only [List.filter_append, List.map_append, List.filter_cons, decide_true, if_true, List.filter_nil,
          List.map_cons, List.map_nil]
        rw [List.nodup_append]
        refine ⟨hnd e', by simp, ?_⟩
        intro a ha b hb hab
        simp only [List.mem_singleton] at hb
        subst hb hab
        obtain ⟨k, hk, hkf⟩ := List.mem_map.1 ha
        simp only [List.mem_filter, decide_eq_true_eq] at hk
        exact hx ⟨k, hk.1, hk.2, hkf⟩
      · simp only [List.filter_append, List.filter_cons, he, decide_false, Bool.false_eq_true, if_false, List.filter_nil,
          List.append_nil]
        exact hnd e2
    obtain ⟨i1, i2⟩ := ih (fun o p hm => hops o p (List.mem_cons_of_mem _ hm)) hnd'
    refine ⟨fun h => i1 ?_, fun h => i2 ?_⟩
    · intro k hk hke hkf
      rcases List.mem_append.1 hk with hk | hk
      · exact h k hk hke hkf
      · simp only [List.mem_singleton] at hk
        subst hk
        exact hne ⟨hke, hkf⟩
    · intro k hk hke hkf
      rcases List.mem_append.1 hk with hk | hk
      · exact h k hk hke hkf
      · simp only [List.mem_singleton] at hk
        subst hk
        exact absurd ⟨hke, hkf⟩ hne
  | disconnect cs ops cs' out e' f' hr ih =>
    obtain ⟨i1, i2⟩ := ih (fun o p hm => hops o p (List.mem_cons_of_mem _ hm)) (fnd cs _ hnd)
    exact ⟨fun h => i1 (fun k hk => h k (List.mem_filter.1 hk).1), fun h => i2 (fun k hk => h k (List.mem_filter.1 hk).1)⟩
  | disconnectAll cs ops cs' out hr ih =>
    obtain ⟨i1, i2⟩ := ih (fun o p hm => hops o p (List.mem_cons_of_mem _ hm)) (by simp)
    exact ⟨fun h => i1 (by simp), fun h => i2 (by simp)⟩
  | disconnectEvent cs ops cs' out e' hr ih =>
    obtain ⟨i1, i2⟩ := ih (fun o p hm => hops o p (List.mem_cons_of_mem _ hm)) (fnd cs _ hnd)
    exact ⟨fun h => i1 (fun k hk => h k (List.mem_filter.1 hk).1), fun h => i2 (fun k hk => h k (List.mem_filter.1 hk).1)⟩
  | emit cs ops cs' out e' alive calls ho hr ih =>
    obtain ⟨i1, i2⟩ := ih (fun o p hm => hops o p (List.mem_cons_of_mem _ hm)) (fnd cs _ hnd)
    have hmem : ∀ k, k ∈ calls ↔ k ∈ cs ∧ k.event = e' ∧ alive k.func = true := by
      intro k
      have h1 : k ∈ calls ↔ k ∈ calls.filter (fun y => decide (y.prio = k.prio)) := by simp
      rw [h1, ho.same]
      simp
    have hcc : callCount e f ((e', calls.map (·.func)) :: out) =
        (if e' = e then (calls.map (·.func)).count f else 0) + callCount e f out := by
      simp [callCount]
    rw [hcc]
    by_cases he : e' = e
    · subst he
      simp only [if_true]
      by_cases hc : f ∈ calls.map (·.func)
      · obtain ⟨k, hk, hkf⟩ := List.mem_map.1 hc
        obtain ⟨m1, m2, m3⟩ := (hmem k).1 hk
        refine ⟨fun h => absurd hkf (h k m1 m2), fun h => ?_⟩
        have honce := h k m1 m2 hkf
        have huniq : ∀ k' ∈ cs, k'.event = e' → k'.func = f → k' = k := by
          intro k' hk' he' hf'
          have hn := hnd e'
          exact inj_of_nodup hn (by simp [hk', he']) (by simp [m1, m2]) (by rw [hf', hkf])
        have hz : callCount e' f out = 0 := by
          apply i1
          intro k' hk' he' hf'
          obtain ⟨h1, h2⟩ := List.mem_filter.1 hk'
          have := huniq k' h1 he' hf'
          subst this
          simp [he', honce] at h2
        have hcnt : (calls.map (·.func)).count f ≤ 1 := by
          have hp : (calls.map (·.func)).Nodup := by
            have hperm : calls.Perm (cs.filter (fun c => decide (c.event = e') && alive c.func)) := by
              rw [List.perm_iff_count]
              intro x
              have h1 := congrArg (List.count x) (ho.same x.prio)
              rwa [List.count_filter (by simp), List.count_filter (by simp)] at h1
            rw [(hperm.map _).nodup_iff]
            have := fnd cs (fun c => alive c.func) hnd e'
            rwa [List.filter_filter] at this
          exact List.nodup_iff_count.1 hp f
        omega
      · have : (calls.map (·.func)).count f = 0 := List.count_eq_zero.2 hc
        rw [this, Nat.zero_add]
        exact ⟨fun h => i1 (fun k hk => h k (List.mem_filter.1 hk).1), fun h => i2 (fun k hk => h k (List.mem_filter.1 hk).1)⟩
    · simp only [if_neg he, Nat.zero_add]
      exact ⟨fun h => i1 (fun k hk => h k (List.mem_filter.1 hk).1), fun h => i2 (fun k hk => h k (List.mem_filter.1 hk).1)⟩

/-- **C36.** After a function has been disconnected, or connected once only, it is not called, or
    called at most one time, until it is connected again; whatever was done before. -/
theorem C36_once (before after : List (Op E F)) (e : E) (f : F) (prio : Int)
    (hafter : ∀ once prio, Op.connect e f once prio ∉ after) :
    ∃ c out, run Callbacks.empty before = some (c, out) ∧
    (∃ c' out', run (disconnect c e f) after = some (c', out') ∧ callCount e f out' = 0) ∧
    (∃ c' out', run (connect (disconnect c e f) e ⟨f, true, prio⟩) after = some (c', out') ∧ callCount e f out' ≤ 1) := by
  obtain ⟨c, out, cs, h1, _, h3⟩ := run_spec before _ _ Rel.empty
  refine ⟨c, out, h1, ?_, ?_⟩
  · have hr := h3.disconnect e f
    obtain ⟨c', out', cs', r1, r2, _⟩ := run_spec after _ _ hr
    refine ⟨c', out', r1, (r2.once e f hafter hr.nodup).1 ?_⟩
    intro k hk hke hkf
    have := (List.mem_filter.1 hk).2
    simp [hke, hkf] at this
  · have hr := (h3.disconnect e f).connect e f true prio (by
      rintro ⟨k, hk, hke, hkf⟩
      have := (List.mem_filter.1 hk).2
      simp [hke, hkf] at this)
    obtain ⟨c', out', cs', r1, r2, _⟩ := run_spec after _ _ hr
    refine ⟨c', out', r1, (r2.once e f hafter hr.nodup).2 ?_⟩
    intro k hk hke hkf
    rcases List.mem_append.1 hk with hk | hk
    · have := (List.mem_filter.1 hk).2
      simp [hke, hkf] at this
    · simp only [List.mem_singleton] at hk
      rw [hk]

/-- Functions 1 (priority 5), 2 and 3 (priority 0, function 3 once only); 2 is connected twice,
    then 1 is disconnected. -/
example : (run (Callbacks.empty : Callbacks Nat Nat) [.connect 0 1 false 5, .connect 0 2 false 0, .connect 0 3 true 0,
    .connect 0 2 false 9, .emit 0 (fun _ => true), .emit 0 (fun _ => true), .disconnect 0 1,
    .emit 0 (fun _ => true)]).map (·.2) = some [(0, [2, 3, 1]), (0, [2, 1]), (0, [2])] := by decide

/-- **C36 is violated by the code** when functions disconnect during `emit`. In the list 1, 2,
    function 1 disconnects itself: function 2 is not called. In the list 1, 2 (once only), 3,
    function 2 disconnects function 1: function 3 is not called and is disconnected, instead of
    function 2, which stays connected. -/
theorem C36_violated_reentrant :
    (∀ n, emitSlots (fun _ => true) (fun f s => if f = 1 then (remove 1 s).getD s else s) (n + 2)
      [⟨1, false, 0⟩, ⟨2, false, 0⟩] = ([1], some [⟨2, false, 0⟩])) ∧
    (∀ n, emitSlots (fun _ => true) (fun f s => if f = 2 then (remove 1 s).getD s else s) (n + 3)
      [⟨1, false, 0⟩, ⟨2, true, 0⟩, ⟨3, false, 0⟩] = ([1, 2], some [⟨2, true, 0⟩])) := by
  refine ⟨fun n => ?_, fun n => ?_⟩ <;> simp [emitSlots, emitLoop, remove, delAll]

end Parce.Obs

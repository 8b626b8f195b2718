import Verif.Lemmas.Circular
/-!
# C23: the detection of circular targets
-/
namespace Parce
variable {α L A ρ : Type} [DecidableEq α]

/-- The language of the witnesses below: lexicons that have a default target and no rules. -/
private def defaults (tg : Nat → Target Nat) : Lang Char Nat Nat Unit where
  ld l := .empty (.target (tg l))
  consume _ := false
  expand tok := [⟨tok.pos, tok.text, tok.act⟩]
  noAct := 0

/-- 0 enters 1 and 2; 2 is left; 1 is left and 3, 2, and 2 are entered; 3 is left. -/
private def clears : Nat → Target Nat
  | 0 => ⟨0, [1, 2]⟩
  | 1 => ⟨1, [3, 2, 2]⟩
  | _ => ⟨1, []⟩

private theorem step_new {tg : Nat → Target Nat} {top : Nat} {rest : List Nat} {fac : Factory Nat} {c : List (Nat × Nat × Nat)}
    (h : (0, (top :: rest).length - (clampPop (top :: rest) (tg top)).pop, (clampPop (top :: rest) (tg top)).push.length) ∉ c) :
    lexStep (defaults tg) ['x'] ⟨top :: rest, fac, c, .at 0 false⟩ =
      some (⟨(clampPop (top :: rest) (tg top)).apply (top :: rest), fac.add (clampPop (top :: rest) (tg top)),
        (0, (top :: rest).length - (clampPop (top :: rest) (tg top)).pop, (clampPop (top :: rest) (tg top)).push.length) :: c, .at 0 false⟩, []) := by
  have hp : parseNext (defaults tg).noAct ((defaults tg).ld top) ['x'] (PS.at 0 false) = some (⟨0, [], none, 0, some (tg top)⟩, .stop) := rfl
  simp only [lexStep, hp, ne_eq, not_true_eq_false, if_false]
  rw [if_neg h]

private theorem step_seen {tg : Nat → Target Nat} {top : Nat} {rest : List Nat} {fac : Factory Nat} {c : List (Nat × Nat × Nat)}
    (h : (0, (top :: rest).length - (clampPop (top :: rest) (tg top)).pop, (clampPop (top :: rest) (tg top)).push.length) ∈ c)
    (h0 : (clampPop (top :: rest) (tg top)).push = []) :
    lexStep (defaults tg) ['x'] ⟨top :: rest, fac, c, .at 0 false⟩ =
      some (⟨(clampPop (top :: rest) (tg top)).apply (top :: rest), fac.add (clampPop (top :: rest) (tg top)), [], .at 0 false⟩, []) := by
  have hp : parseNext (defaults tg).noAct ((defaults tg).ld top) ['x'] (PS.at 0 false) = some (⟨0, [], none, 0, some (tg top)⟩, .stop) := rfl
  simp only [lexStep, hp, ne_eq, not_true_eq_false, if_false]
  rw [if_pos h, if_neg (fun hx => hx.1 h0)]

/-- The lexer comes here again and again. -/
private def Here (s : LState Nat Unit) : Prop :=
  s.ps = .at 0 false ∧
  ((s.stack, s.circ) = ([0], []) ∨
   (s.stack, s.circ) = ([2, 1, 0], [(0, 1, 2)]) ∨
   (s.stack, s.circ) = ([1, 0], [(0, 2, 0), (0, 1, 2)]) ∨
   (s.stack, s.circ) = ([2, 2, 3, 0], [(0, 1, 3), (0, 2, 0), (0, 1, 2)]) ∨
   (s.stack, s.circ) = ([2, 3, 0], [(0, 3, 0), (0, 1, 3), (0, 2, 0), (0, 1, 2)]) ∨
   (s.stack, s.circ) = ([3, 0], []) ∨
   (s.stack, s.circ) = ([0], [(0, 1, 0)]) ∨
   (s.stack, s.circ) = ([2, 1, 0], [(0, 1, 2), (0, 1, 0)]) ∨
   (s.stack, s.circ) = ([1, 0], [(0, 2, 0), (0, 1, 2), (0, 1, 0)]) ∨
   (s.stack, s.circ) = ([2, 2, 3, 0], [(0, 1, 3), (0, 2, 0), (0, 1, 2), (0, 1, 0)]) ∨
   (s.stack, s.circ) = ([2, 3, 0], [(0, 3, 0), (0, 1, 3), (0, 2, 0), (0, 1, 2), (0, 1, 0)]))

private theorem here_step (s : LState Nat Unit) (h : Here s) : ∃ s', lexStep (defaults clears) ['x'] s = some (s', []) ∧ Here s' := by
  obtain ⟨stack, fac, circ, ps⟩ := s
  obtain ⟨h1, h2⟩ := h
  simp only at h1
  subst h1
  simp only [Prod.mk.injEq] at h2
  rcases h2 with ⟨rfl, rfl⟩ | ⟨rfl, rfl⟩ | ⟨rfl, rfl⟩ | ⟨rfl, rfl⟩ | ⟨rfl, rfl⟩ | ⟨rfl, rfl⟩ | ⟨rfl, rfl⟩ | ⟨rfl, rfl⟩ | ⟨rfl, rfl⟩ |
    ⟨rfl, rfl⟩ | ⟨rfl, rfl⟩
  all_goals first
    | exact ⟨_, step_new (by decide), rfl, by simp [clears, clampPop, Target.apply]⟩
    | exact ⟨_, step_seen (by decide) rfl, rfl, by simp [clears, clampPop, Target.apply]⟩

/-- **C23 is violated** in the middle of a text, with default targets that do not leave the root and a stack that never
    becomes higher than four, although the lexer detects circular targets: the state that is seen again is always one where no
    lexicon is entered, so that the position is not advanced, and then the set of states is emptied, before a state where a
    lexicon is entered is seen again. -/
theorem C23_violated_bounded : ∀ n, ∃ s, (lexRun (defaults clears) ['x'] n (LState.start [0] 0)).2 = some s ∧ s.stack.length ≤ 4 := by
  have key : ∀ n (s : LState Nat Unit), Here s →
      ∃ s', (lexRun (defaults clears) ['x'] n s).2 = some s' ∧ s'.stack.length ≤ 4 := by
    intro n
    induction n with
    | zero =>
      intro s h
      refine ⟨s, rfl, ?_⟩
      have h2 := h.2
      simp only [Prod.mk.injEq] at h2
      rcases h2 with ⟨h, _⟩ | ⟨h, _⟩ | ⟨h, _⟩ | ⟨h, _⟩ | ⟨h, _⟩ | ⟨h, _⟩ | ⟨h, _⟩ | ⟨h, _⟩ | ⟨h, _⟩ | ⟨h, _⟩ | ⟨h, _⟩ <;> rw [h] <;> decide
    | succ n ih =>
      intro s h
      obtain ⟨s', h1, h2⟩ := here_step s h
      simp only [lexRun, h1]
      exact ih s' h2
  exact fun n => key n _ ⟨rfl, Or.inl rfl⟩

/-- **C23 is violated** by a lexicon whose default target enters the lexicon itself: all states are new. -/
theorem C23_violated_grows : ∀ n, (lexRun (defaults fun l => ⟨0, [l]⟩) ['x'] n (LState.start [0] 0)).2 ≠ none := by
  have key : ∀ n (s : LState Nat Unit) m, s.stack = List.replicate (m + 1) 0 → s.ps = .at 0 false →
      (∀ v ∈ s.circ, v.2.1 < m + 1) →
      (lexRun (defaults fun l => ⟨0, [l]⟩) ['x'] n s).2 ≠ none := by
    intro n
    induction n with
    | zero => intro s _ _ _ _; simp [lexRun]
    | succ n ih =>
      intro s m h1 h2 h3
      have hp : parseNext (defaults fun l => ⟨0, [l]⟩).noAct ((defaults fun l => ⟨0, [l]⟩).ld 0) ['x'] (PS.at 0 false) =
          some (⟨0, [], none, 0, some ⟨0, [0]⟩⟩, .stop) := rfl
      have hc : clampPop (List.replicate (m + 1) 0) (⟨0, [0]⟩ : Target Nat) = ⟨0, [0]⟩ := by simp [clampPop]
      have hni : (0, m + 1, 1) ∉ s.circ := fun hx => absurd (h3 _ hx) (Nat.lt_irrefl _)
      have hstep : lexStep (defaults fun l => ⟨0, [l]⟩) ['x'] s =
          some (⟨List.replicate (m + 1 + 1) 0, s.fac.add ⟨0, [0]⟩, (0, m + 1, 1) :: s.circ, .at 0 false⟩, []) := by
        unfold lexStep
        rw [h1, h2]
        simp only [List.replicate_succ (n := m), hp]
        rw [← List.replicate_succ, hc]
        simp only [ne_eq, not_true_eq_false, if_false, List.length_replicate, Nat.sub_zero, List.length_singleton, if_neg hni]
        rfl
      simp only [lexRun, hstep]
      refine ih _ (m + 1) rfl rfl ?_
      intro v hv
      rcases List.mem_cons.1 hv with rfl | hv
      · simp
      · have := h3 v hv
        omega
  exact fun n => key n _ 0 rfl rfl (fun v hv => absurd hv (List.not_mem_nil))

/-- **C23** (partial), with the detection of circular targets: lexing ends when all chains of targets that are followed without
    consuming text either end by themselves, or are not at the end of the text, remain below some height, and consist of
    targets that enter at most one lexicon and are not without effect; and when no lexicon with a default target has an empty
    match without a target. Missing: endless chains where targets enter two lexicons or more, for which the detection can
    fail (`C23_violated_bounded`), that leave the root (`C23_violated`), that grow (`C23_violated_grows`), or that are at the
    end of the text (`C23_violated_end`). -/
theorem C23_circular_partial (lang : Lang α L A ρ) (t : List α) (hl : ∀ l, LexOK (lang.ld l))
    (hn : ∀ l, NoStuckMatch (lang.ld l)) (stack : List L) (root : L) (hroot : stack.getLast? = some root)
    (he : EndsOrCircles lang t root) (pos : Nat) (hp : pos ≤ t.length) :
    ∃ n, (lexRun lang t n (LState.start stack pos)).2 = none :=
  Circ.ends hl hn he (start_ok lang t stack hp) hroot

/-- **C23** (partial), a condition on the rules that allows circular default targets: empty matches have no target; a default
    target enters one lexicon or none, a lexicon that is entered has a lower rank, and a default target that enters none leaves a lexicon,
    and is not that of the root. Then lexing ends, because of the detection of circular targets. -/
theorem C23_defaults_partial (lang : Lang α L A ρ) (t : List α) (hl : ∀ l, LexOK (lang.ld l))
    (hn : ∀ l, NoStuckMatch (lang.ld l)) (stack : List L) (root : L) (hroot : stack.getLast? = some root)
    (hm : ∀ l, NoEmptyMatchTarget (lang.ld l)) (rank : L → Nat)
    (hd : ∀ l tg, (lang.ld l).dflt = .target tg → tg.push.length ≤ 1 ∧ (∀ x ∈ tg.push, rank x < rank l) ∧
      (tg.push = [] → 0 < tg.pop ∧ l ≠ root)) (pos : Nat) (hp : pos ≤ t.length) :
    ∃ n, (lexRun lang t n (LState.start stack pos)).2 = none := by
  refine C23_circular_partial lang t hl hn stack root hroot ?_ pos hp
  intro p stack hple hroot
  by_cases hlt : p < t.length
  · right
    refine ⟨hlt, ⟨Circ.peak rank stack, ?_⟩, ?_⟩
    · intro n s h
      refine Nat.le_trans (Circ.le_peak rank s) (Circ.follow_peak ?_ n stack s h)
      intro l tg h1
      obtain ⟨h2, h3, _⟩ := hd l tg (Circ.emptyTarget_dflt (hl l) (hm l) h1).1
      exact ⟨h2, h3⟩
    · intro n top rest tg h1 h2
      obtain ⟨h3, _, h4⟩ := hd top tg (Circ.emptyTarget_dflt (hl top) (hm top) h2).1
      refine ⟨h3, fun h5 h6 => ?_⟩
      obtain ⟨h7, h8⟩ := h4 h6
      rcases h5 with h5 | h5
      · omega
      · subst h5
        have h9 := Circ.follow_root n stack h1
        rw [hroot] at h9
        simp at h9
        exact h8 h9
  · left
    refine ⟨1, ?_⟩
    cases stack with
    | nil => rfl
    | cons top rest =>
      rw [follow]
      cases ha : emptyTarget lang t p top with
      | none => rfl
      | some tg => exact absurd (Circ.emptyTarget_dflt (hl top) (hm top) ha).2 hlt

/-- 0 enters 1 by default, 1 is left by default: each is circular. -/
private def circle : Nat → Target Nat
  | 0 => ⟨0, [1]⟩
  | _ => ⟨1, []⟩

/-- Not vacuous: the hypotheses hold for a language with circular default targets, and the chain does not end by itself. -/
example : (∀ l, LexOK ((defaults circle).ld l)) ∧ (∀ l, NoStuckMatch ((defaults circle).ld l)) ∧
    (∀ l, NoEmptyMatchTarget ((defaults circle).ld l)) ∧
    (∀ l tg, ((defaults circle).ld l).dflt = .target tg → tg.push.length ≤ 1 ∧ (∀ x ∈ tg.push, (fun l => 1 - l) x < (fun l => 1 - l) l) ∧
      (tg.push = [] → 0 < tg.pop ∧ l ≠ 0)) ∧
    (follow (defaults circle) ['x', 'y'] 0 7 [0] = some [1, 0]) ∧
    (lexRun (defaults circle) ['x', 'y'] 10 (LState.start [0] 0)).2 = none := by
  refine ⟨fun _ => trivial, fun _ => trivial, fun _ => trivial, ?_, by decide, by rfl⟩
  intro l tg h
  cases h
  match l with
  | 0 => simp [circle]
  | l + 1 => simp [circle]

end Parce

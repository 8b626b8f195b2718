import Verif.Spec.FormatContext

/-! Lemmas about traces of formatting. -/

namespace Parce.FC

variable {α L A F G : Type}

theorem ranges_append (a b : List (Ev F G)) : ranges (a ++ b) = ranges a ++ ranges b := by
  induction a with
  | nil => rfl
  | cons e a ih => cases e <;> simp [ranges, ih]

theorem switches_append (a b : List (Ev F G)) : switches (a ++ b) = switches a ++ switches b := by
  induction a with
  | nil => rfl
  | cons e a ih => cases e <;> simp [switches, ih]

theorem ranges_map (l : List (Rg F)) : ranges (l.map (Ev.range (G := G))) = l := by
  induction l with
  | nil => rfl
  | cons r l ih => simp [ranges, ih]

theorem switches_map (l : List (Rg F)) : switches (l.map (Ev.range (G := G))) = [] := by
  induction l with
  | nil => rfl
  | cons r l ih => simp [switches, ih]

theorem evs_map (l : List (Ev F G)) : evs (l.map .ev ++ [.done]) = l := by
  induction l with
  | nil => rfl
  | cons e l ih => simp [evs] at ih ⊢; exact ih

/-! The generators yield the same ranges. -/

/-- The tokens with their caches. -/
def toks : List (Step α A F G) → List (TokN α A × FCache A F)
  | [] => []
  | .switch _ :: s => toks s
  | .tok t fc :: s => (t, fc) :: toks s

theorem ranges_traceU (stop : Option Nat) (u : F) : ∀ (s : List (Step α A F G)) (prev : Nat),
    ranges (traceU stop u prev s) = streamU stop u prev (toks s)
  | [], prev => by simp only [traceU, toks, ranges_map]
  | .switch k :: s, prev => by simp only [traceU, ranges, toks]; exact ranges_traceU stop u s prev
  | .tok t fc :: s, prev => by
    simp only [traceU, ranges_append, ranges_map, toks, streamU, ranges_traceU stop u s t.stop, List.append_assoc]

theorem ranges_traceB (stop : Option Nat) (last : FCache A F) : ∀ (s : List (Step α A F G)) (prev : Nat),
    ranges (traceB stop last prev s) = streamB stop last prev (toks s)
  | [], prev => by simp only [traceB, toks, ranges_map]
  | .switch k :: s, prev => by simp only [traceB, ranges, toks]; exact ranges_traceB stop last s prev
  | .tok t fc :: s, prev => by
    simp only [traceB, ranges_append, ranges_map, toks, streamB, ranges_traceB stop last s t.stop]
    rfl

theorem switches_traceU (stop : Option Nat) (u : F) : ∀ (s : List (Step α A F G)) (prev : Nat),
    switches (traceU stop u prev s) = stepSwitches s
  | [], prev => by simp only [traceU, switches_map]; rfl
  | .switch k :: s, prev => by simp only [traceU, switches, stepSwitches, switches_traceU stop u s prev]
  | .tok t fc :: s, prev => by
    simp only [traceU, switches_append, switches_map, stepSwitches, switches_traceU stop u s t.stop, List.nil_append]

theorem switches_traceB (stop : Option Nat) (last : FCache A F) : ∀ (s : List (Step α A F G)) (prev : Nat),
    switches (traceB stop last prev s) = stepSwitches s
  | [], prev => by simp only [traceB, switches_map]; rfl
  | .switch k :: s, prev => by simp only [traceB, switches, stepSwitches, switches_traceB stop last s prev]
  | .tok t fc :: s, prev => by
    simp only [traceB, switches_append, switches_map, stepSwitches, switches_traceB stop last s t.stop, List.nil_append]

theorem ranges_fixTail (stop : Option Nat) : ∀ (s : List (Ev F G)) (i : Rg F),
    ranges (fixTailT stop i s) = fixTail stop i (ranges s)
  | [], i => by simp only [fixTailT, ranges_map]; rfl
  | .switch k :: s, i => by simp only [fixTailT, ranges]; exact ranges_fixTail stop s i
  | .range j :: s, i => by simp only [fixTailT, ranges, fixTail, ranges_fixTail stop s j]

theorem switches_fixTail (stop : Option Nat) : ∀ (s : List (Ev F G)) (i : Rg F),
    switches (fixTailT stop i s) = switches s
  | [], i => by simp only [fixTailT, switches_map]; rfl
  | .switch k :: s, i => by simp only [fixTailT, switches, switches_fixTail stop s i]
  | .range j :: s, i => by simp only [fixTailT, switches, switches_fixTail stop s j]

theorem ranges_fixFirst (start : Nat) (stop : Option Nat) (h : ¬ (start = 0 ∧ stop = none)) : ∀ (s : List (Ev F G)),
    ranges (fixFirstT start stop s) = fixBoundaries start stop (ranges s)
  | [] => by simp [fixFirstT, ranges, fixBoundaries]
  | .switch k :: s => by simp only [fixFirstT, ranges]; exact ranges_fixFirst start stop h s
  | .range j :: s => by
    simp only [fixFirstT, ranges, ranges_fixTail, fixBoundaries, if_neg h]

theorem switches_fixFirst (start : Nat) (stop : Option Nat) : ∀ (s : List (Ev F G)),
    switches (fixFirstT start stop s) = switches s
  | [] => rfl
  | .switch k :: s => by simp only [fixFirstT, switches, switches_fixFirst start stop s]
  | .range j :: s => by simp only [fixFirstT, switches, switches_fixTail]

theorem ranges_fix (start : Nat) (stop : Option Nat) (s : List (Ev F G)) :
    ranges (fixT start stop s) = fixBoundaries start stop (ranges s) := by
  unfold fixT
  split
  · rename_i h; simp [fixBoundaries, h]
  · rename_i h; exact ranges_fixFirst start stop h s

theorem switches_fix (start : Nat) (stop : Option Nat) (s : List (Ev F G)) :
    switches (fixT start stop s) = switches s := by
  unfold fixT
  split
  · rfl
  · exact switches_fixFirst start stop s

theorem ranges_mergeTail [DecidableEq F] : ∀ (s : List (Ev F G)) (pos stop : Nat) (rest : F),
    ranges (mergeTailT pos stop rest s) = mergeLoop pos stop rest (ranges s)
  | [], _, _, _ => rfl
  | .switch k :: s, pos, stop, rest => by simp only [mergeTailT, ranges]; exact ranges_mergeTail s pos stop rest
  | .range n :: s, pos, stop, rest => by
    simp only [mergeTailT, ranges, mergeLoop]
    split
    · simp only [ranges, ranges_mergeTail s]
    · exact ranges_mergeTail s _ _ _

theorem switches_mergeTail [DecidableEq F] : ∀ (s : List (Ev F G)) (pos stop : Nat) (rest : F),
    switches (mergeTailT pos stop rest s) = switches s
  | [], _, _, _ => rfl
  | .switch k :: s, pos, stop, rest => by simp only [mergeTailT, switches, switches_mergeTail s pos stop rest]
  | .range n :: s, pos, stop, rest => by
    simp only [mergeTailT, switches]
    split
    · simp only [switches, switches_mergeTail s]
    · exact switches_mergeTail s _ _ _

theorem ranges_merge [DecidableEq F] : ∀ (s : List (Ev F G)), ranges (mergeT s) = mergeAdjacent (ranges s)
  | [] => rfl
  | .switch k :: s => by simp only [mergeT, ranges]; exact ranges_merge s
  | .range n :: s => by simp only [mergeT, ranges, mergeAdjacent, ranges_mergeTail]

theorem switches_merge [DecidableEq F] : ∀ (s : List (Ev F G)), switches (mergeT s) = switches s
  | [] => rfl
  | .switch k :: s => by simp only [mergeT, switches, switches_merge s]
  | .range n :: s => by simp only [mergeT, switches, switches_mergeTail]

/-! The steps. -/

theorem key_get [DecidableEq G] (c : FCaches A F G) (d : FCache A F) (g : G) : cacheAt c d (keyOf c g) = c.get d g := by
  unfold keyOf
  split
  · rfl
  · rename_i h
    simp only [cacheAt, FCaches.get]
    rw [List.find?_eq_none.2]
    · rfl
    · intro q hq hd
      exact h (List.any_eq_true.2 ⟨q, hq, hd⟩)

theorem key_theme [DecidableEq G] (c : FCaches A F G) (g : G) (k : Option G) : themeOf c g k ↔ k = keyOf c g := by
  unfold keyOf
  by_cases h : c.others.any (fun q => decide (q.1 = g)) = true
  · rw [if_pos h]
    obtain ⟨q, hq, hd⟩ := List.any_eq_true.1 h
    have hd := of_decide_eq_true hd
    cases k with
    | none => simp only [themeOf]; exact ⟨fun hn => absurd hd (hn q hq), (fun e => by cases e)⟩
    | some g' =>
      simp only [themeOf, Option.some.injEq]
      exact ⟨fun h => h.1, fun e => ⟨e, q, hq, hd⟩⟩
  · rw [if_neg h]
    have hn : ∀ q ∈ c.others, q.1 ≠ g := fun q hq e => h (List.any_eq_true.2 ⟨q, hq, decide_eq_true e⟩)
    cases k with
    | none => simp only [themeOf]; exact ⟨fun _ => trivial, fun _ => hn⟩
    | some g' =>
      simp only [themeOf]
      exact ⟨fun ⟨_, q, hq, e⟩ => absurd e (hn q hq), (fun e => by cases e)⟩

theorem toks_steps [DecidableEq G] (c : FCaches A F G) (langOf : L → G) (d : FCache A F) :
    ∀ (es : List (FEv α L A)) (k : Option G),
    toks (steps c langOf d k es) = (withFc c langOf d (cacheAt c d k) es).1
  | [], _ => rfl
  | .lang l :: es, k => by
    simp only [steps, withFc]
    split
    · rename_i h
      rw [toks_steps c langOf d es k, ← h, key_get]
    · simp only [toks]
      rw [toks_steps c langOf d es _, key_get]
  | .tok t :: es, k => by simp only [steps, toks, withFc, toks_steps c langOf d es k]

theorem switches_steps [DecidableEq G] (c : FCaches A F G) (langOf : L → G) (d : FCache A F) :
    ∀ (es : List (FEv α L A)) (k : Option G),
    stepSwitches (steps c langOf d k es) = changes k ((langs es).map (fun l => keyOf c (langOf l)))
  | [], _ => rfl
  | .lang l :: es, k => by
    simp only [steps, langs, List.map_cons, changes]
    split
    · exact switches_steps c langOf d es k
    · simp only [stepSwitches, switches_steps c langOf d es _]
  | .tok t :: es, k => by simp only [steps, stepSwitches, langs, switches_steps c langOf d es k]

theorem changes_chain [DecidableEq G] : ∀ (ks : List (Option G)) (k : Option G) (pre post : List (Option G))
    (a b : Option G), k :: changes k ks = pre ++ a :: b :: post → a ≠ b
  | [], k, pre, post, a, b, h => by
    have := congrArg List.length h
    simp [changes] at this
    omega
  | x :: xs, k, pre, post, a, b, h => by
    simp only [changes] at h
    split at h
    · exact changes_chain xs k pre post a b h
    · rename_i hx
      cases pre with
      | nil =>
        simp only [List.nil_append, List.cons.injEq] at h
        rw [← h.1, ← h.2.1]
        exact Ne.symm hx
      | cons p pre =>
        simp only [List.cons_append, List.cons.injEq] at h
        exact changes_chain xs x pre post a b h.2

/-! When ranges are yielded. -/

theorem fixTail_split (stop : Option Nat) (k : Option G) (post : List (Ev F G)) : ∀ (pre : List (Ev F G)) (i : Rg F),
    ∃ o1 o2, fixTailT stop i (pre ++ .switch k :: post) = o1 ++ .switch k :: o2 ∧
      ranges o1 = (i :: ranges pre).dropLast ∧ switches o1 = switches pre
  | [], i => ⟨[], fixTailT stop i post, rfl, rfl, rfl⟩
  | .switch k' :: pre, i => by
    obtain ⟨o1, o2, h1, h2, h3⟩ := fixTail_split stop k post pre i
    exact ⟨.switch k' :: o1, o2, by simp [fixTailT, h1], by simp only [ranges]; exact h2, by simp [switches, h3]⟩
  | .range j :: pre, i => by
    obtain ⟨o1, o2, h1, h2, h3⟩ := fixTail_split stop k post pre j
    exact ⟨.range i :: o1, o2, by simp [fixTailT, h1], by simp [ranges, h2], by simp [switches, h3]⟩

theorem fix_split (start : Nat) (stop : Option Nat) (h : ¬ (start = 0 ∧ stop = none)) (k : Option G)
    (post : List (Ev F G)) : ∀ (pre : List (Ev F G)),
    ∃ o1 o2, fixFirstT start stop (pre ++ .switch k :: post) = o1 ++ .switch k :: o2 ∧
      ranges o1 = (fixBoundaries start none (ranges pre)).dropLast ∧ switches o1 = switches pre
  | [] => ⟨[], fixFirstT start stop post, rfl, by
      unfold fixBoundaries; split <;> rfl, rfl⟩
  | .switch k' :: pre => by
    obtain ⟨o1, o2, h1, h2, h3⟩ := fix_split start stop h k post pre
    exact ⟨.switch k' :: o1, o2, by simp [fixFirstT, h1], by simp only [ranges]; exact h2, by simp [switches, h3]⟩
  | .range j :: pre => by
    obtain ⟨o1, o2, h1, h2, h3⟩ := fixTail_split stop k post pre (if j.pos < start then ⟨start, j.stop, j.rest⟩ else j)
    refine ⟨o1, o2, h1, ?_, by simpa [switches] using h3⟩
    rw [h2]
    have hft : ∀ (s : List (Rg F)) (i : Rg F), fixTail none i s = i :: s := by
      intro s
      induction s with
      | nil => intro i; rfl
      | cons j s ih => intro i; simp only [fixTail, ih]
    unfold fixBoundaries
    by_cases h0 : start = 0
    · subst h0; simp [ranges]
    · simp [h0, ranges, hft]

theorem mergeTail_split [DecidableEq F] (k : Option G) (post : List (Ev F G)) : ∀ (pre : List (Ev F G))
    (pos stop : Nat) (rest : F),
    ∃ o1 o2, mergeTailT pos stop rest (pre ++ .switch k :: post) = o1 ++ .switch k :: o2 ∧
      ranges o1 = (mergeLoop pos stop rest (ranges pre)).dropLast ∧ switches o1 = switches pre
  | [], pos, stop, rest => ⟨[], mergeTailT pos stop rest post, rfl, rfl, rfl⟩
  | .switch k' :: pre, pos, stop, rest => by
    obtain ⟨o1, o2, h1, h2, h3⟩ := mergeTail_split k post pre pos stop rest
    exact ⟨.switch k' :: o1, o2, by simp [mergeTailT, h1], by simp only [ranges]; exact h2, by simp [switches, h3]⟩
  | .range n :: pre, pos, stop, rest => by
    by_cases hn : n.rest ≠ rest ∨ n.pos > stop
    · obtain ⟨o1, o2, h1, h2, h3⟩ := mergeTail_split k post pre n.pos n.stop n.rest
      refine ⟨.range ⟨pos, stop, rest⟩ :: o1, o2, ?_, ?_, ?_⟩
      · simp only [List.cons_append, mergeTailT, if_pos hn, h1]
      · simp only [ranges, mergeLoop, if_pos hn, h2]
        rw [List.dropLast_cons_of_ne_nil]
        generalize ranges pre = xs
        cases xs with
        | nil => simp [mergeLoop]
        | cons x xs =>
          have : ∀ (xs : List (Rg F)) p s r, mergeLoop p s r xs ≠ [] := by
            intro xs
            induction xs with
            | nil => intro p s r; simp [mergeLoop]
            | cons x xs ih => intro p s r; simp only [mergeLoop]; split <;> simp [ih]
          exact this _ _ _ _
      · simp only [switches, h3]
    · obtain ⟨o1, o2, h1, h2, h3⟩ := mergeTail_split k post pre pos n.stop rest
      refine ⟨o1, o2, ?_, ?_, ?_⟩
      · simp only [List.cons_append, mergeTailT, if_neg hn, h1]
      · simp only [ranges, mergeLoop, if_neg hn, h2]
      · simp only [switches, h3]

theorem merge_split [DecidableEq F] (k : Option G) (post : List (Ev F G)) : ∀ (pre : List (Ev F G)),
    ∃ o1 o2, mergeT (pre ++ .switch k :: post) = o1 ++ .switch k :: o2 ∧
      ranges o1 = (mergeAdjacent (ranges pre)).dropLast ∧ switches o1 = switches pre
  | [] => ⟨[], mergeT post, rfl, rfl, rfl⟩
  | .switch k' :: pre => by
    obtain ⟨o1, o2, h1, h2, h3⟩ := merge_split k post pre
    exact ⟨.switch k' :: o1, o2, by simp [mergeT, h1], by simp only [ranges]; exact h2, by simp [switches, h3]⟩
  | .range n :: pre => by
    obtain ⟨o1, o2, h1, h2, h3⟩ := mergeTail_split k post pre n.pos n.stop n.rest
    exact ⟨o1, o2, by simpa [mergeT] using h1, by simpa only [ranges, mergeAdjacent] using h2, by simpa [switches] using h3⟩

end Parce.FC

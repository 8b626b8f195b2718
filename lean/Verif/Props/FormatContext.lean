import Verif.Lemmas.FormatContext

/-!
C106: what a format context is told while ranges are formatted.
-/

namespace Parce.FC

variable {α L A F G : Type}

/-- C106. With a format context the same ranges are yielded; if there is anything to format, `start` is
called first with the default theme, and `done` last. -/
theorem C106_ranges [DecidableEq G] [DecidableEq F] (c : FCaches A F G) (langOf : L → G) (l : L)
    (cs : List (Node α L A)) (start : Nat) (stop : Option Nat) :
    ranges (evs (formatTrace c langOf l cs start stop)) = formatRanges c langOf l cs start stop ∧
    (formatTrace c langOf l cs start stop = [] ∨
      ∃ es : List (Ev F G), formatTrace c langOf l cs start stop = .start none :: (es.map .ev ++ [.done])) := by
  unfold formatTrace formatRanges
  cases Rng.fromTree l cs start stop with
  | none => exact ⟨rfl, .inl rfl⟩
  | some r =>
    refine ⟨?_, .inr ⟨_, rfl⟩⟩
    simp only [evs, evs_map, ranges_merge, ranges_fix]
    congr 2
    unfold streamTrace fmtStream traceOf streamOf
    simp only []
    cases (c.default.getD FCache.none).unparsed with
    | none => simp only [ranges_traceB, toks_steps]; rfl
    | some u => simp only [ranges_traceU, toks_steps]; rfl

/-- C106. `switch` is called exactly for the changes of the theme while the contexts are visited, so never
twice for the same theme, and not for the default theme at the beginning. -/
theorem C106_switches [DecidableEq G] [DecidableEq F] (c : FCaches A F G) (langOf : L → G) (l : L)
    (cs : List (Node α L A)) (start : Nat) (stop : Option Nat) (r : Rng) (h : Rng.fromTree l cs start stop = some r) :
    (∃ ks, ks.length = (langs (fmtEvents c (.ctx l cs) r)).length ∧
      (∀ q ∈ (langs (fmtEvents c (.ctx l cs) r)).zip ks, themeOf c (langOf q.1) q.2) ∧
      switches (evs (formatTrace c langOf l cs start stop)) = changes none ks) ∧
    ∀ pre post a b, none :: switches (evs (formatTrace c langOf l cs start stop)) = pre ++ a :: b :: post → a ≠ b := by
  have hs : switches (evs (formatTrace c langOf l cs start stop)) =
      changes none ((langs (fmtEvents c (.ctx l cs) r)).map (fun l => keyOf c (langOf l))) := by
    unfold formatTrace
    rw [h]
    simp only [evs, evs_map, switches_merge, switches_fix]
    unfold streamTrace traceOf
    simp only []
    cases (c.default.getD FCache.none).unparsed with
    | none => simp only [switches_traceB, switches_steps]
    | some u => simp only [switches_traceU, switches_steps]
  constructor
  · refine ⟨_, List.length_map _, ?_, hs⟩
    intro q hq
    rw [key_theme]
    generalize langs (fmtEvents c (.ctx l cs) r) = ls at hq
    induction ls with
    | nil => simp at hq
    | cons x xs ih =>
      simp only [List.map_cons, List.zip_cons_cons, List.mem_cons] at hq
      rcases hq with rfl | hq
      · rfl
      · exact ih hq
  · intro pre post a b hp
    rw [hs] at hp
    exact changes_chain _ _ pre post a b hp

/-- C106. Each token is formatted with the theme of the context it is in, and this is the theme that was
announced last. -/
theorem C106_theme [DecidableEq G] (c : FCaches A F G) (langOf : L → G) (d : FCache A F) (es : List (FEv α L A)) :
    (stepToks none (steps c langOf d none es)).length = (tokLangs none es).length ∧
    ∀ q ∈ (stepToks none (steps c langOf d none es)).zip (tokLangs none es),
      q.1.1 = q.2.1 ∧ q.1.2.1 = ((q.2.2.map langOf).elim d (c.get d)) ∧
      (q.2.2.map langOf).elim (q.1.2.2 = none) (fun g => themeOf c g q.1.2.2) := by
  have key : ∀ (es : List (FEv α L A)) (k : Option G) (l : Option L),
      k = (l.map langOf).elim none (keyOf c) →
      (stepToks k (steps c langOf d k es)).length = (tokLangs l es).length ∧
      ∀ q ∈ (stepToks k (steps c langOf d k es)).zip (tokLangs l es),
        q.1.1 = q.2.1 ∧ q.1.2.1 = ((q.2.2.map langOf).elim d (c.get d)) ∧
        (q.2.2.map langOf).elim (q.1.2.2 = none) (fun g => themeOf c g q.1.2.2) := by
    intro es
    induction es with
    | nil => intro k l _; exact ⟨rfl, (fun q hq => by simp [steps, stepToks] at hq)⟩
    | cons e es ih =>
      intro k l hk
      cases e with
      | lang l' =>
        simp only [steps, tokLangs]
        split
        · rename_i h; exact ih k (some l') h.symm
        · simp only [stepToks]; exact ih _ (some l') rfl
      | tok t =>
        obtain ⟨h1, h2⟩ := ih k l hk
        simp only [steps, stepToks, tokLangs, List.length_cons, h1, List.zip_cons_cons, List.mem_cons]
        refine ⟨trivial, ?_⟩
        rintro q (rfl | hq)
        · refine ⟨rfl, ?_, ?_⟩
          · cases l with
            | none => simp only [hk]; rfl
            | some l => simp only [hk, Option.map_some, Option.elim_some, key_get]
          · cases l with
            | none => exact hk
            | some l =>
              simp only [Option.map_some, Option.elim_some, key_theme]
              exact hk
        · exact h2 q hq
  exact key es none none rfl

/-- C106 (partial: the last range before a switch is yielded too late, see `C106_violated`). When `switch`
is called, the ranges that came before it in the stream are yielded, except the last; for a part of the
text, except the last two. The switches before it were called already. -/
theorem C106_late_partial [DecidableEq F] (start : Nat) (stop : Option Nat) (pre post : List (Ev F G)) (k : Option G) :
    ∃ o1 o2, mergeT (fixT start stop (pre ++ .switch k :: post)) = o1 ++ .switch k :: o2 ∧
      switches o1 = switches pre ∧
      ranges o1 =
        if start = 0 ∧ stop = none then (mergeAdjacent (ranges pre)).dropLast
        else (mergeAdjacent (fixBoundaries start none (ranges pre)).dropLast).dropLast := by
  by_cases h : start = 0 ∧ stop = none
  · obtain ⟨o1, o2, h1, h2, h3⟩ := merge_split k post pre
    exact ⟨o1, o2, by rw [fixT, if_pos h]; exact h1, h3, by rw [if_pos h]; exact h2⟩
  · obtain ⟨p1, p2, g1, g2, g3⟩ := fix_split start stop h k post pre
    obtain ⟨o1, o2, h1, h2, h3⟩ := merge_split k p2 p1
    refine ⟨o1, o2, ?_, h3.trans g3, ?_⟩
    · rw [fixT, if_neg h, g1]; exact h1
    · rw [if_neg h, h2, g2]

/-- Two themes: 10 times the action for the default, and 20 times for language 5. -/
def exCaches : FCaches Nat Nat Nat :=
  ⟨some ⟨none, none, fun a => some (10 * a)⟩, [(5, ⟨none, none, fun a => some (20 * a)⟩)]⟩

/-- Three tokens, the one in the middle is in language 5. -/
def exTree : List (Node Char Nat Nat) :=
  [.tok ⟨0, ['a'], 1, none⟩, .ctx 5 [.tok ⟨1, ['b'], 1, none⟩], .tok ⟨2, ['c'], 1, none⟩]

example : (Rng.fromTree 0 exTree 0 none).isSome = true := by decide

/-- C106 is violated: the range of the first token is yielded after the switch to the theme of the second,
and the range of the second after the switch to the theme of the third. -/
theorem C106_violated : formatTrace exCaches id 0 exTree 0 none =
    [.start none, .ev (.switch (some 5)), .ev (.range ⟨0, 1, 10⟩), .ev (.switch none), .ev (.range ⟨1, 2, 20⟩),
      .ev (.range ⟨2, 3, 10⟩), .done] := by decide

/-- C106 is violated, for all streams: the last range before a switch is never yielded before it (if
nothing is merged). -/
theorem C106_always_violated [DecidableEq F] (pre post : List (Ev F G)) (r : Rg F) (k : Option G) :
    ∃ o1 o2, mergeT (pre ++ .range r :: .switch k :: post) = o1 ++ .switch k :: o2 ∧
      ∀ q ∈ ranges o1, ∃ p ∈ ranges pre, q.stop = p.stop := by
  obtain ⟨o1, o2, h1, h2, -⟩ := merge_split k post (pre ++ [.range r])
  refine ⟨o1, o2, by simpa using h1, ?_⟩
  rw [h2, ranges_append]
  have loop : ∀ (xs : List (Rg F)) pos stop rest, ∀ q ∈ (mergeLoop pos stop rest (xs ++ [r])).dropLast,
      q.stop = stop ∨ ∃ p ∈ xs, q.stop = p.stop := by
    intro xs
    induction xs with
    | nil =>
      intro pos stop rest q hq
      simp only [List.nil_append, mergeLoop] at hq
      split at hq
      · simp at hq; left; rw [hq]
      · simp at hq
    | cons x xs ih =>
      intro pos stop rest q hq
      simp only [List.cons_append, mergeLoop] at hq
      split at hq
      · have := (List.dropLast_subset _) hq
        rcases List.mem_cons.1 this with rfl | hm
        · exact .inl rfl
        · have hne : mergeLoop x.pos x.stop x.rest (xs ++ [r]) ≠ [] := by intro e; rw [e] at hm; cases hm
          rw [List.dropLast_cons_of_ne_nil hne] at hq
          rcases List.mem_cons.1 hq with rfl | hq
          · exact .inl rfl
          · rcases ih _ _ _ q hq with h | ⟨p, hp, h⟩
            · exact .inr ⟨x, by simp, h⟩
            · exact .inr ⟨p, by simp [hp], h⟩
      · rcases ih _ _ _ q hq with h | ⟨p, hp, h⟩
        · exact .inr ⟨x, by simp, h⟩
        · exact .inr ⟨p, by simp [hp], h⟩
  intro q hq
  cases hp : ranges pre with
  | nil =>
    rw [hp] at hq
    simp [ranges, mergeAdjacent, mergeLoop] at hq
  | cons x xs =>
    rw [hp] at hq
    simp only [List.cons_append, mergeAdjacent, ranges] at hq
    rcases loop xs _ _ _ q hq with h | ⟨p, hp', h⟩
    · exact ⟨x, by simp, h⟩
    · exact ⟨p, by simp [hp'], h⟩

example : mergeT [Ev.range (⟨0, 1, 10⟩ : Rg Nat), .switch (some 5), .range ⟨1, 2, 20⟩] =
    [] ++ .switch (some 5) :: [.range ⟨0, 1, 10⟩, .range ⟨1, 2, 20⟩] := by decide

end Parce.FC

import Verif.Lemmas.Re
/-!
# The order in which matches are found
-/
namespace Parce
variable {α : Type}

theorem Way.Pref.irrefl (x : Way) : ¬ x.Pref x := by
  induction x with
  | unit => intro h; cases h
  | both a b iha ihb => intro h; cases h with
    | fst h => exact iha h
    | snd h => exact ihb h
  | left a ih => intro h; cases h with | left h => exact ih h
  | right a ih => intro h; cases h with | right h => exact ih h
  | stop lz => intro h; cases h
  | more lz a r iha ihr => intro h; cases h with
    | round h => exact iha h
    | rest h => exact ihr h

theorem Way.Pref.asymm {x y : Way} (h : x.Pref y) : ¬ y.Pref x := by
  induction h with
  | fst h ih => intro h'; cases h' with
    | fst h' => exact ih h'
    | snd h' => exact irrefl _ h
  | snd h ih => intro h'; cases h' with
    | fst h' => exact irrefl _ h'
    | snd h' => exact ih h'
  | alt a b => intro h'; cases h'
  | left h ih => intro h'; cases h' with | left h' => exact ih h'
  | right h ih => intro h'; cases h' with | right h' => exact ih h'
  | greedy a r => intro h'; cases h'
  | lazy a r => intro h'; cases h'
  | round h ih => intro h'; cases h' with
    | round h' => exact ih h'
    | rest h' => exact irrefl _ h
  | rest h ih => intro h'; cases h' with
    | round h' => exact irrefl _ h'
    | rest h' => exact ih h'

/-- A way, its end and groups. -/
abbrev WEnd := Way × Nat × Caps

/-- A loop. -/
def loopWays (lz : Bool) (step : Nat → List WEnd) : Nat → Nat → List WEnd
  | 0, p => [(.stop lz, p, [])]
  | fuel + 1, p =>
    let l := (step p).flatMap (fun w => if p < w.2.1 then
      (loopWays lz step fuel w.2.1).map (fun v => (.more lz w.1 v.1, v.2.1, v.2.2 ++ w.2.2)) else [])
    if lz then (.stop lz, p, []) :: l else l ++ [(.stop lz, p, [])]

/-- The ways in their order. -/
def Pat.ways (t : List α) : Pat α → Nat → List WEnd
  | .eps, p => [(.unit, p, [])]
  | .set f, p => match t[p]? with
    | some x => if f x then [(.unit, p + 1, [])] else []
    | none => []
  | .test f, p => if f t p then [(.unit, p, [])] else []
  | .cat a b, p => (a.ways t p).flatMap (fun w => (b.ways t w.2.1).map (fun v => (.both w.1 v.1, v.2.1, v.2.2 ++ w.2.2)))
  | .alt a b, p => (a.ways t p).map (fun w => (.left w.1, w.2)) ++ (b.ways t p).map (fun w => (.right w.1, w.2))
  | .star a, p => loopWays false (a.ways t) (t.length - p) p
  | .lazy a, p => loopWays true (a.ways t) (t.length - p) p
  | .grp i a, p => (a.ways t p).map (fun w => (w.1, w.2.1, (i, p, w.2.1) :: w.2.2))
  | .look neg a, p =>
    match a.ways t p, neg with
    | [], true => [(.unit, p, [])]
    | [], false => []
    | _ :: _, true => []
    | w :: _, false => [(.unit, p, w.2.2)]

/-! ### The matcher finds them in this order -/

theorem starRun_ways {step : Nat → List WEnd} {rstep : Nat → Caps → List (Nat × Caps)}
    (h : ∀ p c, rstep p c = (step p).map (fun w => (w.2.1, w.2.2 ++ c))) (fuel : Nat) :
    ∀ p c, starRun rstep fuel p c = (loopWays false step fuel p).map (fun w => (w.2.1, w.2.2 ++ c)) := by
  induction fuel with
  | zero => intro p c; rfl
  | succ n ih =>
    intro p c
    simp only [starRun, loopWays, Bool.false_eq_true, if_false, List.map_append, List.map_cons, List.map_nil, List.nil_append, h,
      List.flatMap_map, List.map_flatMap]
    congr 2
    funext w
    split
    · rw [ih, List.map_map]
      simp [Function.comp_def, List.append_assoc]
    · rfl

theorem lazyRun_ways {step : Nat → List WEnd} {rstep : Nat → Caps → List (Nat × Caps)}
    (h : ∀ p c, rstep p c = (step p).map (fun w => (w.2.1, w.2.2 ++ c))) (fuel : Nat) :
    ∀ p c, lazyRun rstep fuel p c = (loopWays true step fuel p).map (fun w => (w.2.1, w.2.2 ++ c)) := by
  induction fuel with
  | zero => intro p c; rfl
  | succ n ih =>
    intro p c
    simp only [lazyRun, loopWays, if_true, List.map_cons, List.nil_append, h,
      List.flatMap_map, List.map_flatMap]
    congr 2
    funext w
    split
    · rw [ih, List.map_map]
      simp [Function.comp_def, List.append_assoc]
    · rfl

theorem run_ways (t : List α) (a : Pat α) : ∀ p c, a.run t p c = (a.ways t p).map (fun w => (w.2.1, w.2.2 ++ c)) := by
  induction a with
  | eps => intro p c; rfl
  | set f =>
    intro p c
    simp only [Pat.run, Pat.ways]
    cases t[p]? with
    | none => rfl
    | some x => by_cases hx : f x = true <;> simp [hx]
  | test f => intro p c; simp only [Pat.run, Pat.ways]; split <;> rfl
  | cat a b iha ihb =>
    intro p c
    simp only [Pat.run, Pat.ways, iha, ihb, List.flatMap_map, List.map_flatMap, List.map_map]
    congr 1
    funext w
    simp [Function.comp_def, List.append_assoc]
  | alt a b iha ihb => intro p c; simp [Pat.run, Pat.ways, iha, ihb, Function.comp_def]
  | star a ih => intro p c; exact starRun_ways ih _ p c
  | lazy a ih => intro p c; exact lazyRun_ways ih _ p c
  | grp i a ih => intro p c; simp [Pat.run, Pat.ways, ih, Function.comp_def]
  | look neg a ih =>
    intro p c
    simp only [Pat.run, Pat.ways, ih]
    cases a.ways t p <;> cases neg <;> rfl

/-! ### They are all the ways -/

theorem ways_bounds {t : List α} {a : Pat α} {p : Nat} {w : WEnd} (h : w ∈ a.ways t p) :
    p ≤ w.2.1 ∧ (w.2.1 ≤ t.length ∨ w.2.1 = p) := by
  have : (w.2.1, w.2.2 ++ []) ∈ a.run t p [] := by
    rw [run_ways]
    exact List.mem_map.2 ⟨w, h, rfl⟩
  have h2 := run_bounds this
  exact h2

theorem mem_loopWays {lz : Bool} {step : Nat → List WEnd} {R : Nat → Way → Nat → Caps → Prop} {n : Nat}
    (h : ∀ p x q c, (x, q, c) ∈ step p ↔ R p x q c) (hb : ∀ p w, w ∈ step p → p ≤ w.2.1 ∧ (w.2.1 ≤ n ∨ w.2.1 = p)) (fuel : Nat) :
    ∀ p x q c, n - p ≤ fuel → ((x, q, c) ∈ loopWays lz step fuel p ↔ Rounds lz R p x q c) := by
  induction fuel with
  | zero =>
    intro p x q c hf
    simp only [loopWays, List.mem_singleton, Prod.mk.injEq]
    constructor
    · rintro ⟨rfl, rfl, rfl⟩; exact .stop _
    · intro hr
      cases hr with
      | stop => exact ⟨rfl, rfl, rfl⟩
      | more h1 h2 h3 =>
        have := hb _ _ ((h _ _ _ _).2 h1)
        simp only at this
        omega
  | succ k ih =>
    intro p x q c hf
    have hm : (x, q, c) ∈ loopWays lz step (k + 1) p ↔ (x, q, c) = (.stop lz, p, []) ∨
        ∃ w ∈ step p, p < w.2.1 ∧ ∃ v ∈ loopWays lz step k w.2.1, (x, q, c) = (.more lz w.1 v.1, v.2.1, v.2.2 ++ w.2.2) := by
      have hl : ∀ z : WEnd, z ∈ (step p).flatMap (fun w => if p < w.2.1 then
          (loopWays lz step k w.2.1).map (fun v => (Way.more lz w.1 v.1, v.2.1, v.2.2 ++ w.2.2)) else []) ↔
          ∃ w ∈ step p, p < w.2.1 ∧ ∃ v ∈ loopWays lz step k w.2.1, z = (.more lz w.1 v.1, v.2.1, v.2.2 ++ w.2.2) := by
        intro z
        simp only [List.mem_flatMap]
        constructor
        · rintro ⟨w, h1, h2⟩
          split at h2
          · next h3 =>
            obtain ⟨v, h4, rfl⟩ := List.mem_map.1 h2
            exact ⟨w, h1, h3, v, h4, rfl⟩
          · cases h2
        · rintro ⟨w, h1, h3, v, h4, rfl⟩
          exact ⟨w, h1, by rw [if_pos h3]; exact List.mem_map.2 ⟨v, h4, rfl⟩⟩
      rw [loopWays]
      cases lz with
      | true => simp only [if_true, List.mem_cons, hl]
      | false => simp only [Bool.false_eq_true, if_false, List.mem_append, List.mem_singleton, hl]; exact Or.comm
    rw [hm]
    constructor
    · rintro (h1 | ⟨⟨a, r, c1⟩, h1, h2, ⟨y, q', c2⟩, h3, h4⟩)
      · cases h1; exact .stop _
      · cases h4
        have := hb _ _ h1
        exact .more ((h _ _ _ _).1 h1) h2 ((ih _ _ _ _ (by simp only at *; omega)).1 h3)
    · intro hr
      cases hr with
      | stop => exact Or.inl rfl
      | more h1 h2 h3 =>
        exact Or.inr ⟨_, (h _ _ _ _).2 h1, h2, _, (ih _ _ _ _ (by simp only; omega)).2 h3, rfl⟩

theorem loopWays_sorted {lz : Bool} {step : Nat → List WEnd} (h : ∀ p, (step p).Pairwise (fun u v => u.1.Pref v.1)) (fuel : Nat) :
    ∀ p, (loopWays lz step fuel p).Pairwise (fun u v => u.1.Pref v.1) := by
  induction fuel with
  | zero => intro p; simp [loopWays]
  | succ k ih =>
    intro p
    have hl : ((step p).flatMap (fun w => if p < w.2.1 then
        (loopWays lz step k w.2.1).map (fun v => ((Way.more lz w.1 v.1, v.2.1, v.2.2 ++ w.2.2) : WEnd)) else [])).Pairwise (fun u v => u.1.Pref v.1) := by
      rw [List.pairwise_flatMap]
      refine ⟨fun w _ => ?_, (h p).imp ?_⟩
      · split
        · rw [List.pairwise_map]
          exact (ih _).imp (fun hp => .rest hp)
        · exact .nil
      · intro u v huv x hx y hy
        split at hx
        · split at hy
          · obtain ⟨_, _, rfl⟩ := List.mem_map.1 hx
            obtain ⟨_, _, rfl⟩ := List.mem_map.1 hy
            exact .round huv
          · cases hy
        · cases hx
    have hmore : ∀ z ∈ (step p).flatMap (fun w => if p < w.2.1 then
        (loopWays lz step k w.2.1).map (fun v => ((Way.more lz w.1 v.1, v.2.1, v.2.2 ++ w.2.2) : WEnd)) else []), ∃ a r, z.1 = .more lz a r := by
      intro z hz
      obtain ⟨w, _, hz⟩ := List.mem_flatMap.1 hz
      split at hz
      · obtain ⟨v, _, rfl⟩ := List.mem_map.1 hz
        exact ⟨_, _, rfl⟩
      · cases hz
    rw [loopWays]
    cases lz with
    | true =>
      simp only [if_true]
      refine List.pairwise_cons.2 ⟨fun z hz => ?_, hl⟩
      obtain ⟨a, r, he⟩ := hmore z hz
      rw [he]
      exact .lazy _ _
    | false =>
      simp only [Bool.false_eq_true, if_false]
      refine List.pairwise_append.2 ⟨hl, by simp, fun z hz y hy => ?_⟩
      obtain ⟨a, r, he⟩ := hmore z hz
      rw [List.mem_singleton] at hy
      rw [he, hy]
      exact .greedy _ _

theorem ways_sorted (t : List α) (a : Pat α) : ∀ p, (a.ways t p).Pairwise (fun u v => u.1.Pref v.1) := by
  induction a with
  | eps => intro p; simp [Pat.ways]
  | set f =>
    intro p
    simp only [Pat.ways]
    split
    · split <;> simp
    · simp
  | test f => intro p; simp only [Pat.ways]; split <;> simp
  | cat a b iha ihb =>
    intro p
    simp only [Pat.ways]
    rw [List.pairwise_flatMap]
    refine ⟨fun w _ => ?_, (iha p).imp ?_⟩
    · rw [List.pairwise_map]
      exact (ihb _).imp (fun h => .snd h)
    · intro u v huv x hx y hy
      obtain ⟨_, _, rfl⟩ := List.mem_map.1 hx
      obtain ⟨_, _, rfl⟩ := List.mem_map.1 hy
      exact .fst huv
  | alt a b iha ihb =>
    intro p
    simp only [Pat.ways]
    refine List.pairwise_append.2 ⟨?_, ?_, ?_⟩
    · rw [List.pairwise_map]; exact (iha p).imp (fun h => .left h)
    · rw [List.pairwise_map]; exact (ihb p).imp (fun h => .right h)
    · intro x hx y hy
      obtain ⟨_, _, rfl⟩ := List.mem_map.1 hx
      obtain ⟨_, _, rfl⟩ := List.mem_map.1 hy
      exact .alt _ _
  | star a ih => intro p; exact loopWays_sorted ih _ p
  | lazy a ih => intro p; exact loopWays_sorted ih _ p
  | grp i a ih => intro p; simp only [Pat.ways]; rw [List.pairwise_map]; exact ih p
  | look neg a ih =>
    intro p
    simp only [Pat.ways]
    split <;> simp

theorem mem_ways (t : List α) (a : Pat α) : ∀ p x q c, (x, q, c) ∈ a.ways t p ↔ a.way t p x q c := by
  induction a with
  | eps => intro p x q c; simp [Pat.ways, Pat.way]
  | set f =>
    intro p x q c
    simp only [Pat.ways, Pat.way]
    cases t[p]? with
    | none => simp
    | some y => by_cases hy : f y = true <;> simp [hy]
  | test f =>
    intro p x q c
    simp only [Pat.ways, Pat.way]
    by_cases hy : f t p = true <;> simp [hy]
  | cat a b iha ihb =>
    intro p x q c
    simp only [Pat.ways, Pat.way, List.mem_flatMap, List.mem_map, Prod.mk.injEq]
    constructor
    · rintro ⟨⟨y, r, c1⟩, h1, ⟨z, q', c2⟩, h2, rfl, rfl, rfl⟩
      exact ⟨y, z, r, c1, c2, rfl, (iha _ _ _ _).1 h1, (ihb _ _ _ _).1 h2, rfl⟩
    · rintro ⟨y, z, r, c1, c2, rfl, h1, h2, rfl⟩
      exact ⟨(y, r, c1), (iha _ _ _ _).2 h1, (z, q, c2), (ihb _ _ _ _).2 h2, rfl, rfl, rfl⟩
  | alt a b iha ihb =>
    intro p x q c
    simp only [Pat.ways, Pat.way, List.mem_append, List.mem_map, Prod.mk.injEq]
    constructor
    · rintro (⟨⟨y, r⟩, h1, rfl, rfl⟩ | ⟨⟨y, r⟩, h1, rfl, rfl⟩)
      · exact Or.inl ⟨y, rfl, (iha _ _ _ _).1 h1⟩
      · exact Or.inr ⟨y, rfl, (ihb _ _ _ _).1 h1⟩
    · rintro (⟨y, rfl, h1⟩ | ⟨y, rfl, h1⟩)
      · exact Or.inl ⟨(y, q, c), (iha _ _ _ _).2 h1, rfl, rfl⟩
      · exact Or.inr ⟨(y, q, c), (ihb _ _ _ _).2 h1, rfl, rfl⟩
  | star a ih => intro p x q c; exact mem_loopWays ih (fun p w h => ways_bounds h) _ p x q c (Nat.le_refl _)
  | lazy a ih => intro p x q c; exact mem_loopWays ih (fun p w h => ways_bounds h) _ p x q c (Nat.le_refl _)
  | grp i a ih =>
    intro p x q c
    simp only [Pat.ways, Pat.way, List.mem_map, Prod.mk.injEq]
    constructor
    · rintro ⟨⟨y, r, c1⟩, h1, rfl, rfl, rfl⟩
      exact ⟨c1, (ih _ _ _ _).1 h1, rfl⟩
    · rintro ⟨c1, h1, rfl⟩
      exact ⟨(x, q, c1), (ih _ _ _ _).2 h1, rfl, rfl, rfl⟩
  | look neg a ih =>
    intro p x q c
    cases neg with
    | true =>
      simp only [Pat.ways, Pat.way]
      cases hw : a.ways t p with
      | nil =>
        simp only [List.mem_singleton, Prod.mk.injEq]
        have : ∀ y' r' c', ¬ a.way t p y' r' c' := fun y' r' c' h => by
          have := (ih _ _ _ _).2 h
          rw [hw] at this
          cases this
        exact ⟨fun ⟨h1, h2, h3⟩ => ⟨h1, h2, h3, this⟩, fun ⟨h1, h2, h3, _⟩ => ⟨h1, h2, h3⟩⟩
      | cons w ws =>
        simp only [List.not_mem_nil, false_iff]
        rintro ⟨_, _, _, h⟩
        exact h w.1 w.2.1 w.2.2 ((ih _ _ _ _).1 (by rw [hw]; exact List.mem_cons_self ..))
    | false =>
      simp only [Pat.ways, Pat.way]
      cases hw : a.ways t p with
      | nil =>
        simp only [List.not_mem_nil, false_iff]
        rintro ⟨_, _, y, r, h, _⟩
        have := (ih _ _ _ _).2 h
        rw [hw] at this
        cases this
      | cons w ws =>
        obtain ⟨y, r, c1⟩ := w
        simp only [List.mem_singleton, Prod.mk.injEq]
        have hs := ways_sorted t a p
        rw [hw, List.pairwise_cons] at hs
        have h0 : a.way t p y r c1 := (ih _ _ _ _).1 (by rw [hw]; exact List.mem_cons_self ..)
        constructor
        · rintro ⟨rfl, rfl, rfl⟩
          refine ⟨rfl, rfl, y, r, h0, fun y' r' c' h => ?_⟩
          have := (ih _ _ _ _).2 h
          rw [hw, List.mem_cons] at this
          rcases this with h | h
          · cases h; exact Or.inl rfl
          · exact Or.inr (hs.1 _ h)
        · rintro ⟨rfl, rfl, y', r', h1, h2⟩
          refine ⟨rfl, rfl, ?_⟩
          have h3 := (ih _ _ _ _).2 h1
          rw [hw, List.mem_cons] at h3
          rcases h3 with h3 | h3
          · cases h3; rfl
          · exfalso
            have h4 := hs.1 _ h3
            rcases h2 y r c1 h0 with h5 | h5
            · subst h5; exact h4.irrefl
            · exact h4.asymm h5

/-- The first of the ends that satisfy a condition. -/
theorem run_first {t : List α} {a : Pat α} {p q : Nat} {c : Caps} {P : Nat → Prop} [DecidablePred P] :
    (a.run t p []).find? (fun r => P r.1) = some (q, c) ↔ a.First t P p q c := by
  rw [run_ways, List.find?_map]
  have hs := ways_sorted t a p
  have hm := mem_ways t a p
  unfold Pat.First
  simp only [← hm]
  generalize a.ways t p = l at hs
  clear hm
  induction l with
  | nil => simp
  | cons w ws ih =>
    obtain ⟨x, r, c1⟩ := w
    rw [List.pairwise_cons] at hs
    simp only [List.find?_cons, Function.comp_apply]
    by_cases hP : P r
    · simp only [hP, decide_true, Option.map_some, List.append_nil, Option.some.injEq, Prod.mk.injEq]
      constructor
      · rintro ⟨rfl, rfl⟩
        refine ⟨hP, x, List.mem_cons_self .., fun y q' c' h _ => ?_⟩
        rcases List.mem_cons.1 h with h | h
        · cases h; exact Or.inl rfl
        · exact Or.inr (hs.1 _ h)
      · rintro ⟨_, y, h1, h2⟩
        rcases List.mem_cons.1 h1 with h | h
        · cases h; exact ⟨rfl, rfl⟩
        · exfalso
          have h4 := hs.1 _ h
          rcases h2 x r c1 (List.mem_cons_self ..) hP with h5 | h5
          · subst h5; exact h4.irrefl
          · exact h4.asymm h5
    · simp only [hP, decide_false]
      rw [show (Option.map (fun w : WEnd => (w.2.1, w.2.2 ++ [])) (List.find? ((fun r : Nat × Caps => decide (P r.1)) ∘ fun w : WEnd => (w.2.1, w.2.2 ++ [])) ws) = some (q, c)) ↔ _ from ih hs.2]
      constructor
      · rintro ⟨h1, y, h2, h3⟩
        refine ⟨h1, y, List.mem_cons_of_mem _ h2, fun z q' c' h4 h5 => ?_⟩
        rcases List.mem_cons.1 h4 with h | h
        · cases h; exact absurd h5 hP
        · exact h3 z q' c' h h5
      · rintro ⟨h1, y, h2, h3⟩
        refine ⟨h1, y, ?_, fun z q' c' h4 h5 => h3 z q' c' (List.mem_cons_of_mem _ h4) h5⟩
        rcases List.mem_cons.1 h2 with h | h
        · cases h; exact absurd h1 hP
        · exact h

end Parce

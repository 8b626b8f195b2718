import Verif.Lemmas.ThemeElement
/-!
# C130: the rules of a theme for an action. C131: the rules of a theme for a role and a state.
-/
namespace Parce.Css
variable {α : Type} [DecidableEq α]

/-- **C130.** A rule with classes, also inside `.parce`, is for exactly the actions that have all these classes among the names of the action and
    of its ancestors, in lower case. -/
theorem C130_rule {env : Env α} {low : α → List α} {dot blank : α} {parce : List α} {names : List (List α)} (h : NamesOk env low dot blank names)
    (hp : parce ≠ []) (hs : ∀ c ∈ parce, env.space c = false) (cs : List (List α)) (hc : cs ≠ []) :
    (matchPrelude env (textEl env dot blank parce names) [0] [⟨{ classes := cs }, []⟩] = true ↔ ∀ x ∈ cs, ∃ n ∈ names, env.lower n = x) ∧
    (matchPrelude env (textEl env dot blank parce names) [0] [⟨{ classes := cs }, [(.desc, { classes := [parce] })]⟩] = true ↔ ∀ x ∈ cs, ∃ n ∈ names, env.lower n = x) := by
  have he : ({ classes := cs } : Compound α).isEmpty = false := by simp [Compound.isEmpty, hc]
  have hm : matchSelector env (textEl env dot blank parce names) [0] { classes := cs } = true ↔ ∀ x ∈ cs, ∃ n ∈ names, env.lower n = x := by
    have e : (textEl env dot blank parce names).at [0] = some (clsEl env (cssClass env dot blank names) [] [] []) := rfl
    unfold matchSelector
    rw [e]
    simp [classes_cls, split_class h]
  have hr : matchSelector env (textEl env dot blank parce names) [] { classes := [parce] } = true := by
    have e : (textEl env dot blank parce names).at [] = some (textEl env dot blank parce names) := rfl
    unfold matchSelector
    rw [e]
    simp [textEl, classes_cls, split_word _ _ hp hs]
  have hd : combLoop env (textEl env dot blank parce names) [0] [(.desc, { classes := [parce] })] = true := by
    simp [combLoop, Compound.isEmpty, stepComb, ancLoop, getParent, hr]
  constructor
  · rw [← hm]
    simp [matchPrelude, matchSelectors, he, combLoop]
  · rw [← hm]
    simp [matchPrelude, matchSelectors, he, hd]

/-- **C130**, the part that holds: a rule for an action is also for all actions with the same names and more, so for the actions below it; and, both ways, the
    order of the names does not matter. Missing: rules that look at the text of the attribute `class`, see `C130_order_violated`. -/
theorem C130_below_partial {env : Env α} {low : α → List α} {dot blank : α} {parce : List α} {names more : List (List α)} (h : NamesOk env low dot blank names)
    (h' : NamesOk env low dot blank more) (hid : env.idAttr ≠ env.classAttr) (hsub : names ⊆ more) (P : List (Complex α)) (hP : ∀ s ∈ P, NoClassText env s.last)
    (hm : matchPrelude env (textEl env dot blank parce names) [0] P = true) : matchPrelude env (textEl env dot blank parce more) [0] P = true := by
  refine prelude_mono (fun s hs => ?_) (fun rest => comb_kid env (fun c => root_same hid c) rest) hm
  refine match_mono rfl rfl hid ?_ (fun _ h => h) (fun _ h => h) (fun x => by cases x <;> rfl) (.inr (hP s hs))
  rw [split_class h, split_class h']
  intro x hx
  obtain ⟨n, hn, rfl⟩ := List.mem_map.1 hx
  exact List.mem_map.2 ⟨n, hsub hn, rfl⟩

/-- White space is 0, the dot is 1. -/
private def env1 : Env Nat := ⟨(· == 0), fun s => s.flatMap (fun c => [c]), [5], [6], 2, fun _ => none⟩

private theorem env1_ok (names : List (List Nat)) (h : ∀ n ∈ names, n ≠ [] ∧ ∀ c ∈ n, c ≠ 1 ∧ c ≠ 0) : NamesOk env1 (fun c => [c]) 1 0 names :=
  ⟨fun _ => rfl, rfl, rfl, fun n hn => by simpa [env1] using (h n hn).1, fun n hn c hc => by simpa [env1] using (h n hn).2 c (by simpa [env1] using hc)⟩

/-- **C130 is violated by the code** for rules as `[class^="text"]`: they match the action `Text.Comment`, and not `Comment.Text`. -/
theorem C130_order_violated : NamesOk env1 (fun c => [c]) 1 0 [[7], [8]] ∧ NamesOk env1 (fun c => [c]) 1 0 [[8], [7]] ∧
    matchPrelude env1 (textEl env1 1 0 [9] [[7], [8]]) [0] [⟨{ attrs := [⟨[5], some .pre, some [7], false⟩] }, []⟩] = true ∧
    matchPrelude env1 (textEl env1 1 0 [9] [[8], [7]]) [0] [⟨{ attrs := [⟨[5], some .pre, some [7], false⟩] }, []⟩] = false :=
  ⟨env1_ok _ (by decide), env1_ok _ (by decide), by decide, by decide⟩

example : NamesOk env1 (fun c => [c]) 1 0 [[7, 4], [8]] ∧ env1.idAttr ≠ env1.classAttr ∧ cssClass env1 1 0 [[7, 4], [8]] = [7, 4, 0, 8] ∧
    NoClassText env1 { classes := [[8]] } ∧ matchPrelude env1 (textEl env1 1 0 [9] [[7, 4], [8]]) [0] [⟨{ classes := [[8], [7, 4]] }, [(.desc, { classes := [[9]] })]⟩] = true :=
  ⟨env1_ok _ (by decide), by decide, by decide, by simp [NoClassText], by decide⟩

/-- **C131.** A rule for the default state is also for every other state. -/
theorem C131_state (env : Env α) (blank : α) (parce selection : List α) (role : Role α) (state : List α) (hid : env.idAttr ≠ env.classAttr) (P : List (Complex α))
    (hm : matchPrelude env (baseEl env blank parce selection role none) [] P = true) : matchPrelude env (baseEl env blank parce selection role (some state)) [] P = true := by
  refine prelude_mono (fun s _ => ?_) (fun rest => comb_root env _ _ rest) hm
  cases role
  all_goals exact match_mono rfl rfl hid (fun _ h => h) (fun _ h => by cases h) (fun _ h => h) (fun x => by cases x <;> rfl) (.inl rfl)

/-- **C131**, the part that holds: a rule for the window is also for the selection and for all other roles. Missing: rules that look at the text of
    the attribute `class`, see `C131_window_violated`. -/
theorem C131_window_partial (env : Env α) (blank : α) (parce selection : List α) (role : Role α) (state : Option (List α)) (hid : env.idAttr ≠ env.classAttr)
    (hb : env.space blank = true) (hp : parce ≠ []) (hs : ∀ c ∈ parce, env.space c = false) (P : List (Complex α)) (hP : ∀ s ∈ P, NoClassText env s.last)
    (hm : matchPrelude env (baseEl env blank parce selection .window state) [] P = true) : matchPrelude env (baseEl env blank parce selection role state) [] P = true := by
  refine prelude_mono (fun s hs' => ?_) (fun rest => comb_root env _ _ rest) hm
  cases role with
  | window => exact id
  | selection => exact match_mono rfl rfl hid (fun _ h => h) (fun _ h => h) (fun _ h => by cases h) (fun x => by cases x <;> rfl) (.inl rfl)
  | other r =>
    refine match_mono rfl rfl hid ?_ (fun _ h => h) (fun _ h => h) (fun x => by cases x <;> rfl) (.inr (hP s hs'))
    rw [split_words _ _ hb _ _ hp hs, split_word _ _ hp hs]
    intro x hx
    rw [List.mem_singleton] at hx
    simp [hx]

/-- **C131.** The rule `.parce:state` is for that state only, in all roles; `.parce::selection` is for the role `selection` only, in all states; and
    `.parce.role` is for the roles that have this name as one of their words. -/
theorem C131_only (env : Env α) (blank : α) (parce selection : List α) (role : Role α) (state : Option (List α))
    (hb : env.space blank = true) (hp : parce ≠ []) (hs : ∀ c ∈ parce, env.space c = false) (x : List α) :
    (env.dispatch x = none → (matchPrelude env (baseEl env blank parce selection role state) [] [⟨{ classes := [parce], pclasses := [x] }, []⟩] = true ↔ state = some x)) ∧
    (matchPrelude env (baseEl env blank parce selection role state) [] [⟨{ classes := [parce], pelems := [selection] }, []⟩] = true ↔ role = .selection) ∧
    (x ≠ parce → (matchPrelude env (baseEl env blank parce selection role state) [] [⟨{ classes := [parce, x] }, []⟩] = true ↔
      ∃ r, role = .other r ∧ IsWord env.space x r)) := by
  have hc : getClasses env (baseEl env blank parce selection role state) = parce :: (match role with | .other r => split env.space r | _ => []) := by
    cases role <;> simp [baseEl, classes_cls, split_word _ _ hp hs, split_words _ _ hb _ _ hp hs]
  have hpc : (baseEl env blank parce selection role state).pclasses = state.toList := by cases role <;> rfl
  have he : (baseEl env blank parce selection role state).at [] = some (baseEl env blank parce selection role state) := by cases role <;> rfl
  have h1 : ∀ c : Compound α, c.isEmpty = false → matchPrelude env (baseEl env blank parce selection role state) [] [⟨c, []⟩] =
      matchSelector env (baseEl env blank parce selection role state) [] c := by
    intro c hc
    simp [matchPrelude, matchSelectors, hc, combLoop]
  refine ⟨fun hd => ?_, ?_, fun hx => ?_⟩
  · rw [h1 _ rfl]
    unfold matchSelector
    rw [he]
    simp only [hc, hpc]
    cases state with
    | none => simp [hd]
    | some y => simp [hd, eq_comm]
  · rw [h1 _ rfl]
    unfold matchSelector
    rw [he]
    simp only [hc]
    cases role <;> simp [baseEl, clsEl, El.pelems]
  · rw [h1 _ rfl]
    unfold matchSelector
    rw [he]
    simp only [hc]
    cases role <;> simp [hx, mem_split]

/-- **C131 is violated by the code** for rules as `[class="parce"]`: they are for the window, and not for the role `current-line`. -/
theorem C131_window_violated :
    matchPrelude env1 (baseEl env1 0 [9] [4] .window none) [] [⟨{ attrs := [⟨[5], some .eq, some [9], false⟩] }, []⟩] = true ∧
    matchPrelude env1 (baseEl env1 0 [9] [4] (.other [7]) none) [] [⟨{ attrs := [⟨[5], some .eq, some [9], false⟩] }, []⟩] = false := by decide

example : env1.idAttr ≠ env1.classAttr ∧ env1.space 0 = true ∧ ([9] : List Nat) ≠ [] ∧ (∀ c ∈ [9], env1.space c = false) ∧ env1.dispatch [3] = none ∧ ([7] : List Nat) ≠ [9] ∧
    NoClassText env1 { classes := [[9]] } ∧ matchPrelude env1 (baseEl env1 0 [9] [4] .window none) [] [⟨{ classes := [[9]] }, []⟩] = true ∧
    matchPrelude env1 (baseEl env1 0 [9] [4] (.other [7]) (some [3])) [] [⟨{ classes := [[9], [7]], pclasses := [[3]] }, []⟩] = true := by
  refine ⟨by decide, by decide, by decide, by decide, by decide, by decide, by simp [NoClassText], by decide, by decide⟩

end Parce.Css

import Verif.Lemmas.StyleSheet
/-!
# C92, C93: style sheets that import others, and conditions
-/
set_option linter.unusedSectionVars false
namespace Parce.Sheet
variable {F R : Type} [DecidableEq F]

/-! ## C92 -/

/-- **C92** (partial): the rules of a style sheet are, in order, its own rules and those of the files it imports, if every import
    has a media query after the name of the file. Expanding the imports must come to an end, so there are no circular imports; every file
    imports different files. From some depth of calls on, the style sheet is read; a smaller depth is Python's recursion limit.
    Missing: imports without media query (`C92_violated`), circular imports (`C92_circular_violated`). -/
theorem C92_partial (env : Env F R) (hfs : ∀ f icss, env.fs f = some icss → Fine env (some f) icss) (fn : Option F) (css : List (Node F R))
    (hf : Fine env fn css) (l : List R) (h : Expands env fn css l) :
    ∃ N, ∀ n, N ≤ n → ∃ s, fromCss env n fn true css = .ok s ∧ s.filename = fn ∧ styles s.rules = l := by
  have hself : ∀ f ∈ importNames env fn css, some f ∉ [fn] := by
    obtain ⟨_, _, hs, _⟩ := hf
    intro f hm hx
    simp only [List.mem_singleton] at hx
    exact hs f hm hx.symm
  obtain ⟨N, es, h1, h2⟩ := expands_ok hfs h hf [fn] hself
  refine ⟨N + 1, fun n hn => ⟨⟨fn, [], es⟩, ?_, rfl, h1⟩⟩
  obtain ⟨m, rfl⟩ : ∃ m, n = m + 1 := ⟨n - 1, by omega⟩
  rw [fromCss, h2 m (by omega)]

/-- **C92**: if imports are not allowed, and there is no import in a nested block, the rules are the style sheet's own rules. -/
theorem C92_off_partial (env : Env F R) (fn : Option F) (css : List (Node F R)) (hn : NoNestedImport css) :
    ∃ N, ∀ n, N ≤ n → ∃ s, fromCss env n fn false css = .ok s ∧ styles s.rules = ownRules css := by
  obtain ⟨N, es, h1, h2⟩ := notAllowed_ok env css hn fn [fn]
  refine ⟨N + 1, fun n hn => ⟨⟨fn, [], es⟩, ?_, h1⟩⟩
  obtain ⟨m, rfl⟩ : ∃ m, n = m + 1 := ⟨n - 1, by omega⟩
  rw [fromCss, h2 m (by omega)]

/-- **C92 is violated** by every style sheet that begins with an import without media query of another file that is there: it can
    not be read, because the code uses a variable `self` that does not exist. -/
theorem C92_violated (env : Env F R) (fn : Option F) (f : F) (icss css : List (Node F R)) (hf : env.fs (env.join fn f) = some icss)
    (hne : fn ≠ some (env.join fn f)) (n : Nat) (text : Bool) :
    fromCss env (n + 1) fn true (.at "import" [.value (if text then some f else none) (if text then none else some f)] :: css) = .error .nameError := by
  have hne' : ¬ some (env.join fn f) = fn := fun e => hne e.symm
  cases text <;> simp [fromCss, getRules, importRules, hf, hne']

/-- Two files that import each other for the screen. -/
private def circular : Env Bool Nat where
  fs f := some [.at "import" [.value none (some (!f)), .value none none], .rule 0]
  join _ f := f

/-- **C92 is violated** by circular imports with a media query: reading does not end (Python's recursion limit is reached), although
    the code has a set of file names for this; the set is a new one for every file. -/
theorem C92_circular_violated : ∀ n, (circular.fs true).map (fromCss circular n (some true) true) = some (.error .recursionError) := by
  have key : ∀ n f, fromCss circular n (some f) true [.at "import" [.value none (some (!f)), .value none none], .rule 0] = .error .recursionError := by
    intro n
    induction n with
    | zero => intro f; rfl
    | succ n ih =>
      intro f
      have h1 := ih (!f)
      rw [Bool.not_not] at h1
      have hne : ¬ (!f) = f := by cases f <;> simp
      rw [fromCss]
      have h2 : importRules (fromCss circular n) circular (some f) true [some f] [.value none (some (!f)), .value none none] = .error .recursionError := by
        simp [importRules, circular, hne]
        simp only [circular] at h1
        rw [h1]
      simp only [getRules, if_true, h2]
  intro n
  exact congrArg some (key n true)

/-- One file with one rule. -/
private def oneFile : Env Nat Nat where
  fs f := if f = 1 then some [.rule 7] else none
  join _ f := f

/-- **C92 is violated** when imports are not allowed, but in a nested block: the rules of the file are there. -/
theorem C92_off_violated : (fromCss oneFile 5 (some 0) false
    [.nested "media" [] [.at "import" [.value (some 1) none, .value none none]]]).toOption.map (fun s => styles s.rules) = some [7] := by
  decide +kernel

/-- An import where a delimiter comes first raises an exception. -/
theorem C92_delimiter (env : Env F R) (fn : Option F) (vs : List (Val F)) (css : List (Node F R)) (n : Nat) :
    fromCss env (n + 1) fn true (.at "import" (.str :: vs) :: css) = .error .attributeError := rfl

/-- Not vacuous: a style sheet imports file 1, that imports file 2. -/
private def twoFiles : Env Nat Nat where
  fs f := if f = 1 then some [.at "import" [.value (some 2) none, .value none none], .rule 5] else if f = 2 then some [.rule 6] else none
  join _ f := f

example : (∀ f icss, twoFiles.fs f = some icss → Fine twoFiles (some f) icss) ∧
    Fine twoFiles (some 0) [.rule 3, .at "import" [.value none (some 1), .str], .nested "media" [] [.rule 4]] ∧
    Expands twoFiles (some 0) [.rule 3, .at "import" [.value none (some 1), .str], .nested "media" [] [.rule 4]] [3, 6, 5, 4] := by
  refine ⟨?_, ?_, ?_⟩
  · intro f icss h
    simp only [twoFiles] at h
    split at h
    · rename_i e
      subst e
      cases h
      refine ⟨?_, by decide, by decide, by simp [blocks]⟩
      intro vs hvs
      simp [imports] at hvs
      subst hvs
      exact ⟨trivial, fun _ => by decide⟩
    · split at h
      · rename_i e
        subst e
        cases h
        exact ⟨by simp [imports], by decide, by simp [importNames, imports], by simp [blocks]⟩
      · cases h
  · refine ⟨?_, by decide, by decide, ?_⟩
    · intro vs hvs
      simp [imports] at hvs
      subst hvs
      exact ⟨trivial, fun _ => by decide⟩
    · intro b hb
      simp [blocks] at hb
      subst hb
      exact ⟨by simp [imports], by decide, by simp [importNames, imports], by simp [blocks]⟩
  · exact .rule (.import (l1 := [6, 5]) rfl rfl (.import (l1 := [6]) rfl rfl (.rule .nil) (.rule .nil)) (.nested (l1 := [4]) (by decide) (.rule .nil) .nil))

/-! ## C93 -/

/-- **C92**: an import of a file that was imported before in the style sheet, or of the style sheet itself, is left out. -/
theorem C92_once (env : Env F R) (fn : Option F) (pre post : List (Node F R)) (vs : List (Val F)) (f : F) (hs : NoStr vs) (hn : named vs = some f)
    (h : fn = some (env.join fn f) ∨ env.join fn f ∈ importNames env fn pre) (n : Nat) :
    fromCss env n fn true (pre ++ .at "import" vs :: post) = fromCss env n fn true (pre ++ post) := by
  cases n with
  | zero => rfl
  | succ n =>
    simp only [fromCss]
    rw [getRules_again (fromCss env n) env fn hs hn post pre [fn] ?_]
    rcases h with h | h
    · exact Or.inl (by rw [← h]; exact List.mem_singleton.2 rfl)
    · right
      simp only [importNames, List.mem_filterMap, Option.map_eq_some_iff] at h
      obtain ⟨ws, h1, g, h2, h3⟩ := h
      refine ⟨ws, g, ?_, h2, h3⟩
      clear hs hn
      induction pre with
      | nil => cases h1
      | cons m pre ih =>
        cases m with
        | rule r => exact List.mem_cons_of_mem _ (ih h1)
        | nested => exact List.mem_cons_of_mem _ (ih h1)
        | «at» kw v =>
          simp only [imports] at h1
          split at h1
          · next hk =>
            subst hk
            rcases List.mem_cons.1 h1 with h1 | h1
            · rw [h1]; exact List.mem_cons_self ..
            · exact List.mem_cons_of_mem _ (ih h1)
          · exact List.mem_cons_of_mem _ (ih h1)

/-- Not vacuous: the second import of the file 1 and the import of the sheet itself are left out. -/
example : (fromCss (F := Nat) (R := Nat) ⟨fun _ => some [.rule 7], fun _ f => f⟩ 3 (some 0) true
    [.at "import" [.value none (some 1), .value none none], .rule 5, .at "import" [.value (some 1) none, .value none none], .at "import" [.value none (some 0)]]).toOption.map
      (fun s => styles s.rules) = some [7, 5] ∧ (1 : Nat) ∈ importNames (F := Nat) (R := Nat) ⟨fun _ => some [.rule 7], fun _ f => f⟩ (some 0)
        [.at "import" [.value none (some 1), .value none none], .rule 5] ∧ NoStr [Val.value (some 1) none, Val.value (F := Nat) none none] := by
  refine ⟨rfl, by decide, trivial⟩

/-- **C93** (partial): filtering keeps, in order, exactly the rules that are not a condition with the keyword for which the predicate
    does not hold. Missing: conditions inside other conditions (`C93_nested_violated`), and the file name
    (`C93_filename_violated`). -/
theorem C93_partial (s : StyleSheet F R) (kw : String) (pred : Entry F R → Bool) :
    (s.filterConditions kw pred).rules.Sublist s.rules ∧
    ∀ e, e ∈ (s.filterConditions kw pred).rules ↔ e ∈ s.rules ∧ ¬ ((∃ vs fn im rs, e = .cond kw vs fn im rs) ∧ pred e = false) := by
  refine ⟨List.filter_sublist, fun e => ?_⟩
  simp only [StyleSheet.filterConditions, List.mem_filter]
  refine and_congr_right fun _ => ?_
  cases e with
  | rule r => simp [keep]
  | «at» k vs => simp [keep]
  | cond k vs fn im rs =>
    simp only [keep]
    by_cases hk : k = kw
    · subst hk
      simp
    · simp [hk]

/-- **C93**: filtering by two keywords can be done in any order. -/
theorem C93_commute (s : StyleSheet F R) (k1 k2 : String) (p1 p2 : Entry F R → Bool) :
    (s.filterConditions k1 p1).filterConditions k2 p2 = (s.filterConditions k2 p2).filterConditions k1 p1 := by
  simp only [StyleSheet.filterConditions, List.filter_filter]
  congr 1
  refine List.filter_congr fun e _ => ?_
  rw [Bool.and_comm]

/-- **C93 is violated**: a condition inside another one is not filtered out. -/
theorem C93_nested_violated : ∃ s : StyleSheet Nat Nat,
    styles (s.filterConditions "media" (fun _ => false)).rules = [1] ∧
    s.rules = [.cond "supports" [] none [] [.cond "media" [] none [] [.rule 1]]] := ⟨⟨none, [], _⟩, by decide, rfl⟩

/-- **C93 is violated**: the style sheet that results from filtering has lost its file name, and the names of the imported files, although the rules
    are still there. -/
theorem C93_filename_violated (s : StyleSheet F R) (kw : String) (pred : Entry F R → Bool) (hr : importedNames s.rules = []) :
    (s.filterConditions kw pred).filenames = [] := by
  have key : ∀ es : List (Entry F R), importedNames es = [] → importedNames (es.filter (keep kw pred)) = [] := by
    intro es
    induction es with
    | nil => intro _; rfl
    | cons e es ih =>
      intro h
      simp only [importedNames, List.append_eq_nil_iff] at h
      rw [List.filter_cons]
      split
      · simp only [importedNames, h.1, ih h.2, List.append_nil]
      · exact ih h.2
  simp [StyleSheet.filenames, StyleSheet.filterConditions, key s.rules hr]

/-- Not vacuous: a style sheet with a file name that is lost. -/
example : (⟨some 1, [], [.rule 2]⟩ : StyleSheet Nat Nat).filenames = [1] ∧ importedNames [(.rule 2 : Entry Nat Nat)] = [] ∧
    ((⟨some 1, [], [.rule 2]⟩ : StyleSheet Nat Nat).filterConditions "media" (fun _ => true)).filenames = [] := by decide

end Parce.Sheet

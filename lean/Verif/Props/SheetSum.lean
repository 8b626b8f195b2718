import Verif.Model.SheetSum
import Verif.Lemmas.Sections
/-!
# C132: combining style sheets
-/
namespace Parce.Sheet
variable {F R : Type} [DecidableEq F]

theorem styles_append (a b : List (Entry F R)) : styles (a ++ b) = styles a ++ styles b := by
  induction a with
  | nil => rfl
  | cons e a ih => simp only [List.cons_append, styles, ih, List.append_assoc]

theorem atrules_append (a b : List (Entry F R)) : atrules (a ++ b) = atrules a ++ atrules b := by
  induction a with
  | nil => rfl
  | cons e a ih => simp only [List.cons_append, atrules, ih, List.append_assoc]

theorem importedNames_append (a b : List (Entry F R)) : importedNames (a ++ b) = importedNames a ++ importedNames b := by
  induction a with
  | nil => rfl
  | cons e a ih => simp only [List.cons_append, importedNames, ih, List.append_assoc]

/-- **C132.** The sum has the style rules and the at-rules of the first style sheet, and then those of the second one. -/
theorem C132_rules (uniq : List F → List F) (s o : StyleSheet F R) :
    styles (s.add uniq o).rules = styles s.rules ++ styles o.rules ∧ atrules (s.add uniq o).rules = atrules s.rules ++ atrules o.rules :=
  ⟨styles_append _ _, atrules_append _ _⟩

/-- **C132**, the part that holds: the names of the sum are those of both style sheets. Missing: that each name is there once, and that the first file is the
    first, see `C132_twice_violated`, `C132_first_violated`. -/
theorem C132_filenames_partial {uniq : List F → List F} (hu : ∀ l f, f ∈ uniq l ↔ f ∈ l) (s o : StyleSheet F R) (f : F) :
    f ∈ (s.add uniq o).filenames ↔ f ∈ s.filenames ∨ f ∈ o.filenames := by
  have e : (s.add uniq o).filenames = uniq (s.filenames ++ o.filenames) ++ (importedNames s.rules ++ importedNames o.rules) := by
    simp [StyleSheet.add, StyleSheet.filenames, importedNames_append]
  rw [e, List.mem_append, hu, List.mem_append, List.mem_append]
  simp only [StyleSheet.filenames, List.mem_append]
  grind

/-- **C132.** A theme has the rules of its files, in the order in which they are given, and then those of its text; and its names are those of its files and of
    its text. Without files the text is used, also if it is empty. -/
theorem C132_theme {uniq : List F → List F} (hu : ∀ l f, f ∈ uniq l ↔ f ∈ l) (files : List (StyleSheet F R)) (hasText : Bool) (text : StyleSheet F R) :
    ∃ s, themeSheet uniq files hasText text = some s ∧
      styles s.rules = files.flatMap (fun x => styles x.rules) ++ (if hasText = true ∨ files = [] then styles text.rules else []) ∧
      atrules s.rules = files.flatMap (fun x => atrules x.rules) ++ (if hasText = true ∨ files = [] then atrules text.rules else []) ∧
      ∀ f, f ∈ s.filenames ↔ (∃ x ∈ files, f ∈ x.filenames) ∨ ((hasText = true ∨ files = []) ∧ f ∈ text.filenames) := by
  have key : ∀ (ss : List (StyleSheet F R)) (s : StyleSheet F R), styles (ss.foldl (StyleSheet.add uniq) s).rules = styles s.rules ++ ss.flatMap (fun x => styles x.rules) ∧
      atrules (ss.foldl (StyleSheet.add uniq) s).rules = atrules s.rules ++ ss.flatMap (fun x => atrules x.rules) ∧
      ∀ f, f ∈ (ss.foldl (StyleSheet.add uniq) s).filenames ↔ f ∈ s.filenames ∨ ∃ x ∈ ss, f ∈ x.filenames := by
    intro ss
    induction ss with
    | nil => intro s; simp
    | cons t ss ih =>
      intro s
      obtain ⟨h1, h2, h3⟩ := ih (s.add uniq t)
      rw [List.foldl_cons, h1, h2, (C132_rules uniq s t).1, (C132_rules uniq s t).2]
      refine ⟨by simp, by simp, fun f => ?_⟩
      rw [h3, C132_filenames_partial hu]
      simp only [List.mem_cons, exists_eq_or_imp, or_assoc]
  have all : ∀ ss : List (StyleSheet F R), ss ≠ [] → ∃ s, sumSheets uniq ss = some s ∧ styles s.rules = ss.flatMap (fun x => styles x.rules) ∧
      atrules s.rules = ss.flatMap (fun x => atrules x.rules) ∧ ∀ f, f ∈ s.filenames ↔ ∃ x ∈ ss, f ∈ x.filenames := by
    intro ss hn
    cases ss with
    | nil => exact absurd rfl hn
    | cons s ss =>
      obtain ⟨h1, h2, h3⟩ := key ss s
      exact ⟨_, rfl, by rw [h1]; rfl, by rw [h2]; rfl, fun f => by rw [h3]; simp only [List.mem_cons, exists_eq_or_imp]⟩
  unfold themeSheet
  by_cases h : hasText = true ∨ files = []
  · have hb : (hasText || files.isEmpty) = true := by simpa using h
    obtain ⟨s, h0, h1, h2, h3⟩ := all (files ++ [text]) (by simp)
    refine ⟨s, by rw [if_pos hb, h0], by rw [h1, if_pos h]; simp, by rw [h2, if_pos h]; simp, fun f => ?_⟩
    rw [h3]
    simp only [List.mem_append, List.mem_singleton]
    grind
  · have hb : ¬ (hasText || files.isEmpty) = true := by simpa using h
    obtain ⟨s, h0, h1, h2, h3⟩ := all files (fun e => h (.inr e))
    refine ⟨s, by rw [if_neg hb, h0], by rw [h1, if_neg h]; simp, by rw [h2, if_neg h]; simp, fun f => ?_⟩
    rw [h3]
    grind

/-- **C132 is violated by the code**: the name of a file that is imported with a condition is there twice, in any order of the set. -/
theorem C132_twice_violated {uniq : List Nat → List Nat} (hu : ∀ l f, f ∈ uniq l ↔ f ∈ l) : ∃ s o : StyleSheet Nat Nat, s.filenames.Nodup ∧ o.filenames = [] ∧
    ¬ (s.add uniq o).filenames.Nodup := by
  refine ⟨⟨none, [], [.cond "import" [] (some 1) [] []]⟩, ⟨none, [], []⟩, by decide, by decide, ?_⟩
  have e : ((⟨none, [], [.cond "import" [] (some 1) [] []]⟩ : StyleSheet Nat Nat).add uniq ⟨none, [], []⟩).filenames = uniq [1] ++ [1] := rfl
  rw [e, List.nodup_append]
  intro h
  exact h.2.2 1 ((hu [1] 1).2 (by simp)) 1 (by simp) rfl

/-- **C132 is violated by the code**: the first file need not be the first of the names, because a set has no order. -/
theorem C132_first_violated : ∃ (uniq : List Nat → List Nat) (s o : StyleSheet Nat Nat), (∀ l f, f ∈ uniq l ↔ f ∈ l) ∧ (∀ l, (uniq l).Nodup) ∧ s.filename = some 1 ∧
    (s.add uniq o).filenames = [2, 1] :=
  ⟨fun l => l.eraseDups.reverse, ⟨some 1, [], []⟩, ⟨some 2, [], []⟩, by simp [List.mem_eraseDups], fun l => List.pairwise_reverse.2 ((Reg.nodup_eraseDups _ l (Nat.le_refl _)).imp Ne.symm), rfl, rfl⟩

example : (∀ (l : List Nat) f, f ∈ l.eraseDups ↔ f ∈ l) ∧
    ((themeSheet List.eraseDups [⟨some 1, [], [.rule 5, .cond "media" [] none [] [.rule 6]]⟩, ⟨some 2, [], [.at "page" []]⟩] true (⟨none, [], [.rule 7]⟩ : StyleSheet Nat Nat)).map
      fun s => (styles s.rules, s.filenames)) = some ([5, 6, 7], [1, 2]) := ⟨fun _ _ => List.mem_eraseDups, by decide⟩

end Parce.Sheet

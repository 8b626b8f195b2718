import Verif.Lemmas.InterruptMore
import Verif.Props.Re
/-!
# C81: changes that arrive while the tree is built
-/
namespace Parce.RB
variable {α L A ρ : Type} [DecidableEq α] [DecidableEq L] [DecidableEq A]

/-- **C81** (partial: for languages as in C33, and when edits that are not the first one start within the first tokens of the
    text; see `C81_lost_token_violated`). Whenever requests are made, before, during or after the builds they lead to, in
    the end the tree is the tree of the last text and the last root lexicon. -/
theorem C81_interrupted_partial (lang : Lang α L A ρ) (hl : Restartable 9 lang ∨ Restartable1 9 lang) (same : L → L → Bool)
    (hsame : ∀ l l', same l l' = true ↔ l = l') (n : Nat) (d : Doc α L) (first : Nat × Req α L) (rs : List (Nat × Req α L))
    (hp : Proper lang n d (first :: rs)) (he : Early lang n (first.2.run d) rs) (fuel : Nat) (hf : rs.length < fuel) :
    processTo lang true same (n + 1) fuel (changesOf d (first :: rs)) (treeOf lang n d) =
      some (treeOf lang n (runAll d (first :: rs))) := by
  have hu : Usable lang := hl.elim Restartable.usable Restartable1.usable
  refine processTo_ok hu hsame fuel _ d hf hp ?_
  intro q rs' h
  injection h with h1 h2
  subst h1; subst h2
  exact Or.inr he

/-- **C81**, for the code without the part that uses a part of the new tree again (`treebuilder.py:277-287`; the first argument of
    `processTo` after the language is false): whatever is requested, and whenever it is seen, in the end the tree is the tree of
    the last text and the last root lexicon. So that part is the only reason for `C81_lost_token_violated`: the old tree, the tail
    and the positions are handled as they should be. -/
theorem C81_without_reuse_partial (lang : Lang α L A ρ) (hl : Restartable 9 lang ∨ Restartable1 9 lang) (same : L → L → Bool)
    (hsame : ∀ l l', same l l' = true ↔ l = l') (n : Nat) (d : Doc α L) (rs : List (Nat × Req α L))
    (hp : Proper lang n d rs) (fuel : Nat) (hf : rs.length ≤ fuel) :
    processTo lang false same (n + 1) fuel (changesOf d rs) (treeOf lang n d) = some (treeOf lang n (runAll d rs)) := by
  have hu : Usable lang := hl.elim Restartable.usable Restartable1.usable
  exact processTo_ok hu hsame fuel _ d hf hp (fun _ _ _ => Or.inl rfl)

/-! ## Examples -/

/-- Every character is a token. -/
private def any : Lang Nat Nat Nat RM :=
  patLang 0 (fun _ => false) (fun _ => false) (fun _ => [⟨.set (fun _ => true), fun _ _ => (0, none)⟩]) (fun _ => .skip)

private theorem any_ok : Restartable 9 any := by
  apply C70_restartable
  · intro _ r hr; simp only [List.mem_singleton] at hr; subst hr; trivial
  · intro _ r hr; simp only [List.mem_singleton] at hr; subst hr; simp [Pat.Known]

/-- The root lexicon is set; after three events a character is inserted at 2; after one more event the first five characters
    are replaced. -/
private def burst : List (Nat × Req Nat Nat) :=
  [(0, .root (some 0) (List.range 30) 0 0 30), (3, .edit ⟨2, 0, [77]⟩), (1, .edit ⟨0, 5, [78, 79]⟩)]

set_option maxRecDepth 4000 in
example : Proper any 40 ([], none) burst ∧ Early any 40 ((0, Req.root (some 0) (List.range 30) 0 0 30).2.run ([], none)) burst.tail ∧
    (runAll ([], none) burst).1 = [78, 79] ++ (List.range 30).drop 4 := by
  refine ⟨⟨fun l h => by simp at h, trivial, fun l h => ?_, by decide, fun l h => ?_, by decide, fun l h => ?_⟩,
    ⟨fun l h => ?_, fun l h => ?_, trivial⟩, by decide +kernel⟩
  all_goals
    simp only [Req.run, Option.some.injEq] at h
    subst h
  · unfold Finished; decide +kernel
  · unfold Finished; decide +kernel
  · unfold Finished; decide +kernel
  · decide +kernel
  · decide +kernel

/-- **C81** is violated: a change that is seen while the tree is built, and that starts after more than eleven tokens of the
    new tree, makes the new tree lose the last token of the part that is kept (`del context[-1]`, `treebuilder.py:285`). Here the
    text is 0, 1, …, 19; while the tree for it is built, 77 is inserted before 15; the token 14 is lost. -/
theorem C81_lost_token_violated : ∃ (lang : Lang Nat Nat Nat RM) (n : Nat) (rs : List (Nat × Req Nat Nat)),
    Restartable 9 lang ∧ Proper lang n ([], none) rs ∧
    (runAll ([], none) rs) = ([0, 1, 2, 3, 4, 5, 6, 7, 8, 9, 10, 11, 12, 13, 14, 77, 15, 16, 17, 18, 19], some 0) ∧
    ((processTo lang true (fun a b => decide (a = b)) (n + 1) rs.length (changesOf ([], none) rs) (treeOf lang n ([], none))).map
      (fun tree => (toksL tree.kids).flatMap (·.text))) =
      some [0, 1, 2, 3, 4, 5, 6, 7, 8, 9, 10, 11, 12, 13, 77, 15, 16, 17, 18, 19] ∧
    ((toksL (treeOf lang n (runAll ([], none) rs)).kids).flatMap (·.text)) =
      [0, 1, 2, 3, 4, 5, 6, 7, 8, 9, 10, 11, 12, 13, 14, 77, 15, 16, 17, 18, 19] := by
  refine ⟨any, 40, [(0, .root (some 0) (List.range 20) 0 0 20), (17, .edit ⟨15, 0, [77]⟩)], any_ok,
    ⟨fun l h => by simp at h, trivial, fun l h => ?_, by decide, fun l h => ?_⟩, by decide +kernel, by decide +kernel, by decide +kernel⟩
  all_goals
    simp only [Req.run, Option.some.injEq] at h
    subst h
  · unfold Finished; decide +kernel
  · unfold Finished; decide +kernel

/-- The same requests, without that part: no token is lost (and the hypotheses of `C81_without_reuse_partial` hold). -/
example : Restartable 9 any ∧ Proper any 40 ([], none) [(0, .root (some 0) (List.range 20) 0 0 20), (17, .edit ⟨15, 0, [77]⟩)] ∧
    ((processTo any false (fun a b => decide (a = b)) 41 2 (changesOf ([], none)
        [(0, .root (some 0) (List.range 20) 0 0 20), (17, .edit ⟨15, 0, [77]⟩)]) (treeOf any 40 ([], none))).map
      (fun tree => (toksL tree.kids).flatMap (·.text))) =
      some [0, 1, 2, 3, 4, 5, 6, 7, 8, 9, 10, 11, 12, 13, 14, 77, 15, 16, 17, 18, 19] := by
  refine ⟨any_ok, ⟨fun l h => by simp at h, trivial, fun l h => ?_, by decide, fun l h => ?_⟩, by decide +kernel⟩
  all_goals
    simp only [Req.run, Option.some.injEq] at h
    subst h
  · unfold Finished; decide +kernel
  · unfold Finished; decide +kernel

end Parce.RB

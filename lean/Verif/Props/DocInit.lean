import Verif.Model.DocInit
/-!
# C119 A new document has the tree and the transformed result of its text
-/
namespace Parce.DI
variable {L T K R : Type} [DecidableEq T] [DecidableEq L] {e : Env L T K R}

/-! ### Specification -/

/-- The tree of the text, with the root lexicon of the document. -/
def TreeOk (e : Env L T K R) (d : Doc L T K R) : Prop :=
  match d.worker.lex with
  | none => d.worker.kids = e.empty
  | some l => d.worker.kids = e.build l d.text

/-- `get_transform(wait=True)` gives the result of the current transformer for the current tree. -/
def ResultOk (e : Env L T K R) (d : Doc L T K R) : Prop :=
  ∀ t, d.worker.trans = some t → d.worker.getTransform = match d.worker.lex with
    | none => none
    | some l => e.tr t l d.worker.kids

/-- No text, no children. -/
def EmptyText (e : Env L T K R) : Prop := ∀ l, e.build l [] = e.empty

/-! ### Theorems -/

omit [DecidableEq L] in
theorem update_ok (text : List Nat) (lex : Option (Option L)) (w : Wk L T K R) :
    TreeOk e ⟨text, w.update e text lex⟩ ∧ ResultOk e ⟨text, w.update e text lex⟩ ∧ (w.update e text lex).lex = lex.getD w.lex ∧
    (w.update e text lex).trans = w.trans := by
  unfold TreeOk ResultOk Wk.getTransform Wk.update Wk.process Env.result Env.kids
  cases ht : w.trans <;> cases hl : lex.getD w.lex <;> simp

/-- With a root lexicon and a text that is not empty, the document has this lexicon, the tree of its text, and the result of the
    transformer, whether a worker is given or not, and whatever this worker did before. (Missing: the other cases, see below.) -/
theorem C119_new_partial (l : L) (text : List Nat) (ht : text ≠ []) (w : Option (Wk L T K R)) (t : Option T) :
    TreeOk e (Doc.new e (some l) text w t) ∧ ResultOk e (Doc.new e (some l) text w t) ∧
    (Doc.new e (some l) text w t).text = text ∧ (Doc.new e (some l) text w t).worker.lex = some l ∧
    (∀ t', t = some t' → (Doc.new e (some l) text w t).worker.trans = some t') := by
  unfold Doc.new
  simp only [ht, ne_eq, not_false_eq_true, Option.isSome_some, and_self, if_true]
  refine ⟨(update_ok ..).1, (update_ok ..).2.1, trivial, ?_, ?_⟩
  · rw [(update_ok ..).2.2.1]
    cases w with
    | none => rfl
    | some w =>
      cases t with
      | none => rfl
      | some t =>
        simp only [Option.getD_none, Wk.setTransformer]
        split
        · rfl
        · rfl
  · rintro t' rfl
    rw [(update_ok ..).2.2.2]
    cases w with
    | none => rfl
    | some w =>
      simp only [Wk.setTransformer]
      split
      · next h => exact h.symm
      · rfl

omit [DecidableEq L] in
/-- Without a worker, the tree is that of the text and the lexicon and the transformer are the given ones, also for an empty text or no
    root lexicon. (Missing: the result, see `C119_empty_violated`.) -/
theorem C119_tree_partial (he : EmptyText e) (l : Option L) (text : List Nat) (t : Option T) :
    TreeOk e (Doc.new e l text none t) ∧ (Doc.new e l text none t).worker.lex = l ∧ (Doc.new e l text none t).worker.trans = t := by
  simp only [Doc.new]
  by_cases h : text ≠ [] ∧ l.isSome = true
  · simp only [if_pos h]
    exact ⟨(update_ok ..).1, (update_ok ..).2.2.1, (update_ok ..).2.2.2⟩
  · simp only [if_neg h]
    refine ⟨?_, rfl, rfl⟩
    unfold TreeOk Wk.new
    cases l with
    | none => rfl
    | some l =>
      have : text = [] := by
        cases text with
        | nil => rfl
        | cons => simp at h
      subst this
      exact (he l).symm

/-- Once the tree and the result are right, they stay right when the text is changed or another root lexicon is set. -/
theorem C119_stays {d : Doc L T K R} (h1 : TreeOk e d) (h2 : ResultOk e d) (text : List Nat) (lex : Option L) :
    (TreeOk e (d.edit e text) ∧ ResultOk e (d.edit e text) ∧ (d.edit e text).text = text ∧ (d.edit e text).worker.lex = d.worker.lex) ∧
    (TreeOk e (d.setRootLexicon e lex) ∧ ResultOk e (d.setRootLexicon e lex) ∧ (d.setRootLexicon e lex).text = d.text ∧
      (d.setRootLexicon e lex).worker.lex = lex) := by
  refine ⟨⟨(update_ok ..).1, (update_ok ..).2.1, rfl, (update_ok ..).2.2.1⟩, ?_⟩
  unfold Doc.setRootLexicon
  split
  · next h => exact ⟨h1, h2, rfl, h.symm⟩
  · exact ⟨(update_ok ..).1, (update_ok ..).2.1, rfl, (update_ok ..).2.2.1⟩

omit [DecidableEq L] in
/-- Setting another transformer (or none) gives its result. (One that was used for this tree before can have wrong results cached for
    children of the root, which are not modelled here; that is C115.) -/
theorem C119_transformer {d : Doc L T K R} (h1 : TreeOk e d) (h2 : ResultOk e d) (t : Option T) :
    TreeOk e (d.setTransformer e t) ∧ ResultOk e (d.setTransformer e t) ∧ (d.setTransformer e t).worker.trans = t := by
  unfold Doc.setTransformer Wk.setTransformer
  split
  · next h => exact ⟨h1, h2, h.symm⟩
  · refine ⟨?_, ?_, ?_⟩
    · unfold TreeOk Wk.process at *
      cases t with
      | none => exact h1
      | some t => exact h1
    · unfold ResultOk Wk.getTransform Wk.process Env.result
      cases t with
      | none => simp
      | some t => cases hl : d.worker.lex <;> simp
    · unfold Wk.process
      cases t <;> rfl

/-! ### Where it goes wrong -/

/-- The children are the characters; the transformer gives the number of children (and a mark for the transformer and the lexicon). -/
def someEnv : Env Nat Nat (List Nat) (Nat × Nat × Nat) := ⟨[], fun _ t => t, fun t l k => some (t, l, k.length)⟩

example : EmptyText someEnv := fun _ => rfl

/-- A worker that has done its work for another document. -/
def usedWorker : Wk Nat Nat (List Nat) (Nat × Nat × Nat) := (Doc.new someEnv (some 1) [7, 7, 7] none (some 5)).worker

theorem usedWorker_ok : TreeOk someEnv ⟨[7, 7, 7], usedWorker⟩ ∧ ResultOk someEnv ⟨[7, 7, 7], usedWorker⟩ :=
  ⟨(C119_new_partial (e := someEnv) 1 [7, 7, 7] (by decide) none (some 5)).1, (C119_new_partial (e := someEnv) 1 [7, 7, 7] (by decide) none (some 5)).2.1⟩

/-- A worker with a root lexicon is given, and no root lexicon: the text is not tokenized. -/
theorem C119_lexicon_violated : ∃ w : Wk Nat Nat (List Nat) (Nat × Nat × Nat), w = Wk.new someEnv (some 1) none ∧
    (Doc.new someEnv none [8] (some w) none).worker.lex = some 1 ∧ ¬ TreeOk someEnv (Doc.new someEnv none [8] (some w) none) := by
  refine ⟨_, rfl, rfl, ?_⟩
  unfold TreeOk
  simp [Doc.new, Wk.new, someEnv]

/-- A worker and a transformer are given, and no root lexicon: the transformer is not set. -/
theorem C119_transformer_violated : (Doc.new someEnv none [7, 7, 7] (some usedWorker) (some 6)).worker.trans = some 5 := by
  simp [Doc.new, usedWorker, Wk.new, Wk.update, Wk.process]

/-- A used worker, a root lexicon and an empty text: the tree is cleared, but the result is still that of the old text. -/
theorem C119_result_violated : TreeOk someEnv (Doc.new someEnv (some 1) [] (some usedWorker) none) ∧
    (Doc.new someEnv (some 1) [] (some usedWorker) none).worker.getTransform = some (5, 1, 3) ∧
    ¬ ResultOk someEnv (Doc.new someEnv (some 1) [] (some usedWorker) none) := by
  refine ⟨rfl, rfl, fun h => ?_⟩
  have := h 5 rfl
  revert this
  decide

/-- A new document with an empty text has no result, until it is edited; the same document, emptied again, has one. -/
theorem C119_empty_violated : (Doc.new someEnv (some 1) [] none (some 5)).worker.getTransform = none ∧
    ¬ ResultOk someEnv (Doc.new someEnv (some 1) [] none (some 5)) ∧
    (((Doc.new someEnv (some 1) [] none (some 5)).edit someEnv [7]).edit someEnv []).worker.getTransform = some (5, 1, 0) := by
  refine ⟨rfl, fun h => ?_, rfl⟩
  have := h 5 rfl
  revert this
  decide

end Parce.DI

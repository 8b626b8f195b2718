import Verif.Lemmas.RegexUnique
/-!
# Properties of regular expressions (C45, C46)
-/
namespace Parce.Rx

-- The theorems are for every order in which tuples are taken from a set.
variable [TupleOrder]

/-- There are orders, also others than that of insertion. -/
example : Nonempty TupleOrder := ⟨⟨List.reverse, List.reverse_perm⟩⟩

/-- C45. The text built from a non-empty list of words is a regular expression that fully matches
    exactly these words. Partial: for the empty list see `C45_violated_empty`. -/
theorem C45_words_partial (ws : List Word) (hne : ws ≠ []) : Matches (words2regexp ws) (fun w => w ∈ ws) :=
  words2regexp_spec ws hne

example : (["opa", "oma", "mama", "papa"].map String.toList) ≠ [] := by simp

omit [TupleOrder] in
/-- The meaning of a text is unique, so `words2regexp` matches nothing else. -/
theorem C45_unambiguous (rx : Word) (L M : Lang) (h1 : Matches rx L) (h2 : Matches rx M) : L = M :=
  (den_det h1 h2 (x := []) (y := []) (Or.inl rfl) (Or.inl rfl) rfl).2.1

example : Matches "a".toList (fun w => w = ['a']) :=
  .single _ _ (piece_seq (.once _ _ (.lit 'a' (by decide))))

/-- For the empty list of words the empty text is built, which matches the empty string (and not
    nothing). -/
theorem C45_violated_empty : words2regexp [] = [] ∧ Matches (words2regexp []) (fun w => w = []) ∧
    ¬ Matches (words2regexp []) (fun w => w ∈ ([] : List Word)) := by
  have he : words2regexp [] = [] := by
    simp [words2regexp, commonSuffix, makeTrie, mergeKids, toTuple, tuples, tupleOf, groupTuple, popGroups, buildRegexp,
      partsItems, partItems, setItems, exprsOf, tupsOf, hasNone, mergeAll, mergeItems, render, renderItem, groupAlts,
      sortWords, join, qualifier, ord_nil]
  have h1 : Matches (words2regexp []) (fun w => w = []) := by rw [he]; exact .single _ _ .nil
  refine ⟨he, h1, fun h2 => ?_⟩
  have := C45_unambiguous _ _ _ h1 h2
  have h3 : (([] : Word) = []) = (([] : Word) ∈ ([] : List Word)) := congrFun this []
  simp at h3

omit [TupleOrder] in
/-- C46. The text built for a set of characters is the text of a character class with exactly these
    characters. -/
theorem C46_charclass (chars : List Char) : IsClass (makeCharclass chars) (fun c => c ∈ chars) := by
  obtain ⟨P, hP, hd⟩ := charclass_spec chars
  rwa [setExt hd] at hP

omit [TupleOrder] in
/-- The text of a character class determines its characters. -/
theorem C46_unambiguous (s : Word) (P Q : Char → Prop) (h1 : IsClass s P) (h2 : IsClass s Q) (c : Char) : P c ↔ Q c := by
  have := (elems_det (isClass_elems h1) (isClass_elems h2) (x := []) (y := []) rfl).2.1
  rw [this]

example : IsClass "a-d".toList (fun d => 'a'.toNat ≤ d.toNat ∧ d.toNat ≤ 'd'.toNat) :=
  .range ['a'] ['d'] 'a' 'd' (.lit _ (by decide)) (.lit _ (by decide)) (by decide)

end Parce.Rx

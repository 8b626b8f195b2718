import Verif.Lemmas.RegexTrie
import Verif.Props.Regex
/-!
# The expression for words finds the longest word (C77)
-/
namespace Parce.Rx

-- The theorems are for every order in which tuples are taken from a set.
variable [TupleOrder]

/-- **C77.** The text built for words can be read as an expression with an order of matches. -/
theorem C77_reads (ws : List Word) (hne : ws ≠ []) : ∃ a, Reads .alt (words2regexp ws) a :=
  den_reads (words2regexp_spec ws hne)

omit [TupleOrder] in
/-- **C77.** In one way only. -/
theorem C77_unambiguous (rx : Word) (a b : Pat Char) (h1 : Reads .alt rx a) (h2 : Reads .alt rx b) : a = b :=
  reads_unique h1 h2

/-- **C77.** Of the matches with a suitable end (for example where no letter follows), the one that
    is taken is the longest word that has a suitable end; if there is no such word, there is no match.
    There are no groups. -/
theorem C77_longest (ws : List Word) (hne : ws ≠ []) (a : Pat Char) (ha : Reads .alt (words2regexp ws) a)
    (t : List Char) (P : Nat → Prop) (p q : Nat) (c : Caps) (hp : p ≤ t.length) :
    a.First t P p q c ↔ LongestAt ws t P p q ∧ c = [] := by
  classical
  obtain ⟨b, hb, hg⟩ := words2regexp_good ws hne
  rw [reads_unique hb ha] at hg
  have hsem := reads_sem ha (words2regexp_spec ws hne)
  have hmem : ∀ w, w ∈ ws → w <+: t.drop p → t.drop (p + w.length) ∈ rems a (t.drop p) := by
    intro w hw hpre
    refine (hsem _ _).2 ⟨w, ?_, hw⟩
    obtain ⟨x, hx⟩ := hpre
    rw [← List.drop_drop, ← hx, List.drop_left]
  rw [← run_first, run_rems t a (reads_plain ha) p hp, List.find?_map]
  constructor
  · intro h
    obtain ⟨x, hx, he⟩ := Option.map_eq_some_iff.1 h
    obtain ⟨rfl, rfl⟩ := Prod.mk.inj he
    have hP := List.find?_some hx
    simp only [Function.comp, decide_eq_true_eq] at hP
    obtain ⟨w, hw, hws⟩ := (hsem _ _).1 (List.mem_of_find?_eq_some hx)
    have hlen : t.length - p = w.length + x.length := by
      rw [← List.length_drop, hw, List.length_append]
    have hq : t.length - x.length = p + w.length := by omega
    refine ⟨⟨by omega, by omega, ?_, hP, ?_⟩, rfl⟩
    · have : slice t p (t.length - x.length) = w := by
        rw [hq, slice, ← List.take_drop, hw, List.take_left]
      rw [this]; exact hws
    · intro v hv hpre hPv
      have hvl := hpre.length_le
      rw [List.length_drop] at hvl
      have := hg _ _ x hx _ (hmem v hv hpre) (by
        simp only [Function.comp, decide_eq_true_eq, List.length_drop]
        have : t.length - (t.length - (p + v.length)) = p + v.length := by omega
        rw [this]; exact hPv)
      rw [List.length_drop] at this
      omega
  · rintro ⟨⟨h1, h2, h3, h4, h5⟩, rfl⟩
    have hpre : slice t p q <+: t.drop p := by
      rw [slice, List.drop_take]
      exact List.take_prefix _ _
    have hsl : (slice t p q).length = q - p := by
      rw [slice, List.length_drop, List.length_take]; omega
    have hm := hmem _ h3 hpre
    have hpq : p + (q - p) = q := by omega
    rw [hsl, hpq] at hm
    have hf : (fun r : Word => decide (P (t.length - r.length))) (t.drop q) = true := by
      simp only [decide_eq_true_eq, List.length_drop]
      have : t.length - (t.length - q) = q := by omega
      rw [this]; exact h4
    cases hx : (rems a (t.drop p)).find? (fun r : Word => decide (P (t.length - r.length))) with
    | none => exact absurd hf (List.find?_eq_none.1 hx _ hm)
    | some x =>
      refine Option.map_eq_some_iff.2 ⟨x, hx, ?_⟩
      have h6 := hg _ _ x hx _ hm hf
      have hP := List.find?_some hx
      simp only [decide_eq_true_eq] at hP
      obtain ⟨w, hw, hws⟩ := (hsem _ _).1 (List.mem_of_find?_eq_some hx)
      have hlen : t.length - p = w.length + x.length := by
        rw [← List.length_drop, hw, List.length_append]
      rw [List.length_drop] at h6
      have h7 := h5 w hws ⟨x, hw.symm⟩ (by
        have : p + w.length = t.length - x.length := by omega
        rw [this]; exact hP)
      have : t.length - x.length = q := by omega
      rw [this]

/-- **C77.** The match that is taken is the longest word at the position. -/
theorem C77_match (ws : List Word) (hne : ws ≠ []) (a : Pat Char) (ha : Reads .alt (words2regexp ws) a)
    (t : List Char) (p q : Nat) (hp : p ≤ t.length) :
    (∃ c, a.First t (fun _ => True) p q c) ↔
      p ≤ q ∧ q ≤ t.length ∧ slice t p q ∈ ws ∧ ∀ w ∈ ws, w <+: t.drop p → w.length ≤ q - p := by
  simp only [C77_longest ws hne a ha t _ p q _ hp, exists_and_left, exists_eq, and_true, LongestAt, true_and, true_implies]

private def exWords : List Word := ["a", "ab", "abc", "b"].map String.toList

/-- In `xabd` at 1 the longest word is `ab`. -/
example : ∃ a, Reads .alt (words2regexp exWords) a ∧ ∃ c, a.First "xabd".toList (fun _ => True) 1 3 c := by
  obtain ⟨a, ha⟩ := C77_reads exWords (by simp [exWords])
  refine ⟨a, ha, (C77_match exWords (by simp [exWords]) a ha "xabd".toList 1 3 (by decide)).2 ?_⟩
  decide

/-- And `a` is not preferred. -/
example : ∀ a, Reads .alt (words2regexp exWords) a → ¬ ∃ c, a.First "xabd".toList (fun _ => True) 1 2 c := by
  intro a ha
  rw [C77_match exWords (by simp [exWords]) a ha "xabd".toList 1 2 (by decide)]
  decide

/-- If the word must end before position 3, it is `a`. -/
example : ∃ a, Reads .alt (words2regexp exWords) a ∧ ∃ c, a.First "xabd".toList (fun q => q < 3) 1 2 c := by
  obtain ⟨a, ha⟩ := C77_reads exWords (by simp [exWords])
  refine ⟨a, ha, [], (C77_longest exWords (by simp [exWords]) a ha "xabd".toList _ 1 2 [] (by decide)).2 ⟨?_, rfl⟩⟩
  unfold LongestAt
  decide

end Parce.Rx

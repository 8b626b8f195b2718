import Verif.Model.TokenAt
import Verif.Spec.TokenAt
import Verif.Props.Tree
/-!
# Lemmas about the token at a position
-/
namespace Parce
variable {α L A : Type} [DecidableEq α]

/-- The same on the list of the tokens: the first one that ends after `pos` and the one before. -/
theorem docToken_list (text : List α) (sep : α) (l : L) (cs : List (Node α L A)) (hf : FullL cs) (ho : Ordered (toksL cs))
    (pos : Nat) :
    (docToken text sep (.ctx l cs) pos = none ∧ ∀ t ∈ toksL cs, t.stop ≤ pos) ∨
    ∃ pre t post, toksL cs = pre ++ t :: post ∧ (∀ u ∈ pre, u.stop ≤ pos) ∧ pos < t.stop ∧
      docToken text sep (.ctx l cs) pos =
        if t.pos ≤ pos then some t
        else match pre.getLast? with
          | none => tokenRight text sep t pos
          | some u => if u.stop = pos then some u else tokenRight text sep t pos := by
  have h26 := C26_find_token cs hf ho pos
  obtain ⟨h1, h2⟩ := C27_trail l cs pos
  rw [h26] at h1
  cases htr : findTokenTrail cs pos with
  | none =>
    left
    rw [htr] at h1
    refine ⟨by simp only [docToken, Node.kids, htr], fun t ht => ?_⟩
    have := List.find?_eq_none.1 h1.symm t ht
    simpa using this
  | some r =>
    obtain ⟨t, tr⟩ := r
    right
    rw [htr] at h1
    obtain ⟨hlt, _⟩ := List.find?_eq_some_iff_append.1 h1.symm
    have hlt : pos < t.stop := by simpa using hlt
    have hpath := h2 t tr htr
    have hwalk := C28_forward_backward (.ctx l cs) hf (by simpa [Node.toks] using ho) [] tr _ _ rfl hpath
    simp only [Node.leavesAt, List.nil_append] at hwalk
    have ht := leavesL_toks cs [] 0
    have hs : toksL cs = ((backward (.ctx l cs) [] tr).reverse.map (·.2)) ++ t :: (forward (.ctx l cs) [] tr).map (·.2) := by
      rw [← ht, hwalk]
      simp
    refine ⟨_, t, _, hs, ?_, hlt, ?_⟩
    · intro u hu
      refine Nat.le_of_not_lt (fun hc => ?_)
      rw [hs, List.find?_append] at h1
      cases hp : ((backward (.ctx l cs) [] tr).reverse.map (·.2)).find? (fun t => decide (pos < t.stop)) with
      | none =>
        have := List.find?_eq_none.1 hp u hu
        simp only [decide_eq_true_eq] at this
        exact this hc
      | some v =>
        rw [hp] at h1
        simp only [Option.map_some, Option.some_or, Option.some.injEq] at h1
        subst h1
        have hm := List.mem_of_find?_eq_some hp
        rw [hs] at ho
        have := (List.pairwise_append.1 ho.2).2.2 _ hm _ (List.mem_cons_self ..)
        have hne := ho.1 t (by simp)
        have := List.length_pos_iff.2 hne
        simp only [TokN.stop] at *
        omega
    · have hne : t.text ≠ [] := ho.1 t (by rw [hs]; simp)
      simp only [docToken, Node.kids, htr, if_neg hne, previousToken]
      split
      · rfl
      · rw [List.getLast?_map, List.getLast?_reverse]
        cases hb : backward (.ctx l cs) [] tr with
        | nil => rfl
        | cons x xs =>
          have hx : x.2.text ≠ [] := ho.1 x.2 (by rw [hs, hb]; simp)
          simp only [List.head?_cons, Option.map_some, ne_eq, hx, not_false_eq_true, true_and]

end Parce

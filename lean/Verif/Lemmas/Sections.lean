import Verif.Model.Sections
/-!
# Lemmas about the sections of the registry
-/
namespace Parce.Reg

theorem put_new {g : Registry} {q : Str} {e : Entry} (h : ∀ x ∈ g, x.1 ≠ q) : put g q e = g ++ [(q, e)] := by
  unfold put
  rw [if_neg]
  simpa using fun b hab => h (q, b) hab rfl

theorem secPut_map {s q : Str} {e : Entry} (F : Str → Registry) (hF : ∀ t, ∀ x ∈ F t, x.1 ≠ q) : ∀ (l : List Str), l.Nodup →
    secPut s q e (l.map fun t => (t, F t)) =
      if s ∈ l then l.map (fun t => (t, if t = s then F t ++ [(q, e)] else F t)) else l.map (fun t => (t, F t)) ++ [(s, [(q, e)])]
  | [], _ => by simp [secPut, put]
  | t :: l, hn => by
    rw [List.nodup_cons] at hn
    simp only [List.map_cons, secPut]
    by_cases h : t = s
    · subst h
      rw [if_pos rfl, if_pos (by simp), put_new (hF t), if_pos rfl]
      congr 1
      apply List.map_congr_left
      intro a ha
      rw [if_neg]
      rintro rfl
      exact hn.1 ha
    · rw [if_neg h, secPut_map F hF l hn.2]
      by_cases hs : s ∈ l
      · rw [if_pos hs, if_pos (by simp [hs]), if_neg h]
      · rw [if_neg hs, if_neg (by simp [hs, Ne.symm h]), List.cons_append]

theorem nodup_eraseDups [BEq α] [LawfulBEq α] : ∀ (n : Nat) (l : List α), l.length ≤ n → l.eraseDups.Nodup
  | _, [], _ => by simp
  | 0, _ :: _, h => by simp at h
  | n + 1, a :: l, h => by
    rw [List.eraseDups_cons, List.nodup_cons]
    refine ⟨by simp [List.mem_eraseDups], nodup_eraseDups n _ ?_⟩
    have := List.length_filter_le (fun b => !b == a) l
    simp only [List.length_cons] at h
    omega

theorem eraseDups_snoc [BEq α] [LawfulBEq α] (l : List α) (a : α) [Decidable (a ∈ l)] : (l ++ [a]).eraseDups = if a ∈ l then l.eraseDups else l.eraseDups ++ [a] := by
  rw [List.eraseDups_append]
  by_cases h : a ∈ l
  · rw [if_pos h]; simp [List.removeAll, h]
  · rw [if_neg h]; simp [List.removeAll, h, List.eraseDups_cons]

end Parce.Reg

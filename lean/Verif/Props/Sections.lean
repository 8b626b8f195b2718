import Verif.Lemmas.Sections
/-!
# C128: the registry by section
-/
namespace Parce.Reg

/-- **C128.** The sections are those of the entries, each once, in the order in which they first appear; and each section has exactly its
    entries, in the order of the registry. The hypothesis says that the registry is a dictionary: no two entries have the same key. -/
theorem C128_by_section {r : Registry} (hr : (r.map (·.1)).Nodup) :
    bySection r = (r.map (·.2.section')).eraseDups.map (fun s => (s, r.filter (fun x => decide (x.2.section' = s)))) := by
  suffices H : ∀ l : Registry, (l.reverse.map (·.1)).Nodup → bySection l.reverse =
      (l.reverse.map (·.2.section')).eraseDups.map (fun s => (s, l.reverse.filter (fun x => decide (x.2.section' = s)))) by
    simpa using H r.reverse (by simpa using hr)
  intro l
  induction l with
  | nil => intro _; rfl
  | cons x l ih =>
    intro hn
    rw [List.reverse_cons] at hn ⊢
    generalize l.reverse = m at hn ih ⊢
    rw [List.map_append, List.nodup_append] at hn
    have hq : ∀ y ∈ m, y.1 ≠ x.1 := fun y hy => hn.2.2 y.1 (List.mem_map_of_mem hy) x.1 (by simp)
    have e : bySection (m ++ [x]) = secPut x.2.section' x.1 x.2 (bySection m) := by
      unfold bySection; rw [List.foldl_append]; rfl
    rw [e, ih hn.1, secPut_map _ (fun t y hy => hq y (List.mem_filter.1 hy).1) _ (nodup_eraseDups _ _ (Nat.le_refl _)), List.map_append, List.map_singleton,
      eraseDups_snoc]
    by_cases hs : x.2.section' ∈ m.map (·.2.section')
    · rw [if_pos (List.mem_eraseDups.2 hs), if_pos hs]
      apply List.map_congr_left
      intro t _
      rw [List.filter_append]
      by_cases ht : t = x.2.section'
      · simp [ht]
      · simp [ht, Ne.symm ht]
    · rw [if_neg (fun h => hs (List.mem_eraseDups.1 h)), if_neg hs, List.map_append]
      congr 1
      · apply List.map_congr_left
        intro t ht
        have : x.2.section' ≠ t := fun h => hs (h ▸ List.mem_eraseDups.1 ht)
        simp [List.filter_append, this]
      · have : m.filter (fun y => decide (y.2.section' = x.2.section')) = [] := by
          rw [List.filter_eq_nil_iff]
          intro y hy
          intro h
          exact hs (List.mem_map.2 ⟨y, hy, of_decide_eq_true h⟩)
        simp [List.filter_append, this]

/-- **C128.** Every entry is found in its section under its key, and nowhere else. -/
theorem C128_found {r : Registry} (hr : (r.map (·.1)).Nodup) (s q : Str) (e : Entry) :
    (∃ g, (s, g) ∈ bySection r ∧ (q, e) ∈ g) ↔ (q, e) ∈ r ∧ e.section' = s := by
  rw [C128_by_section hr]
  constructor
  · rintro ⟨g, hg, he⟩
    obtain ⟨t, _, ht⟩ := List.mem_map.1 hg
    cases ht
    simpa using he
  · rintro ⟨he, rfl⟩
    refine ⟨_, List.mem_map.2 ⟨e.section', List.mem_eraseDups.2 (List.mem_map.2 ⟨(q, e), he, rfl⟩), rfl⟩, ?_⟩
    simpa using he

/-- Three entries of two sections. -/
def someSections : Registry :=
  [("a".toList, ⟨"A".toList, [], "X".toList, [], [], [], [], []⟩), ("b".toList, ⟨"B".toList, [], [], [], [], [], [], []⟩), ("c".toList, ⟨"C".toList, [], "X".toList, [], [], [], [], []⟩)]

example : (someSections.map (·.1)).Nodup ∧ (bySection someSections).map (fun x => (x.1, x.2.map (·.1))) = [("X".toList, ["a".toList, "c".toList]), ([], ["b".toList])] := by decide

end Parce.Reg

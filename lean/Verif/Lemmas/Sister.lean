import Verif.Spec.Sister
/-!
# Lemmas about the sister classes of a language
-/
namespace Parce.Sis
variable {C M : Type} [DecidableEq C] {k : Classes C M} {template : List Nat → List Nat} {base : C}

theorem sub_iff {c b : C} : k.sub c b = true ↔ b ∈ k.mro c := by simp [Classes.sub]

theorem loop_some {s : C} : ∀ (ls : List C), (∀ c ∈ ls, k.loaded (k.modOf c) = true) → (sisterLoop k template base ls = some (some s) ↔
    ∃ l1 d l2, ls = l1 ++ d :: l2 ∧ IsSister k template base d s ∧ ∀ c ∈ l1, ∀ x, ¬ IsSister k template base c x)
  | [], _ => by simp [sisterLoop]
  | c :: ls, hm => by
    have ih := loop_some (s := s) ls (fun c' h => hm c' (List.mem_cons_of_mem _ h))
    have step : (∀ x, ¬ IsSister k template base c x) → ((∃ l1 d l2, ls = l1 ++ d :: l2 ∧ IsSister k template base d s ∧ ∀ c ∈ l1, ∀ x, ¬ IsSister k template base c x) ↔
        ∃ l1 d l2, c :: ls = l1 ++ d :: l2 ∧ IsSister k template base d s ∧ ∀ c ∈ l1, ∀ x, ¬ IsSister k template base c x) := by
      intro hno
      constructor
      · rintro ⟨l1, d, l2, h1, h2, h3⟩
        refine ⟨c :: l1, d, l2, by rw [h1]; rfl, h2, ?_⟩
        intro c' hc'
        rcases List.mem_cons.1 hc' with rfl | hc'
        · exact hno
        · exact h3 c' hc'
      · rintro ⟨l1, d, l2, h1, h2, h3⟩
        cases l1 with
        | nil =>
          obtain ⟨rfl, rfl⟩ := List.cons.inj h1
          exact absurd h2 (hno s)
        | cons c' l1 =>
          obtain ⟨rfl, rfl⟩ := List.cons.inj h1
          exact ⟨l1, d, l2, rfl, h2, fun c' hc' => h3 c' (List.mem_cons_of_mem _ hc')⟩
    unfold sisterLoop
    rw [if_pos (hm c (by simp))]
    cases ha : k.attr (k.modOf c) (template (k.name c)) with
    | none =>
      simp only
      rw [ih]
      exact step (fun x hx => by rw [hx.1] at ha; simp at ha)
    | some s' =>
      simp only
      by_cases hs : k.sub s' base = true
      · rw [if_pos hs]
        constructor
        · intro h
          obtain rfl := Option.some.inj (Option.some.inj h)
          exact ⟨[], c, ls, rfl, ⟨ha, sub_iff.1 hs⟩, by simp⟩
        · rintro ⟨l1, d, l2, h1, h2, h3⟩
          cases l1 with
          | nil =>
            obtain ⟨rfl, rfl⟩ := List.cons.inj h1
            rw [h2.1] at ha
            rw [Option.some.inj ha]
          | cons c' l1 =>
            obtain ⟨rfl, rfl⟩ := List.cons.inj h1
            exact absurd ⟨ha, sub_iff.1 hs⟩ (h3 c (by simp) s')
      · rw [if_neg hs, ih]
        refine step (fun x hx => ?_)
        rw [hx.1] at ha
        obtain rfl := Option.some.inj ha
        exact hs (sub_iff.2 hx.2)

theorem loop_none : ∀ (ls : List C), (∀ c ∈ ls, k.loaded (k.modOf c) = true) → (sisterLoop k template base ls = some none ↔
    ∀ c ∈ ls, ∀ x, ¬ IsSister k template base c x)
  | [], _ => by simp [sisterLoop]
  | c :: ls, hm => by
    have ih := loop_none ls (fun c' h => hm c' (List.mem_cons_of_mem _ h))
    unfold sisterLoop
    rw [if_pos (hm c (by simp))]
    cases ha : k.attr (k.modOf c) (template (k.name c)) with
    | none =>
      simp only
      rw [ih]
      constructor
      · intro h c' hc' x hx
        rcases List.mem_cons.1 hc' with rfl | hc'
        · rw [hx.1] at ha; simp at ha
        · exact h c' hc' x hx
      · intro h c' hc'
        exact h c' (List.mem_cons_of_mem _ hc')
    | some s' =>
      simp only
      by_cases hs : k.sub s' base = true
      · rw [if_pos hs]
        constructor
        · intro h; simp at h
        · intro h
          exact absurd ⟨ha, sub_iff.1 hs⟩ (h c (by simp) s')
      · rw [if_neg hs, ih]
        constructor
        · intro h c' hc' x hx
          rcases List.mem_cons.1 hc' with rfl | hc'
          · rw [hx.1] at ha
            obtain rfl := Option.some.inj ha
            exact hs (sub_iff.2 hx.2)
          · exact h c' hc' x hx
        · intro h c' hc'
          exact h c' (List.mem_cons_of_mem _ hc')

/-- A language is not among the last two of the bases, so it is tried. -/
theorem tried {object language lang : C} (hk : k.Ok object) (hl : language ≠ object) {l1 l2 : List C} {d : C} (h : k.mro lang = l1 ++ d :: l2)
    (hd : IsLanguage k language d) : ∃ l3, (k.mro lang).take ((k.mro lang).length - 2) = l1 ++ d :: l3 := by
  have hsub := hk.order lang d (by rw [h]; simp)
  have hlen : 2 ≤ l2.length := by
    -- `language` and `object` are after `d`
    have h1 := hk.first d
    cases hm : k.mro d with
    | nil => rw [hm] at h1; simp at h1
    | cons d' t =>
      rw [hm] at h1
      obtain rfl : d' = d := by simpa using h1
      have hlt : language ∈ t := by
        have := hd.1
        rw [hm] at this
        rcases List.mem_cons.1 this with h2 | h2
        · exact absurd h2.symm hd.2
        · exact h2
      have hot : object ∈ t := by
        have h2 := hk.last d'
        rw [hm] at h2
        cases t with
        | nil => simp at hlt
        | cons x xs =>
          rw [List.getLast?_cons_cons] at h2
          exact List.mem_of_getLast? h2
      have ht : t.Sublist l2 := by
        rw [hm, h] at hsub
        have hnd := hk.once lang
        rw [h] at hnd
        have hn1 : d' ∉ l1 := by
          intro hx
          rw [List.nodup_append] at hnd
          exact hnd.2.2 d' hx d' (by simp) rfl
        clear h hk hd hnd hm h1 hlt hot
        induction l1 with
        | nil => exact List.Sublist.of_cons_cons hsub
        | cons y ys ih =>
          have hy : y ≠ d' := by rintro rfl; exact hn1 (by simp)
          refine ih ?_ (fun hx => hn1 (List.mem_cons_of_mem _ hx))
          cases hsub with
          | cons _ h => exact h
          | cons_cons _ h => exact absurd rfl hy
      have h2 : 2 ≤ t.length := by
        cases t with
        | nil => simp at hlt
        | cons x xs =>
          cases xs with
          | nil =>
            have h3 : language = x := by simpa using hlt
            have h4 : object = x := by simpa using hot
            exact absurd (h3.trans h4.symm) hl
          | cons y ys => simp
      exact Nat.le_trans h2 ht.length_le
  refine ⟨l2.take (l2.length - 2), ?_⟩
  rw [h]
  have e : (l1 ++ d :: l2).length - 2 = l1.length + (1 + (l2.length - 2)) := by simp only [List.length_append, List.length_cons]; omega
  rw [e, List.take_length_add_append, Nat.add_comm 1, List.take_succ_cons]

end Parce.Sis

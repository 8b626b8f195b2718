import Verif.Spec.SaveLoad
/-!
# Lemmas for local files
-/
namespace Parce.SL

theorem splitAt_some (c : Char) : (u a b : Url) → (splitAt c u = some (a, b) ↔ u = a ++ c :: b ∧ c ∉ a)
  | [], a, b => by simp [splitAt]
  | d :: u, a, b => by
    unfold splitAt
    by_cases hd : d = c
    · rw [if_pos hd]
      subst hd
      constructor
      · intro h
        cases h
        exact ⟨rfl, by simp⟩
      · rintro ⟨h, hn⟩
        cases a with
        | nil => simp only [List.nil_append, List.cons.injEq, true_and] at h; rw [h]
        | cons x a =>
          simp only [List.cons_append, List.cons.injEq] at h
          rw [h.1] at hn
          exact absurd List.mem_cons_self hn
    · rw [if_neg hd]
      simp only [Option.map_eq_some_iff, Prod.mk.injEq, Prod.exists]
      constructor
      · rintro ⟨x, y, h, rfl, rfl⟩
        obtain ⟨h1, h2⟩ := (splitAt_some c u x y).1 h
        exact ⟨by rw [h1]; rfl, by simp [Ne.symm hd, h2]⟩
      · rintro ⟨h, hn⟩
        cases a with
        | nil =>
          simp only [List.nil_append, List.cons.injEq] at h
          exact absurd h.1 hd
        | cons x a =>
          simp only [List.cons_append, List.cons.injEq] at h
          simp only [List.mem_cons, not_or] at hn
          exact ⟨a, b, (splitAt_some c u a b).2 ⟨h.2, hn.2⟩, by rw [h.1], rfl⟩

theorem scheme_of_has {u s r : Url} (h : HasScheme u s r) : scheme u = (s.map Char.toLower, r) := by
  obtain ⟨h1, ⟨c, t, rfl, hc⟩, h3⟩ := h
  have hn : ':' ∉ (c :: t) := by
    intro hm
    have := h3 _ hm
    revert this
    decide
  unfold scheme
  rw [(splitAt_some ':' u (c :: t) r).2 ⟨h1, hn⟩]
  simp only
  rw [if_pos]
  simp only [hc, Bool.true_and, List.all_eq_true]
  exact h3

theorem scheme_cases (u : Url) : (∃ s r, HasScheme u s r) ∨ ((∀ s r, ¬ HasScheme u s r) ∧ scheme u = ([], u)) := by
  by_cases h : ∃ s r, HasScheme u s r
  · exact .inl h
  · refine .inr ⟨fun s r hs => h ⟨s, r, hs⟩, ?_⟩
    unfold scheme
    split
    · next c s rest hs =>
      split
      · next hc =>
        simp only [Bool.and_eq_true, List.all_eq_true] at hc
        exact absurd ⟨c :: s, rest, ((splitAt_some _ _ _ _).1 hs).1, ⟨c, s, rfl, hc.1⟩, hc.2⟩ h
      · rfl
    · rfl

theorem HasScheme.ne_nil {u s r : Url} (h : HasScheme u s r) : s.map Char.toLower ≠ [] := by
  obtain ⟨_, ⟨c, t, rfl, _⟩, _⟩ := h
  simp

theorem HasScheme.inj {u s r s' r' : Url} (h : HasScheme u s r) (h' : HasScheme u s' r') :
    s.map Char.toLower = s'.map Char.toLower ∧ r = r' := by
  have := scheme_of_has h
  rw [scheme_of_has h'] at this
  exact ⟨(Prod.ext_iff.1 this).1.symm, (Prod.ext_iff.1 this).2.symm⟩

theorem netloc_other {u : Url} (h : ∀ t, u ≠ '/' :: '/' :: t) : netloc u = ([], u) := by
  unfold netloc
  split
  · next t => exact absurd rfl (h t)
  · rfl

theorem netloc_slashes (t : Url) : netloc ('/' :: '/' :: t) = (t.takeWhile (fun c => c != '/' && c != '?' && c != '#'), t.dropWhile (fun c => c != '/' && c != '?' && c != '#')) := rfl

theorem netloc_nil (u : Url) : (netloc u).1 = [] ↔ NoHost u := by
  by_cases h : ∃ t, u = '/' :: '/' :: t
  · obtain ⟨t, rfl⟩ := h
    rw [netloc_slashes]
    cases t with
    | nil => simp [NoHost]
    | cons c t =>
      simp only [List.takeWhile_cons, NoHost, List.cons.injEq, true_and, and_imp]
      constructor
      · intro h c' t' h1 _
        subst h1
        split at h
        · cases h
        · next hc =>
          simp only [Bool.and_eq_true, bne_iff_ne, ne_eq, Bool.not_eq_true] at hc
          by_cases h1 : c = '/'
          · exact .inl h1
          · by_cases h2 : c = '?'
            · exact .inr (.inl h2)
            · by_cases h3 : c = '#'
              · exact .inr (.inr h3)
              · exact absurd ⟨⟨h1, h2⟩, h3⟩ hc
      · intro h
        rcases h c t rfl rfl with rfl | rfl | rfl <;> rfl
  · rw [netloc_other (fun t ht => h ⟨t, ht⟩)]
    simp only [true_iff]
    intro c t hc
    exact absurd ⟨_, hc⟩ h

theorem netloc_rest {t : Url} (h : NoHost ('/' :: '/' :: t)) : (netloc ('/' :: '/' :: t)).2 = t := by
  have h1 := (netloc_nil _).2 h
  rw [netloc_slashes] at h1 ⊢
  have := List.takeWhile_append_dropWhile (p := fun c => c != '/' && c != '?' && c != '#') (l := t)
  simp only at h1
  rw [h1] at this
  exact this

theorem path_of {p q : Url} (hp : '?' ∉ p) (hq : q = [] ∨ ∃ t, q = '?' :: t) : path (p ++ q) = p := by
  unfold path
  rw [List.takeWhile_append_of_pos]
  · rcases hq with rfl | ⟨t, rfl⟩
    · simp
    · simp
  · intro c hc
    simp only [bne_iff_ne, ne_eq]
    rintro rfl
    exact hp hc

theorem path_split (u : Url) : ∃ q, u = path u ++ q ∧ '?' ∉ path u ∧ (q = [] ∨ ∃ t, q = '?' :: t) := by
  refine ⟨u.dropWhile (fun c => c != '?'), (List.takeWhile_append_dropWhile).symm, ?_, ?_⟩
  · intro h
    have : ∀ (l : Url) (c : Char), c ∈ l.takeWhile (fun c => c != '?') → c ≠ '?' := by
      intro l
      induction l with
      | nil => intro c hc; simp at hc
      | cons d l ih =>
        intro c hc
        rw [List.takeWhile_cons] at hc
        split at hc
        · next hd =>
          rcases List.mem_cons.1 hc with rfl | hc
          · simpa using hd
          · exact ih c hc
        · cases hc
    exact this u '?' h rfl
  · have : ∀ (l : Url), l.dropWhile (fun c => c != '?') = [] ∨ ∃ t, l.dropWhile (fun c => c != '?') = '?' :: t := by
      intro l
      induction l with
      | nil => exact .inl rfl
      | cons d l ih =>
        rw [List.dropWhile_cons]
        split
        · exact ih
        · next hd => exact .inr ⟨l, by simp at hd; rw [hd]⟩
    exact this u

end Parce.SL

import Verif.Spec.Validate
/-!
# Lemmas about the check of default targets
-/
namespace Parce.Val
variable {L : Type}

theorem map_fresh (l : L) (a n : Nat) : (((List.range n).map (fun k => (a + k, l))).reverse).map (·.2) = List.replicate n l := by
  rw [List.map_reverse, List.map_map]
  have : ((·.2) ∘ fun k => (a + k, l)) = (fun _ : Nat => l) := rfl
  rw [this, List.map_const', List.reverse_replicate, List.length_range]

/-- The lexicons of the state are those of the specification. -/
theorem applyTarget_enter (l : L) (base : List L) : (ts : List (Tgt L)) → (n : Nat) → (st : List (Nat × L)) → (r : Nat × List (Nat × L)) →
    st ≠ [] → applyTarget l ts n st = .ok r → r.2 ≠ [] ∧ enter l ts (st.map (·.2) ++ base) = r.2.map (·.2) ++ base
  | [], n, st, r, hne, h => by
    simp only [applyTarget, Except.ok.injEq] at h
    subst h
    exact ⟨hne, rfl⟩
  | .bad :: ts, n, st, r, _, h => by simp [applyTarget] at h
  | .lex l' :: ts, n, st, r, hne, h => by
    simp only [applyTarget] at h
    exact applyTarget_enter l base ts _ _ r (by simp) h
  | .int k :: ts, n, st, r, hne, h => by
    unfold applyTarget at h
    unfold enter
    have hpos : 0 < st.length := List.length_pos_iff.2 hne
    split at h
    · rename_i hk
      rw [if_pos hk]
      split at h
      · cases h
      · rename_i hl
        have hlt : (-k).toNat < st.length := by omega
        have := applyTarget_enter l base ts _ _ r (by rw [Ne, List.drop_eq_nil_iff]; omega) h
        refine ⟨this.1, ?_⟩
        rw [← this.2]
        congr 1
        rw [List.length_append, List.length_map, Nat.min_eq_left (by omega), List.drop_append_of_le_length (by rw [List.length_map]; omega),
          List.map_drop]
    · rename_i hk
      rw [if_neg hk]
      have := applyTarget_enter l base ts _ _ r (by simp [hne]) h
      refine ⟨this.1, ?_⟩
      rw [← this.2, List.map_append, map_fresh, List.append_assoc]

/-- A part of the old state remains, with new contexts in front. -/
def Grown (st : List (Nat × L)) (n : Nat) (r : Nat × List (Nat × L)) : Prop :=
  ∃ fresh k, r.2 = fresh ++ st.drop k ∧ k < st.length ∧ n ≤ r.1 ∧ (fresh.map (·.1)).Nodup ∧ ∀ x ∈ fresh, n ≤ x.1 ∧ x.1 < r.1

theorem Grown.push {st : List (Nat × L)} {n : Nat} {r : Nat × List (Nat × L)} (h : Grown st n r) (fs : List (Nat × L)) (m : Nat) (hm : r.1 ≤ m)
    (h1 : (fs.map (·.1)).Nodup) (h2 : ∀ x ∈ fs, r.1 ≤ x.1 ∧ x.1 < m) : Grown st n (m, fs ++ r.2) := by
  obtain ⟨fresh, k, e, hk, hn, hd, hf⟩ := h
  refine ⟨fs ++ fresh, k, by simp [e], hk, by simp only; omega, ?_, ?_⟩
  · rw [List.map_append, List.nodup_append]
    refine ⟨h1, hd, ?_⟩
    intro a ha b hb hab
    obtain ⟨x, hx, rfl⟩ := List.mem_map.1 ha
    obtain ⟨y, hy, rfl⟩ := List.mem_map.1 hb
    have := h2 x hx
    have := hf y hy
    omega
  · intro x hx
    rcases List.mem_append.1 hx with hx | hx
    · have := h2 x hx; simp only; omega
    · have := hf x hx; simp only; omega

theorem Grown.pop {st : List (Nat × L)} {n : Nat} {r : Nat × List (Nat × L)} (h : Grown st n r) (m : Nat) (hm : m < r.2.length) :
    Grown st n (r.1, r.2.drop m) := by
  obtain ⟨fresh, k, e, hk, hn, hd, hf⟩ := h
  rw [e, List.length_append, List.length_drop] at hm
  refine ⟨fresh.drop m, k + (m - fresh.length), ?_, by omega, hn, ?_, ?_⟩
  · simp only [e]
    rw [List.drop_append, List.drop_drop]
  · rw [List.map_drop]
    exact hd.sublist (List.drop_sublist _ _)
  · intro x hx
    exact hf x (List.mem_of_mem_drop hx)

theorem fresh_nodup (l : L) (a n : Nat) : ((((List.range n).map (fun k => (a + k, l))).reverse).map (·.1)).Nodup := by
  rw [List.map_reverse, List.nodup_iff_pairwise_ne, List.pairwise_reverse, List.map_map]
  have : ((fun x : Nat × L => x.1) ∘ fun k => (a + k, l)) = (fun k => a + k) := rfl
  rw [this]
  refine List.pairwise_map.2 ?_
  exact List.Pairwise.imp (fun h => by omega) (List.pairwise_lt_range)

theorem applyTarget_grown (l : L) (st0 : List (Nat × L)) (n0 : Nat) : (ts : List (Tgt L)) → (n : Nat) → (st : List (Nat × L)) → (r : Nat × List (Nat × L)) →
    Grown st0 n0 (n, st) → applyTarget l ts n st = .ok r → Grown st0 n0 r
  | [], n, st, r, hg, h => by
    simp only [applyTarget, Except.ok.injEq] at h
    exact h ▸ hg
  | .bad :: ts, n, st, r, _, h => by simp [applyTarget] at h
  | .lex l' :: ts, n, st, r, hg, h => by
    simp only [applyTarget] at h
    refine applyTarget_grown l st0 n0 ts _ _ r ?_ h
    exact hg.push [(n, l')] (n + 1) (by simp only; omega) (by simp) (by intro x hx; simp at hx; subst hx; simp)
  | .int k :: ts, n, st, r, hg, h => by
    unfold applyTarget at h
    split at h
    · split at h
      · cases h
      · rename_i hl
        refine applyTarget_grown l st0 n0 ts _ _ r ?_ h
        exact hg.pop _ (by simp only; omega)
    · refine applyTarget_grown l st0 n0 ts _ _ r ?_ h
      refine hg.push _ _ (by simp only; omega) (fresh_nodup l n k.toNat) ?_
      intro x hx
      rw [List.mem_reverse, List.mem_map] at hx
      obtain ⟨j, hj, rfl⟩ := hx
      have := List.mem_range.1 hj
      simp only; omega

theorem applyTarget_error (l : L) : (ts : List (Tgt L)) → (n : Nat) → (st : List (Nat × L)) → (e : Outcome) → applyTarget l ts n st = .error e →
    e = .popped ∨ e = .badItem
  | [], _, _, e, h => by simp [applyTarget] at h
  | .bad :: _, _, _, e, h => by simp only [applyTarget, Except.error.injEq] at h; exact Or.inr h.symm
  | .lex _ :: ts, _, _, e, h => by simp only [applyTarget] at h; exact applyTarget_error l ts _ _ e h
  | .int _ :: ts, _, _, e, h => by
    unfold applyTarget at h
    split at h
    · split at h
      · simp only [Except.error.injEq] at h; exact Or.inl h.symm
      · exact applyTarget_error l ts _ _ e h
    · exact applyTarget_error l ts _ _ e h

/-- What holds during the loop. -/
structure Inv (ctx : Nat × L) (n : Nat) (st : List (Nat × L)) (circular : List Nat) : Prop where
  top : st.head? = some ctx
  nodup : (st.map (·.1)).Nodup
  below : ∀ x ∈ st, x.1 < n
  known : ∀ x ∈ circular, x < n

theorem addTo_mem (x : Nat) (s : List Nat) (y : Nat) : y ∈ addTo x s ↔ y = x ∨ y ∈ s := by
  unfold addTo
  split
  · constructor
    · exact Or.inr
    · rintro (rfl | h) <;> assumption
  · simp

theorem addTo_new {x : Nat} {s : List Nat} (h : x ∉ s) : (addTo x s).length = s.length + 1 := by
  unfold addTo; rw [if_neg h]; rfl

theorem addTo_old {x : Nat} {s : List Nat} (h : x ∈ s) : addTo x s = s := by
  unfold addTo; rw [if_pos h]

/-- One round: the new state is as good; the new context is another one that is not known yet, or the state has become
    smaller; or nothing has changed. -/
theorem round {ctx : Nat × L} {n : Nat} {st : List (Nat × L)} {circular : List Nat} (h : Inv ctx n st circular) {ts : List (Tgt L)}
    {r : Nat × List (Nat × L)} (hr : applyTarget ctx.2 ts n st = .ok r) :
    ∃ new, Inv new r.1 r.2 (addTo ctx.1 circular) ∧ (new.1 = ctx.1 → r.2 = st) ∧
      (new.1 ≠ ctx.1 → new.1 ∉ addTo ctx.1 circular ∨ r.2.length < st.length) := by
  have hne : st ≠ [] := by rintro rfl; cases h.top
  have hg : Grown st n r := applyTarget_grown ctx.2 st n ts n st r
    ⟨[], 0, rfl, List.length_pos_iff.2 hne, Nat.le_refl _, by simp, by simp⟩ hr
  obtain ⟨fresh, k, e, hk, hn, hd, hf⟩ := hg
  obtain ⟨st', hst⟩ : ∃ st', st = ctx :: st' := by
    cases hst : st with
    | nil => exact absurd hst hne
    | cons a st' => rw [hst] at h; have := h.top; simp at this; exact ⟨st', by rw [this]⟩
  have hctx : ctx.1 < n := h.below ctx (by rw [hst]; simp)
  have hknown : ∀ x ∈ addTo ctx.1 circular, x < n := by
    intro x hx
    rcases (addTo_mem _ _ _).1 hx with rfl | hx
    · exact hctx
    · exact h.known x hx
  have hnd : (r.2.map (·.1)).Nodup := by
    rw [e, List.map_append, List.nodup_append]
    refine ⟨hd, ?_, ?_⟩
    · rw [List.map_drop]; exact h.nodup.sublist (List.drop_sublist _ _)
    · intro a ha b hb hab
      obtain ⟨x, hx, rfl⟩ := List.mem_map.1 ha
      obtain ⟨y, hy, rfl⟩ := List.mem_map.1 hb
      have := hf x hx
      have := h.below y (List.mem_of_mem_drop hy)
      omega
  have hbelow : ∀ x ∈ r.2, x.1 < r.1 := by
    intro x hx
    rw [e] at hx
    rcases List.mem_append.1 hx with hx | hx
    · exact (hf x hx).2
    · have := h.below x (List.mem_of_mem_drop hx); omega
  cases fresh with
  | cons f fs =>
    refine ⟨f, ⟨by rw [e]; rfl, hnd, hbelow, fun x hx => by have := hknown x hx; omega⟩, ?_, ?_⟩
    · intro hc
      have := (hf f (by simp)).1
      omega
    · intro _
      refine Or.inl (fun hm => ?_)
      have := (hf f (by simp)).1
      have := hknown _ hm
      omega
  | nil =>
    rw [List.nil_append] at e
    cases k with
    | zero =>
      refine ⟨ctx, ⟨by rw [e, List.drop_zero]; exact h.top, hnd, hbelow, fun x hx => by have := hknown x hx; omega⟩, ?_, fun hc => absurd rfl hc⟩
      intro _; rw [e, List.drop_zero]
    | succ k =>
      have hget : (st.drop (k + 1)).head? = some st[k + 1] := by
        rw [List.head?_drop]; exact List.getElem?_eq_getElem hk
      refine ⟨st[k + 1], ⟨by rw [e]; exact hget, hnd, hbelow, fun x hx => by have := hknown x hx; omega⟩, ?_, ?_⟩
      · intro hc
        exfalso
        have hnod := h.nodup
        rw [hst, List.map_cons, List.nodup_cons] at hnod
        apply hnod.1
        rw [← hc]
        apply List.mem_map_of_mem
        have : st[k + 1] = st'[k]'(by rw [hst] at hk; simpa using hk) := by simp [hst]
        rw [this]
        exact List.getElem_mem _
      · intro _
        refine Or.inr ?_
        rw [e, List.length_drop]
        omega

/-- The loop ends. -/
theorem checkLoop_ends (dt : L → Option (List (Tgt L))) : (a b : Nat) → (ctx : Nat × L) → (target : List (Tgt L)) → (n : Nat) → (st : List (Nat × L)) →
    (circular : List Nat) → (warn : Bool) → Inv ctx n st circular → 101 - (addTo ctx.1 circular).length ≤ a → st.length ≤ b →
    ∃ fuel o, o ≠ Outcome.timeout ∧ ∀ m, fuel ≤ m → checkLoop dt m ctx target n st circular warn = o
  | a, b, ctx, target, n, st, circular, warn, hi, ha, hb => by
    cases hr : applyTarget ctx.2 target n st with
    | error e =>
      refine ⟨1, e, ?_, ?_⟩
      · intro h
        subst h
        rcases applyTarget_error ctx.2 target n st _ hr with h | h <;> cases h
      · intro m hm
        cases m with
        | zero => omega
        | succ m => simp only [checkLoop, hr]
    | ok r =>
      obtain ⟨new, h1, h2, h3⟩ := round hi hr
      obtain ⟨st', hst⟩ : ∃ st', r.2 = new :: st' := by
        cases hst : r.2 with
        | nil => have := h1.top; rw [hst] at this; cases this
        | cons x st' => have := h1.top; rw [hst] at this; simp at this; exact ⟨st', by rw [this]⟩
      have hr' : applyTarget ctx.2 target n st = .ok (r.1, new :: st') := by rw [hr, ← hst]
      by_cases hc : new.1 = ctx.1
      · refine ⟨1, .invalid, by simp, ?_⟩
        intro m hm
        cases m with
        | zero => omega
        | succ m => simp only [checkLoop, hr', hc, if_true]
      · by_cases hl : (addTo ctx.1 circular).length > 100
        · refine ⟨1, if (warn || decide (new.1 ∈ addTo ctx.1 circular)) then .circularWarning else .circularError, ?_, ?_⟩
          · split <;> simp
          · intro m hm
            cases m with
            | zero => omega
            | succ m => simp only [checkLoop, hr', hc, if_false, hl, if_true]
        · cases hd : dt new.2 with
          | none =>
            refine ⟨1, .fine, by simp, ?_⟩
            intro m hm
            cases m with
            | zero => omega
            | succ m => simp only [checkLoop, hr', hc, if_false, hl, hd]
          | some tg =>
            have hrec : ∃ fuel o, o ≠ Outcome.timeout ∧ ∀ m, fuel ≤ m →
                checkLoop dt m new tg r.1 (new :: st') (addTo ctx.1 circular) (warn || decide (new.1 ∈ addTo ctx.1 circular)) = o := by
              rw [hst] at h1
              by_cases hm : new.1 ∈ addTo ctx.1 circular
              · have hlt := (h3 hc).resolve_left (fun h => h hm)
                rw [hst] at hlt
                match b, hb with
                | 0, hb => omega
                | b + 1, hb =>
                  exact checkLoop_ends dt a b new tg r.1 (new :: st') _ _ h1 (by rw [addTo_old hm]; exact ha) (by omega)
              · match a, ha with
                | 0, ha => omega
                | a + 1, ha =>
                  exact checkLoop_ends dt a (new :: st').length new tg r.1 (new :: st') _ _ h1 (by rw [addTo_new hm]; omega) (Nat.le_refl _)
            obtain ⟨fuel, o, ho, h⟩ := hrec
            refine ⟨fuel + 1, o, ho, ?_⟩
            intro m hm
            cases m with
            | zero => omega
            | succ m =>
              simp only [checkLoop, hr', hc, if_false, hl, hd]
              exact h m (by omega)
  termination_by a b => (a, b)

theorem Ends.of_next {dt : L → Option (List (Tgt L))} {st st' : List L} (h : Ends dt st) (hn : next dt st = some st') : Ends dt st' := by
  cases h with
  | here h => rw [h] at hn; cases hn
  | step h1 h2 =>
    rw [hn] at h1
    injection h1 with h1
    exact h1 ▸ h2

/-- A stack that gives itself. -/
theorem not_ends {dt : L → Option (List (Tgt L))} {st : List L} (hn : next dt st = some st) : ¬ Ends dt st := by
  intro h
  induction h with
  | here h => rw [h] at hn; cases hn
  | step h1 _ ih =>
    rw [hn] at h1
    injection h1 with h1
    subst h1
    exact ih hn

/-- What the outcomes say about following the default targets. -/
theorem checkLoop_sound (dt : L → Option (List (Tgt L))) (base : List L) : (fuel : Nat) → (ctx : Nat × L) → (target : List (Tgt L)) → (n : Nat) →
    (st : List (Nat × L)) → (circular : List Nat) → (warn : Bool) → Inv ctx n st circular → dt ctx.2 = some target →
    (checkLoop dt fuel ctx target n st circular warn = .fine → Ends dt (st.map (·.2) ++ base)) ∧
    (checkLoop dt fuel ctx target n st circular warn = .invalid → ¬ Ends dt (st.map (·.2) ++ base))
  | 0, _, _, _, _, _, _, _, _ => by simp [checkLoop]
  | fuel + 1, ctx, target, n, st, circular, warn, hi, hd => by
    have hne : st ≠ [] := by rintro rfl; cases hi.top
    have hcons : ∃ st0, st = ctx :: st0 := by
      cases hst : st with
      | nil => exact absurd hst hne
      | cons a st' => rw [hst] at hi; have := hi.top; simp at this; exact ⟨st', by rw [this]⟩
    cases hr : applyTarget ctx.2 target n st with
    | error e =>
      have he : e ≠ .fine ∧ e ≠ .invalid := by
        rcases applyTarget_error ctx.2 target n st e hr with h | h <;> subst h <;> simp
      simp only [checkLoop, hr]
      exact ⟨fun h => absurd h he.1, fun h => absurd h he.2⟩
    | ok r =>
      obtain ⟨new, h1, h2, h3⟩ := round hi hr
      obtain ⟨st', hst⟩ : ∃ st', r.2 = new :: st' := by
        cases hst : r.2 with
        | nil => have := h1.top; rw [hst] at this; cases this
        | cons x st' => have := h1.top; rw [hst] at this; simp at this; exact ⟨st', by rw [this]⟩
      have hr' : applyTarget ctx.2 target n st = .ok (r.1, new :: st') := by rw [hr, ← hst]
      have hnext : next dt (st.map (·.2) ++ base) = some (r.2.map (·.2) ++ base) := by
        obtain ⟨st0, rfl⟩ := hcons
        rw [← (applyTarget_enter ctx.2 base target n _ r hne hr).2]
        simp only [List.map_cons, List.cons_append, next, hd, Option.map_some]
      by_cases hc : new.1 = ctx.1
      · simp only [checkLoop, hr', hc, if_true]
        refine ⟨by simp, fun _ => ?_⟩
        rw [h2 hc] at hnext
        exact not_ends hnext
      · by_cases hl : (addTo ctx.1 circular).length > 100
        · simp only [checkLoop, hr', hc, if_false, hl, if_true]
          constructor <;> (split <;> simp)
        · cases hdn : dt new.2 with
          | none =>
            simp only [checkLoop, hr', hc, if_false, hl, hdn]
            refine ⟨fun _ => ?_, by simp⟩
            refine .step hnext (.here ?_)
            rw [hst]
            simp [next, hdn]
          | some tg =>
            simp only [checkLoop, hr', hc, if_false, hl, hdn]
            rw [hst] at h1
            obtain ⟨i1, i2⟩ := checkLoop_sound dt base fuel new tg r.1 (new :: st') _ (warn || decide (new.1 ∈ addTo ctx.1 circular)) h1 hdn
            rw [hst] at hnext
            exact ⟨fun h => .step hnext (i1 h), fun h he => i2 h (he.of_next hnext)⟩

theorem inv_init (l : L) : Inv (0, l) 1 [(0, l)] [] := ⟨rfl, by simp, by simp, by simp⟩

end Parce.Val

import Verif.Spec.Formatter
import Verif.Lemmas.Util
import Verif.Props.Util
import Verif.Lemmas.Range
/-!
# Lemmas for formatting
-/
namespace Parce
variable {α L A F G : Type}

theorem inRg_append {a b : List (Rg F)} {p : Nat} {v : F} : InRg (a ++ b) p v ↔ InRg a p v ∨ InRg b p v := by
  simp only [InRg, List.mem_append]
  constructor
  · rintro ⟨r, h | h, g⟩
    · exact Or.inl ⟨r, h, g⟩
    · exact Or.inr ⟨r, h, g⟩
  · rintro (⟨r, h, g⟩ | ⟨r, h, g⟩)
    · exact ⟨r, Or.inl h, g⟩
    · exact ⟨r, Or.inr h, g⟩

theorem not_inRg_nil {p : Nat} {v : F} : ¬ InRg [] p v := by simp [InRg]

theorem inRg_single {r : Rg F} {p : Nat} {v : F} : InRg [r] p v ↔ r.pos ≤ p ∧ p < r.stop ∧ r.rest = v := by
  simp [InRg]

/-- Tokens one after the other, not before `a`, ending after `prev`. -/
def Chain' (a prev : Nat) : List (TokN α A × FCache A F) → Prop
  | [] => True
  | q :: ts => a ≤ q.1.pos ∧ q.1.pos < q.1.stop ∧ prev < q.1.stop ∧ Chain' q.1.stop q.1.stop ts

theorem chain_mem {ts : List (TokN α A × FCache A F)} : ∀ {a prev : Nat}, Chain' a prev ts → ∀ q ∈ ts, a ≤ q.1.pos := by
  induction ts with
  | nil => simp
  | cons x ts ih =>
    intro a prev h q hq
    obtain ⟨h1, h2, h3, h4⟩ := h
    rcases List.mem_cons.1 hq with rfl | hq
    · exact h1
    · have := ih h4 q hq; omega

theorem fmtOr {o b : Option F} : orBase o b = o.or b := by cases o <;> rfl

theorem streamU_asc (stop : Option Nat) (u : F) (ts : List (TokN α A × FCache A F)) : ∀ (a prev : Nat), a ≤ prev →
    Chain' a prev ts → Asc a (streamU stop u prev ts) := by
  induction ts with
  | nil =>
    intro a prev h1 _
    unfold streamU
    cases stop with
    | none => trivial
    | some e =>
      simp only
      split
      · exact ⟨h1, by simp only; omega, trivial⟩
      · trivial
  | cons q ts ih =>
    intro a prev h1 h
    obtain ⟨t, fc⟩ := q
    obtain ⟨g1, g2, g3, g4⟩ := h
    simp only at g1 g2 g3 g4
    have hrec := ih t.stop t.stop (Nat.le_refl _) g4
    unfold streamU
    rw [fmtOr]
    have htok : ∀ b, b ≤ t.pos → Asc b (yieldTok t ((fc.textformat t.act).or fc.base) ++ streamU stop u t.stop ts) := by
      intro b hb
      cases (fc.textformat t.act).or fc.base with
      | none => exact asc_mono hrec (by omega)
      | some f => exact ⟨hb, by simp only; omega, hrec⟩
    by_cases hg : t.pos > prev
    · rw [if_pos hg]
      exact ⟨h1, by simp only; omega, htok _ (Nat.le_refl _)⟩
    · rw [if_neg hg]
      exact htok a g1

theorem streamU_touch (start : Nat) (stop : Option Nat) (u : F) (ts : List (TokN α A × FCache A F)) :
    ∀ (a prev : Nat), start ≤ prev → Chain' a prev ts → (∀ q ∈ ts, ∀ e, stop = some e → q.1.pos < e) →
    ∀ r ∈ streamU stop u prev ts, start < r.stop ∧ ∀ e, stop = some e → r.pos < e := by
  induction ts with
  | nil =>
    intro a prev h1 _ _ r hr
    unfold streamU at hr
    cases stop with
    | none => simp at hr
    | some e =>
      simp only at hr
      split at hr
      · simp only [List.mem_singleton] at hr
        subst hr
        exact ⟨by simp only; omega, fun e' he => by cases he; assumption⟩
      · simp at hr
  | cons q ts ih =>
    intro a prev h1 h h2 r hr
    obtain ⟨t, fc⟩ := q
    obtain ⟨g1, g2, g3, g4⟩ := h
    simp only at g1 g2 g3 g4
    have ht := h2 (t, fc) (by simp)
    unfold streamU at hr
    rw [fmtOr] at hr
    rcases List.mem_append.1 hr with hr | hr
    · split at hr
      · simp only [List.mem_singleton] at hr
        subst hr
        exact ⟨by simp only; omega, fun e he => by have := ht e he; simp only at *; omega⟩
      · simp at hr
    · rcases List.mem_append.1 hr with hr | hr
      · cases hx : (fc.textformat t.act).or fc.base with
        | none => simp [hx, yieldTok] at hr
        | some f =>
          simp only [hx, yieldTok, List.mem_singleton] at hr
          subst hr
          exact ⟨by simp only; omega, ht⟩
      · exact ih t.stop t.stop (by omega) g4 (fun q hq => h2 q (by simp [hq])) r hr

theorem streamU_in (stop : Option Nat) (u : F) (ts : List (TokN α A × FCache A F)) : ∀ (a prev : Nat),
    a ≤ prev → Chain' a prev ts → ∀ p v, InRg (streamU stop u prev ts) p v ↔
      (∃ q ∈ ts, q.1.has p ∧ (q.2.textformat q.1.act).or q.2.base = some v) ∨
      (v = u ∧ prev ≤ p ∧ (∀ q ∈ ts, ¬ q.1.has p) ∧ ((∃ q ∈ ts, p < q.1.pos) ∨ ∃ e, stop = some e ∧ p < e)) := by
  induction ts with
  | nil =>
    intro a prev _ _ p v
    unfold streamU
    cases stop with
    | none => simp [InRg]
    | some e =>
      simp only
      split
      · rw [inRg_single]
        simp
        constructor
        · rintro ⟨h1, h2, h3⟩; exact ⟨h3.symm, h1, h2⟩
        · rintro ⟨h1, h2, h3⟩; exact ⟨h2, h3, h1.symm⟩
      · constructor
        · intro h; exact absurd h not_inRg_nil
        · simp
          omega
  | cons q ts ih =>
    intro a prev h1 h p v
    obtain ⟨t, fc⟩ := q
    obtain ⟨g1, g2, g3, g4⟩ := h
    simp only at g1 g2 g3 g4
    have hrec := ih t.stop t.stop (Nat.le_refl _) g4 p v
    have hmem := chain_mem g4
    unfold streamU
    rw [fmtOr, inRg_append, inRg_append, hrec]
    have hgap : InRg (if t.pos > prev then [(⟨prev, t.pos, u⟩ : Rg F)] else []) p v ↔ prev ≤ p ∧ p < t.pos ∧ v = u := by
      split
      · rw [inRg_single]; simp only [eq_comm]
      · constructor
        · intro h; exact absurd h not_inRg_nil
        · omega
    have htok : InRg (yieldTok t ((fc.textformat t.act).or fc.base)) p v ↔
        t.has p ∧ (fc.textformat t.act).or fc.base = some v := by
      cases (fc.textformat t.act).or fc.base with
      | none => simp [yieldTok, InRg]
      | some f => rw [yieldTok, inRg_single]; simp [TokN.has, and_assoc]
    rw [hgap, htok]
    simp only [List.mem_cons, exists_eq_or_imp, forall_eq_or_imp]
    constructor
    · rintro (⟨q1, q2, q3⟩ | ⟨q1, q2⟩ | q | ⟨q1, q2, q3, q4⟩)
      · refine Or.inr ⟨q3, q1, ⟨fun hc => by have := hc.1; omega, fun q hq hc => ?_⟩, Or.inl (Or.inl q2)⟩
        have := hmem q hq
        have := hc.1
        omega
      · exact Or.inl (Or.inl ⟨q1, q2⟩)
      · exact Or.inl (Or.inr q)
      · refine Or.inr ⟨q1, by omega, ⟨fun hc => by have := hc.2; omega, q3⟩, ?_⟩
        rcases q4 with q4 | q4
        · exact Or.inl (Or.inr q4)
        · exact Or.inr q4
    · rintro ((q | q) | ⟨q1, q2, ⟨q3, q4⟩, q5⟩)
      · exact Or.inr (Or.inl q)
      · exact Or.inr (Or.inr (Or.inl q))
      · by_cases hp : p < t.pos
        · exact Or.inl ⟨q2, hp, q1⟩
        · have hp2 : t.stop ≤ p := by
            apply Nat.le_of_not_lt
            intro hc
            exact q3 ⟨by omega, hc⟩
          refine Or.inr (Or.inr (Or.inr ⟨q1, hp2, q4, ?_⟩))
          rcases q5 with (q5 | q5) | q5
          · omega
          · exact Or.inl q5
          · exact Or.inr q5

theorem streamB_asc (stop : Option Nat) (last : FCache A F) (ts : List (TokN α A × FCache A F)) : ∀ (a prev : Nat), a ≤ prev →
    Chain' a prev ts → Asc a (streamB stop last prev ts) := by
  induction ts with
  | nil =>
    intro a prev h1 _
    unfold streamB
    split
    · split
      · exact ⟨h1, by simp only; omega, trivial⟩
      · trivial
    · trivial
  | cons q ts ih =>
    intro a prev h1 h
    obtain ⟨t, fc⟩ := q
    obtain ⟨g1, g2, g3, g4⟩ := h
    simp only at g1 g2 g3 g4
    have hrec := ih t.stop t.stop (Nat.le_refl _) g4
    unfold streamB
    cases fc.textformat t.act with
    | none => exact asc_mono hrec (by omega)
    | some f =>
      cases fc.base with
      | none => exact ⟨g1, by simp only; omega, hrec⟩
      | some b =>
        simp only
        split
        · exact ⟨h1, by simp only; omega, Nat.le_refl _, by simp only; omega, hrec⟩
        · exact ⟨g1, by simp only; omega, hrec⟩

theorem streamB_touch (start : Nat) (stop : Option Nat) (last : FCache A F) (ts : List (TokN α A × FCache A F)) :
    ∀ (a prev : Nat), start ≤ prev → Chain' a prev ts → (∀ q ∈ ts, ∀ e, stop = some e → q.1.pos < e) →
    ∀ r ∈ streamB stop last prev ts, start < r.stop ∧ ∀ e, stop = some e → r.pos < e := by
  induction ts with
  | nil =>
    intro a prev h1 _ _ r hr
    unfold streamB at hr
    split at hr
    · split at hr
      · simp only [List.mem_singleton] at hr
        subst hr
        exact ⟨by simp only; omega, fun e' he => by cases he; assumption⟩
      · simp at hr
    · simp at hr
  | cons q ts ih =>
    intro a prev h1 h h2 r hr
    obtain ⟨t, fc⟩ := q
    obtain ⟨g1, g2, g3, g4⟩ := h
    simp only at g1 g2 g3 g4
    have ht := h2 (t, fc) (by simp)
    have hrec := ih t.stop t.stop (by omega) g4 (fun q hq => h2 q (by simp [hq])) r
    unfold streamB at hr
    rcases List.mem_append.1 hr with hr | hr
    · cases hx : fc.textformat t.act with
      | none => simp [hx] at hr
      | some f =>
        simp only [hx, List.mem_append, List.mem_singleton] at hr
        rcases hr with hr | rfl
        · split at hr
          · split at hr
            · simp only [List.mem_singleton] at hr
              subst hr
              exact ⟨by simp only; omega, fun e he => by have := ht e he; simp only at *; omega⟩
            · simp at hr
          · simp at hr
        · exact ⟨by simp only; omega, ht⟩
    · exact hrec hr

theorem streamB_in (stop : Option Nat) (last : FCache A F) (ts : List (TokN α A × FCache A F)) : ∀ (a prev : Nat),
    a ≤ prev → Chain' a prev ts → ∀ p v,
      ((∃ q ∈ ts, q.1.has p ∧ q.2.textformat q.1.act = some v) → InRg (streamB stop last prev ts) p v) ∧
      (InRg (streamB stop last prev ts) p v → (∃ q ∈ ts, q.1.has p ∧ q.2.textformat q.1.act = some v) ∨
        (prev ≤ p ∧ (∀ q ∈ ts, ¬ q.1.has p) ∧ (last.base = some v ∨ ∃ q ∈ ts, q.2.base = some v))) := by
  induction ts with
  | nil =>
    intro a prev _ _ p v
    refine ⟨by simp, ?_⟩
    unfold streamB
    split
    · next b e hb =>
      split
      · rw [inRg_single]
        rintro ⟨h1, h2, h3⟩
        simp only at h3
        exact Or.inr ⟨h1, by simp, Or.inl (by rw [hb, h3])⟩
      · intro h; exact absurd h not_inRg_nil
    · intro h; exact absurd h not_inRg_nil
  | cons q ts ih =>
    intro a prev h1 h p v
    obtain ⟨t, fc⟩ := q
    obtain ⟨g1, g2, g3, g4⟩ := h
    simp only at g1 g2 g3 g4
    obtain ⟨r1, r2⟩ := ih t.stop t.stop (Nat.le_refl _) g4 p v
    have hmem := chain_mem g4
    unfold streamB
    rw [inRg_append]
    simp only [List.mem_cons, exists_eq_or_imp, forall_eq_or_imp]
    refine ⟨?_, ?_⟩
    · rintro (⟨q1, q2⟩ | q)
      · left
        rw [q2]
        simp only
        rw [inRg_append, inRg_single]
        exact Or.inr ⟨q1.1, q1.2, rfl⟩
      · exact Or.inr (r1 q)
    · rintro (hl | hr)
      · cases hx : fc.textformat t.act with
        | none => rw [hx] at hl; exact absurd hl not_inRg_nil
        | some f =>
          rw [hx] at hl
          simp only at hl
          rw [inRg_append, inRg_single] at hl
          rcases hl with hl | ⟨h3, h4, h5⟩
          · split at hl
            · next b hb =>
              split at hl
              · rw [inRg_single] at hl
                obtain ⟨h3, h4, h5⟩ := hl
                simp only at h3 h4 h5
                refine Or.inr ⟨h3, ⟨fun hc => by have := hc.1; omega, fun q hq hc => ?_⟩, Or.inr (Or.inl (by rw [hb, h5]))⟩
                have := hmem q hq
                have := hc.1
                omega
              · exact absurd hl not_inRg_nil
            · exact absurd hl not_inRg_nil
          · simp only at h5
            exact Or.inl (Or.inl ⟨⟨h3, h4⟩, by rw [h5]⟩)
      · rcases r2 hr with q | ⟨q1, q2, q3⟩
        · exact Or.inl (Or.inr q)
        · refine Or.inr ⟨by omega, ⟨fun hc => by have := hc.2; omega, q2⟩, ?_⟩
          rcases q3 with q3 | q3
          · exact Or.inl q3
          · exact Or.inr (Or.inr q3)

theorem mergeLoop_le [DecidableEq F] (e : Nat) (rs : List (Rg F)) : ∀ (pos stop : Nat) (rest : F), stop ≤ e →
    (∀ r ∈ rs, r.stop ≤ e) → ∀ r ∈ mergeLoop pos stop rest rs, r.stop ≤ e := by
  induction rs with
  | nil => intro pos stop rest h _ r hr; simp only [mergeLoop, List.mem_singleton] at hr; subst hr; exact h
  | cons n s ih =>
    intro pos stop rest h h2 r hr
    unfold mergeLoop at hr
    have hn := h2 n (by simp)
    have hs := fun r hr => h2 r (List.mem_cons_of_mem _ hr)
    split at hr
    · rcases List.mem_cons.1 hr with rfl | hr
      · exact h
      · exact ih _ _ _ hn hs r hr
    · exact ih _ _ _ hn hs r hr

theorem mergeAdjacent_le [DecidableEq F] (e : Nat) (rs : List (Rg F)) (h : ∀ r ∈ rs, r.stop ≤ e) :
    ∀ r ∈ mergeAdjacent rs, r.stop ≤ e := by
  cases rs with
  | nil => simp [mergeAdjacent]
  | cons r rs => exact mergeLoop_le e rs _ _ _ (h r (by simp)) (fun x hx => h x (by simp [hx]))

theorem slice_glue (t : List α) {a b c : Nat} (h1 : a ≤ b) (h2 : b ≤ c) : slice t a b ++ slice t b c = slice t a c := by
  unfold slice
  apply List.ext_getElem?
  intro i
  by_cases h : i < ((t.take b).drop a).length
  · rw [List.getElem?_append_left h]
    simp only [List.length_drop, List.length_take] at h
    simp only [List.getElem?_drop]
    rw [List.getElem?_take_of_lt (by omega), List.getElem?_take_of_lt (by omega)]
  · rw [List.getElem?_append_right (by omega)]
    simp only [List.length_drop, List.length_take] at h ⊢
    simp only [List.getElem?_drop]
    by_cases hb : b ≤ t.length
    · rw [show b + (i - (min b t.length - a)) = a + i from by omega]
    · rw [List.getElem?_eq_none (by simp; omega), List.getElem?_eq_none (by simp; omega)]

theorem slice_ge (t : List α) {a b : Nat} (h : t.length ≤ b) : slice t a b = t.drop a := by
  simp [slice, List.take_of_length_le h]

/-- Ranges one after the other give the text back. -/
theorem fmtTextLoop_text (text : List α) (stop : Option Nat) (rs : List (Rg F)) : ∀ (prev : Nat), Asc prev rs →
    (∀ e, stop = some e → prev ≤ e ∧ ∀ r ∈ rs, r.stop ≤ e) →
    (fmtTextLoop text stop prev rs).flatMap (·.1) =
      textWindow text prev stop := by
  induction rs with
  | nil =>
    intro prev _ h2
    unfold fmtTextLoop textWindow
    cases stop with
    | none =>
      simp only [Option.getD_none]
      split
      · simp [slice]
      · rw [List.drop_eq_nil_of_le (by omega)]; rfl
    | some e =>
      simp only [Option.getD_some]
      split
      · simp
      · simp [slice]; omega
  | cons r rs ih =>
    intro prev h1 h2
    obtain ⟨g1, g2, g3⟩ := h1
    have hrec := ih r.stop g3 (fun e he => ⟨(h2 e he).2 r (by simp), fun x hx => (h2 e he).2 x (by simp [hx])⟩)
    unfold fmtTextLoop
    simp only [List.flatMap_append, List.flatMap_cons]
    rw [hrec]
    have hgap : (if r.pos > prev then [(slice text prev r.pos, (none : Option F))] else []).flatMap (·.1) = slice text prev r.pos := by
      split
      · simp
      · simp [slice]; omega
    rw [hgap, ← List.append_assoc, slice_glue text g1 g2]
    unfold textWindow
    cases stop with
    | none =>
      simp only
      rw [← slice_ge text (a := r.stop) (b := max text.length r.stop) (by omega), slice_glue text (by omega) (by omega),
        slice_ge text (by omega)]
    | some e =>
      simp only
      exact slice_glue text (by omega) ((h2 e rfl).2 r (by simp))

theorem chain_of_ordered (start : Nat) {ts : List (TokN α A × FCache A F)} (ho : Ordered (ts.map (·.1))) : ∀ (a prev : Nat),
    (∀ q ∈ ts, a ≤ q.1.pos ∧ prev < q.1.stop) → Chain' a prev ts := by
  induction ts with
  | nil => intros; trivial
  | cons q ts ih =>
    intro a prev h
    obtain ⟨h1, h2⟩ := ho
    simp only [List.map_cons, List.pairwise_cons] at h1 h2
    have hne := List.length_pos_iff.2 (h1 q.1 (by simp))
    have hq := h q (by simp)
    refine ⟨hq.1, by simp only [TokN.stop]; omega, hq.2, ih ⟨fun t ht => h1 t (by simp [ht]), h2.2⟩ _ _ ?_⟩
    intro x hx
    have := h2.1 x.1 (List.mem_map_of_mem hx)
    have := List.length_pos_iff.2 (h1 x.1 (by simp only [List.mem_cons]; exact Or.inr (List.mem_map_of_mem hx)))
    refine ⟨by omega, ?_⟩
    have : x.1.stop = x.1.pos + x.1.text.length := rfl
    omega

/-- The ranges made of a list of tokens that all touch the window. -/
theorem stream_core [DecidableEq F] (start : Nat) (stop : Option Nat) (hse : ∀ e, stop = some e → start < e)
    (unparsed : Option F) (last : FCache A F) (ts : List (TokN α A × FCache A F)) (ho : Ordered (ts.map (·.1)))
    (ht : ∀ q ∈ ts, start < q.1.stop ∧ ∀ e, stop = some e → q.1.pos < e) (rs : List (Rg F))
    (hrs : rs = mergeAdjacent (fixBoundaries start stop (streamOf unparsed last start stop ts))) :
    Asc start rs ∧ Merged rs ∧ (∀ e, stop = some e → ∀ r ∈ rs, r.stop ≤ e) ∧
    (∀ q ∈ ts, ∀ p, q.1.has p → inWindow start stop p → ∀ v, InRg rs p v ↔ tokFormat unparsed q.2 q.1.act = some v) ∧
    (∀ p v, InRg rs p v → inWindow start stop p) ∧
    (∀ p v, (∀ q ∈ ts, ¬ q.1.has p) → InRg rs p v → unparsed = some v ∨
      (unparsed = none ∧ (last.base = some v ∨ ∃ q ∈ ts, q.2.base = some v))) ∧
    (∀ p u, unparsed = some u → inWindow start stop p → (∀ q ∈ ts, ¬ q.1.has p) →
      ((∃ q ∈ ts, p < q.1.pos) ∨ stop ≠ none) → InRg rs p u) := by
  have hch : Chain' 0 start ts := chain_of_ordered start ho 0 start (fun q hq => ⟨Nat.zero_le _, (ht q hq).1⟩)
  have huniq : ∀ q ∈ ts, ∀ q' ∈ ts, ∀ p, q.1.has p → q'.1.has p → q = q' := by
    intro q hq q' hq' p h1 h2
    have hp := ho.2
    rw [List.pairwise_map] at hp
    obtain ⟨i, hi, rfl⟩ := List.mem_iff_getElem.1 hq
    obtain ⟨j, hj, rfl⟩ := List.mem_iff_getElem.1 hq'
    have := List.pairwise_iff_getElem.1 hp
    rcases Nat.lt_trichotomy i j with h | rfl | h
    · have := this i j hi hj h; have := h1.2; have := h2.1; omega
    · rfl
    · have := this j i hj hi h; have := h2.2; have := h1.1; omega
  generalize hs : streamOf unparsed last start stop ts = s at hrs
  have hasc : Asc 0 s := by
    subst hs
    cases unparsed with
    | none => exact streamB_asc stop last ts 0 start (Nat.zero_le _) hch
    | some u => exact streamU_asc stop u ts 0 start (Nat.zero_le _) hch
  have htouch : ∀ r ∈ s, start < r.stop ∧ ∀ e, stop = some e → r.pos < e := by
    subst hs
    cases unparsed with
    | none => exact streamB_touch start stop last ts 0 start (Nat.le_refl _) hch (fun q hq => (ht q hq).2)
    | some u => exact streamU_touch start stop u ts 0 start (Nat.le_refl _) hch (fun q hq => (ht q hq).2)
  obtain ⟨f1, f2, f3⟩ := C38_fix start stop s hasc htouch hse
  obtain ⟨m1, m2, m3⟩ := C38_merge start _ f1
  have hin : ∀ p v, InRg rs p v ↔ InRg s p v ∧ inWindow start stop p := by
    intro p v
    rw [hrs, m1, f3]
    rfl
  rw [← hrs] at m2 m3
  refine ⟨m2, m3, ?_, ?_, fun p v h => ((hin p v).1 h).2, ?_, ?_⟩
  · intro e he r hr
    rw [hrs] at hr
    exact mergeAdjacent_le e _ (f2 e he) r hr
  · intro q hq p hp hw v
    rw [hin]
    subst hs
    cases unparsed with
    | none =>
      obtain ⟨b1, b2⟩ := streamB_in stop last ts 0 start (Nat.zero_le _) hch p v
      simp only [tokFormat, Option.isSome_none, Bool.false_eq_true, if_false]
      constructor
      · rintro ⟨h, _⟩
        rcases b2 h with ⟨q', h1, h2, h3⟩ | ⟨_, h2, _⟩
        · rw [huniq q hq q' h1 p hp h2]; exact h3
        · exact absurd hp (h2 q hq)
      · intro h
        exact ⟨b1 ⟨q, hq, hp, h⟩, hw⟩
    | some u =>
      have b := streamU_in stop u ts 0 start (Nat.zero_le _) hch p v
      simp only [tokFormat, Option.isSome_some, if_true, streamOf]
      rw [b]
      constructor
      · rintro ⟨⟨q', h1, h2, h3⟩ | ⟨_, _, h2, _⟩, _⟩
        · rw [huniq q hq q' h1 p hp h2]; exact h3
        · exact absurd hp (h2 q hq)
      · intro h
        exact ⟨Or.inl ⟨q, hq, hp, h⟩, hw⟩
  · intro p v hno h
    have h := ((hin p v).1 h).1
    subst hs
    cases unparsed with
    | none =>
      rcases (streamB_in stop last ts 0 start (Nat.zero_le _) hch p v).2 h with ⟨q, h1, h2, _⟩ | ⟨_, _, h3⟩
      · exact absurd h2 (hno q h1)
      · exact Or.inr ⟨rfl, h3⟩
    | some u =>
      rcases (streamU_in stop u ts 0 start (Nat.zero_le _) hch p v).1 h with ⟨q, h1, h2, _⟩ | ⟨h3, _⟩
      · exact absurd h2 (hno q h1)
      · exact Or.inl (by rw [h3])
  · intro p u hu hw hno hex
    subst hu
    rw [hin]
    subst hs
    refine ⟨(streamU_in stop u ts 0 start (Nat.zero_le _) hch p u).2 (Or.inr ⟨rfl, hw.1, hno, ?_⟩), hw⟩
    rcases hex with hex | hex
    · exact Or.inl hex
    · obtain ⟨e, he⟩ := Option.ne_none_iff_exists'.1 hex
      exact Or.inr ⟨e, he, hw.2 e he⟩

/-! ### The tokens and their caches -/

theorem withFc_toks [DecidableEq G] (c : FCaches A F G) (langOf : L → G) (d : FCache A F) (fc : FCache A F)
    (ts : List (TokN α A)) : withFc c langOf d fc (ts.map FEv.tok) = (ts.map (fun t => (t, fc)), fc) := by
  induction ts with
  | nil => rfl
  | cons t ts ih => simp only [List.map_cons, withFc, ih]

mutual
theorem homes_snd (l : L) : ∀ n : Node α L A, (n.homes l).map (·.2) = n.toks
  | .tok t => rfl
  | .ctx m cs => by rw [Node.homes, Node.toks, homesL_snd m cs]
theorem homesL_snd (l : L) : ∀ ns : List (Node α L A), (homesL l ns).map (·.2) = toksL ns
  | [] => rfl
  | n :: ns => by rw [homesL, toksL, List.map_append, homes_snd l n, homesL_snd l ns]
end

theorem homesL_drop (l : L) {cs : List (Node α L A)} {i : Nat} {n : Node α L A} (h : cs[i]? = some n) :
    homesL l (cs.drop i) = n.homes l ++ homesL l (cs.drop (i + 1)) := by
  obtain ⟨h1, h2⟩ := List.getElem?_eq_some_iff.1 h
  rw [List.drop_eq_getElem_cons h1, h2, homesL]

theorem sizeL_drop {cs : List (Node α L A)} {i : Nat} {n : Node α L A} (h : cs[i]? = some n) :
    sizeL (cs.drop i) = n.size + sizeL (cs.drop (i + 1)) := by
  obtain ⟨h1, h2⟩ := List.getElem?_eq_some_iff.1 h
  rw [List.drop_eq_getElem_cons h1, h2, sizeL]

/-- Following languages through whole contexts. -/
theorem walkLoop_spec [DecidableEq G] (c : FCaches A F G) (langOf : L → G) (d : FCache A F) : ∀ (fuel : Nat) (l : L)
    (cs : List (Node α L A)) (i : Nat) (stack : List (Nat × L × List (Node α L A))),
    2 * sizeL (cs.drop i) + (stack.map (fun e => 2 * sizeL (e.2.2.drop (e.1 + 1)) + 1)).sum < fuel →
    (withFc c langOf d (c.get d (langOf l)) (walkLoop fuel (l, cs) cs i stack)).1 =
      (homesL l (cs.drop i) ++ stack.flatMap (fun e => homesL e.2.1 (e.2.2.drop (e.1 + 1)))).map
        (fun q => (q.2, c.get d (langOf q.1))) := by
  intro fuel
  induction fuel with
  | zero => intro l cs i stack h; omega
  | succ fuel ih =>
    intro l cs i stack h
    unfold walkLoop
    cases hn : cs[i]? with
    | none =>
      have hd : cs.drop i = [] := List.drop_eq_nil_of_le (List.getElem?_eq_none_iff.1 hn)
      cases stack with
      | nil => simp [hd, homesL, withFc]
      | cons e stack =>
        obtain ⟨j, m, ds⟩ := e
        simp only [withFc]
        rw [ih m ds (j + 1) stack (by simp only [List.map_cons, List.sum_cons] at h; omega)]
        simp [hd, homesL]
    | some n =>
      have hs := sizeL_drop hn
      cases n with
      | tok t =>
        simp only [withFc]
        rw [ih l cs (i + 1) stack (by simp only [Node.size] at hs; omega), homesL_drop l hn]
        simp [Node.homes]
      | ctx m ds =>
        simp only [withFc]
        rw [ih m ds 0 ((i, l, cs) :: stack) (by
          simp only [Node.size] at hs
          simp only [List.drop_zero, List.map_cons, List.sum_cons]; omega), homesL_drop l hn]
        simp [Node.homes]

/-! ### Escaping -/

/-- One character escaped. -/
def esc1 (c : Char) : List Char :=
  if c = '&' then ['&', 'a', 'm', 'p', ';'] else if c = '<' then ['&', 'l', 't', ';']
  else if c = '>' then ['&', 'g', 't', ';'] else [c]

theorem escape_eq (t : List Char) : escape t = t.flatMap esc1 := by
  induction t with
  | nil => rfl
  | cons c t ih =>
    rw [List.flatMap_cons, ← ih]
    unfold escape replaceChar
    simp only [List.flatMap_cons, List.flatMap_append]
    congr 1
    unfold esc1
    by_cases h1 : c = '&'
    · simp [h1]
    · by_cases h2 : c = '<'
      · simp [h2]
      · by_cases h3 : c = '>'
        · simp [h3]
        · simp [h1, h2, h3]

/-- The same for attributes. -/
def esc2 (c : Char) : List Char := if c = '"' then ['&', 'q', 'u', 'o', 't', ';'] else esc1 c

theorem attrescape_eq (t : List Char) : attrescape t = t.flatMap esc2 := by
  unfold attrescape
  rw [escape_eq]
  induction t with
  | nil => rfl
  | cons c t ih =>
    rw [List.flatMap_cons, List.flatMap_cons, ← ih]
    unfold replaceChar
    rw [List.flatMap_append]
    congr 1
    unfold esc2 esc1
    by_cases h0 : c = '"'
    · simp [h0]
    · by_cases h1 : c = '&'
      · simp [h1]
      · by_cases h2 : c = '<'
        · simp [h2]
        · by_cases h3 : c = '>'
          · simp [h3]
          · simp [h0, h1, h2, h3]

theorem unescape_cons {c : Char} {r : List Char} (h : c ≠ '&') : unescape (c :: r) = c :: unescape r := by
  rw [unescape]
  all_goals (intros; simp_all)

theorem unescape_esc1 (c : Char) (r : List Char) : unescape (esc1 c ++ r) = c :: unescape r := by
  unfold esc1
  by_cases h1 : c = '&'
  · simp [h1, unescape]
  · by_cases h2 : c = '<'
    · simp [h2, unescape]
    · by_cases h3 : c = '>'
      · simp [h3, unescape]
      · simp only [h1, h2, h3, if_false, List.cons_append, List.nil_append]
        exact unescape_cons h1

theorem unescape_esc2 (c : Char) (r : List Char) : unescape (esc2 c ++ r) = c :: unescape r := by
  unfold esc2
  by_cases h0 : c = '"'
  · simp [h0, unescape]
  · simp only [h0, if_false]
    exact unescape_esc1 c r

theorem unescape_escape_append (t r : List Char) : unescape (escape t ++ r) = t ++ unescape r := by
  rw [escape_eq]
  induction t with
  | nil => rfl
  | cons c t ih => rw [List.flatMap_cons, List.append_assoc, unescape_esc1, ih]; rfl

theorem stripTags_false {s r : List Char} (h : '<' ∉ s) : stripTags false (s ++ r) = s ++ stripTags false r := by
  induction s with
  | nil => rfl
  | cons c s ih =>
    simp only [List.mem_cons, not_or] at h
    rw [List.cons_append, stripTags, if_neg (fun hc => h.1 hc.symm), ih h.2]
    rfl

theorem stripTags_true {s r : List Char} (h : '>' ∉ s) : stripTags true (s ++ '>' :: r) = stripTags false r := by
  induction s with
  | nil => simp [stripTags]
  | cons c s ih =>
    simp only [List.mem_cons, not_or] at h
    rw [List.cons_append, stripTags, if_neg (fun hc => h.1 hc.symm), ih h.2]

theorem escape_no (t : List Char) : '<' ∉ escape t ∧ '>' ∉ escape t := by
  rw [escape_eq]
  simp only [List.mem_flatMap, not_exists, not_and]
  have : ∀ c, '<' ∉ esc1 c ∧ '>' ∉ esc1 c := by
    intro c
    unfold esc1
    by_cases h1 : c = '&'
    · simp [h1]
    · by_cases h2 : c = '<'
      · simp [h2]
      · by_cases h3 : c = '>'
        · simp [h3]
        · simp only [h1, h2, h3, if_false, List.mem_singleton]
          exact ⟨fun h => h2 h.symm, fun h => h3 h.symm⟩
  exact ⟨fun c _ => (this c).1, fun c _ => (this c).2⟩

theorem attrescape_no (t : List Char) : '<' ∉ attrescape t ∧ '>' ∉ attrescape t ∧ '"' ∉ attrescape t := by
  have h := escape_no t
  unfold attrescape replaceChar
  simp only [List.mem_flatMap, not_exists, not_and]
  refine ⟨fun c hc hm => ?_, fun c hc hm => ?_, fun c hc hm => ?_⟩
  all_goals
    split at hm
    · simp at hm
    · simp only [List.mem_singleton] at hm
      subst hm
      first
      | exact h.1 hc
      | exact h.2 hc
      | contradiction

/-- A piece in which only the first character can be `&`, and then the piece is an entity. -/
def EntOk (ents : List (List Char)) (x : List Char) : Prop :=
  ∀ i, x[i]? = some '&' → i = 0 ∧ x ∈ ents

theorem esc1_ok (c : Char) : EntOk ["&amp;".toList, "&lt;".toList, "&gt;".toList] (esc1 c) := by
  unfold esc1 EntOk
  intro i
  by_cases h1 : c = '&'
  · simp only [h1, if_true]
    match i with
    | 0 => simp
    | 1 | 2 | 3 | 4 => simp
    | k + 5 => simp
  · by_cases h2 : c = '<'
    · simp only [h2]
      match i with
      | 0 => simp
      | 1 | 2 | 3 | 4 => simp
      | k + 5 => simp
    · by_cases h3 : c = '>'
      · simp only [h3]
        match i with
        | 0 => simp
        | 1 | 2 | 3 | 4 => simp
        | k + 5 => simp
      · simp only [h1, h2, h3, if_false]
        match i with
        | 0 => simp [h1]
        | k + 1 => simp

theorem esc2_ok (c : Char) : EntOk ["&amp;".toList, "&lt;".toList, "&gt;".toList, "&quot;".toList] (esc2 c) := by
  unfold esc2
  by_cases h : c = '"'
  · unfold EntOk
    intro i
    simp only [h, if_true]
    match i with
    | 0 => simp
    | 1 | 2 | 3 | 4 | 5 => simp
    | k + 6 => simp
  · simp only [h, if_false]
    intro i hi
    obtain ⟨g1, g2⟩ := esc1_ok c i hi
    refine ⟨g1, ?_⟩
    simp only [List.mem_cons, List.not_mem_nil, or_false] at g2 ⊢
    rcases g2 with g | g | g
    · exact Or.inl g
    · exact Or.inr (Or.inl g)
    · exact Or.inr (Or.inr (Or.inl g))

theorem ampOk_flatMap {ents : List (List Char)} {f : Char → List Char} (h : ∀ c, EntOk ents (f c)) (t : List Char) :
    AmpOk ents (t.flatMap f) := by
  induction t with
  | nil => intro i hi; simp at hi
  | cons c t ih =>
    intro i hi
    rw [List.flatMap_cons] at hi ⊢
    by_cases hl : i < (f c).length
    · rw [List.getElem?_append_left hl] at hi
      obtain ⟨rfl, g⟩ := h c i hi
      exact ⟨f c, g, by simp⟩
    · rw [List.getElem?_append_right (by omega)] at hi
      obtain ⟨e, g1, g2⟩ := ih _ hi
      refine ⟨e, g1, ?_⟩
      rw [List.drop_append, List.drop_eq_nil_of_le (by omega)]
      simpa using g2

theorem strip_span (attr : List Char) (ha : '<' ∉ attr ∧ '>' ∉ attr) (f : List Char) (hf : '>' ∉ f) (t r x : List Char)
    (h : stripTags false r = x) : stripTags false (htmlSpan attr f (escape t) ++ r) = escape t ++ x := by
  have e1 : htmlSpan attr f (escape t) ++ r = [] ++ '<' :: (("span ".toList ++ attr ++ "=\"".toList ++ f ++ "\"".toList) ++ '>' ::
      (escape t ++ '<' :: ("/span".toList ++ '>' :: r))) := by
    simp [htmlSpan]
  rw [e1, stripTags_false (by simp), List.nil_append, stripTags, if_pos rfl, stripTags_true (by simp [ha.2, hf]),
    stripTags_false (escape_no t).1, stripTags, if_pos rfl, stripTags_true (by simp), h]

end Parce

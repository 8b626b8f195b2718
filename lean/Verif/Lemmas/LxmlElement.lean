import Verif.Model.LxmlElement
import Verif.Lemmas.Css

namespace Parce.Lx

open Parce.Css

variable {α : Type} [DecidableEq α]

/-- The relation of a result for wrappers with the result for elements. -/
def Agrees (up : Prop) (x : Except LxErr Bool) (b : Bool) : Prop :=
  x = .ok b ∨ (x = .error .ofNone ∧ b = false ∧ up)

theorem anc_agrees (env : Env α) (root : XEl α) (c : Compound α) : (f g : Nat) → (p : List Nat) →
    p.length < f → p.length + 1 < g →
    (∃ q, ancLoop (fun q => matchSelector env root.el q c) f p = some q ∧
      lxAnc (lxMatchSelector env root c) g (some p) = .ok (some q) ∧ q.length ≤ p.length) ∨
    (ancLoop (fun q => matchSelector env root.el q c) f p = none ∧
      lxAnc (lxMatchSelector env root c) g (some p) = .error .ofNone)
  | 0, _, _, h, _ => absurd h (Nat.not_lt_zero _)
  | _ + 1, 0, _, _, h => absurd h (Nat.not_lt_zero _)
  | f + 1, g + 1, p, hf, hg => by
    unfold ancLoop lxAnc
    simp only [lxParent]
    by_cases hp : p = []
    · right
      simp [getParent, hp, lxMatchSelector]
    · simp only [getParent, if_neg hp, lxMatchSelector]
      have hl : p.dropLast.length + 1 = p.length := by
        rw [List.length_dropLast]
        have := List.length_pos_iff.2 hp
        omega
      cases ht : matchSelector env root.el p.dropLast c with
      | true =>
        left
        exact ⟨p.dropLast, by simp, rfl, by omega⟩
      | false =>
        simp only [Bool.false_eq_true, if_false]
        rcases anc_agrees env root c f g p.dropLast (by omega) (by omega) with ⟨q, h1, h2, h3⟩ | h
        · exact Or.inl ⟨q, h1, h2, by omega⟩
        · exact Or.inr h

theorem find_agrees (env : Env α) (root : XEl α) (c : Compound α) : (qs : List (List Nat)) →
    lxFind (lxMatchSelector env root c) (qs.map some) =
      .ok ((qs.find? (fun q => matchSelector env root.el q c)).map some)
  | [] => rfl
  | q :: qs => by
    rw [List.map_cons, lxFind]
    simp only [lxMatchSelector, List.find?_cons]
    cases matchSelector env root.el q c with
    | true => rfl
    | false => exact find_agrees env root c qs

theorem prev_length {p q : List Nat} (h : q ∈ prevSiblings p) : q.length ≤ p.length := by
  rw [prev_mem] at h
  obtain ⟨r, i, j, _, rfl, rfl⟩ := h
  simp

theorem step_agrees (env : Env α) (root : XEl α) (c : Compound α) (depth : Nat) (p : List Nat) (hd : p.length ≤ depth)
    (o : Comb) :
    (∃ q, stepComb (fun q => matchSelector env root.el q c) p o = some q ∧
      lxStep (lxMatchSelector env root c) depth (some p) o = .ok (some (some q)) ∧ q.length ≤ depth) ∨
    (stepComb (fun q => matchSelector env root.el q c) p o = none ∧
      (lxStep (lxMatchSelector env root c) depth (some p) o = .ok none ∨
       (lxStep (lxMatchSelector env root c) depth (some p) o = .error .ofNone ∧ (o = .child ∨ o = .desc)))) := by
  have sib : (o' : Comb) → o' = .sib ∨ o' = .col →
      (∃ q, stepComb (fun q => matchSelector env root.el q c) p o' = some q ∧
        lxStep (lxMatchSelector env root c) depth (some p) o' = .ok (some (some q)) ∧ q.length ≤ depth) ∨
      (stepComb (fun q => matchSelector env root.el q c) p o' = none ∧
        (lxStep (lxMatchSelector env root c) depth (some p) o' = .ok none ∨
         (lxStep (lxMatchSelector env root c) depth (some p) o' = .error .ofNone ∧ (o' = .child ∨ o' = .desc)))) := by
    intro o' ho
    have e1 : stepComb (fun q => matchSelector env root.el q c) p o' =
        (prevSiblings p).find? (fun q => matchSelector env root.el q c) := by rcases ho with rfl | rfl <;> rfl
    have e2 : lxStep (lxMatchSelector env root c) depth (some p) o' =
        .ok (((prevSiblings p).find? (fun q => matchSelector env root.el q c)).map some) := by
      rw [← find_agrees]
      rcases ho with rfl | rfl <;> rfl
    rw [e1, e2]
    cases hq : (prevSiblings p).find? (fun q => matchSelector env root.el q c) with
    | none => exact Or.inr ⟨rfl, Or.inl rfl⟩
    | some q => exact Or.inl ⟨q, rfl, rfl, Nat.le_trans (prev_length (List.mem_of_find?_eq_some hq)) hd⟩
  cases o with
  | child =>
    simp only [stepComb, lxStep, lxParent, getParent]
    by_cases hp : p = []
    · right
      simp [hp, lxMatchSelector]
    · simp only [if_neg hp, lxMatchSelector]
      by_cases ht : matchSelector env root.el p.dropLast c = true
      · exact Or.inl ⟨p.dropLast, by simp [ht], by simp [ht], by rw [List.length_dropLast]; omega⟩
      · exact Or.inr ⟨by simp [ht], Or.inl (by simp [ht])⟩
  | desc =>
    simp only [stepComb, lxStep]
    rcases anc_agrees env root c (p.length + 1) (depth + 2) p (by omega) (by omega) with ⟨q, h1, h2, h3⟩ | ⟨h1, h2⟩
    · exact Or.inl ⟨q, h1, by rw [h2], by omega⟩
    · exact Or.inr ⟨h1, Or.inr ⟨by rw [h2], by simp⟩⟩
  | adj =>
    simp only [stepComb, lxStep, lxPrev]
    have hl := fun q => prev_length (p := p) (q := q)
    cases hq : prevSiblings p with
    | nil => exact Or.inr ⟨rfl, Or.inl rfl⟩
    | cons q qs =>
      rw [hq] at hl
      simp only [List.map_cons, lxMatchSelector]
      by_cases ht : matchSelector env root.el q c = true
      · exact Or.inl ⟨q, by simp [ht], by simp [ht], Nat.le_trans (hl q (by simp)) hd⟩
      · exact Or.inr ⟨by simp [ht], Or.inl (by simp [ht])⟩
  | sib => exact sib _ (Or.inl rfl)
  | col => exact sib _ (Or.inr rfl)

/-- There is an operator that looks at the ancestors. -/
def Up (rest : List (Comb × Compound α)) : Prop := ∃ x ∈ rest, x.1 = .child ∨ x.1 = .desc

theorem loop_agrees (env : Env α) (root : XEl α) (depth : Nat) : (rest : List (Comb × Compound α)) → (p : List Nat) →
    p.length ≤ depth → Agrees (Up rest) (lxLoop env root depth (some p) rest) (combLoop env root.el p rest)
  | [], _, _ => Or.inl rfl
  | (o, c) :: rest, p, hd => by
    unfold lxLoop combLoop
    by_cases hc : c.isEmpty = true
    · rw [if_pos hc, if_pos hc]; exact Or.inl rfl
    rw [if_neg hc, if_neg hc]
    rcases step_agrees env root c depth p hd o with ⟨q, h1, h2, h3⟩ | ⟨h1, h2 | ⟨h2, h3⟩⟩
    · rw [h1, h2]
      rcases loop_agrees env root depth rest q h3 with h | ⟨a, b, x, hx, hx2⟩
      · exact Or.inl h
      · exact Or.inr ⟨a, b, x, List.mem_cons_of_mem _ hx, hx2⟩
    · rw [h1, h2]; exact Or.inl rfl
    · rw [h1, h2]; exact Or.inr ⟨rfl, rfl, (o, c), by simp, h3⟩

theorem selectors_agrees (env : Env α) (root : XEl α) (p : List Nat) (s : Complex α) :
    Agrees (Up s.rest) (lxMatchSelectors env root p s) (matchSelectors env root.el p s) := by
  unfold lxMatchSelectors matchSelectors
  by_cases hc : s.last.isEmpty = true
  · rw [if_pos hc, hc]; exact Or.inl rfl
  rw [if_neg hc]
  simp only [lxMatchSelector]
  cases hm : matchSelector env root.el p s.last with
  | false => left; simp
  | true =>
    simp only [Bool.not_true, Bool.or_false, if_neg hc]
    exact loop_agrees env root p.length s.rest p (Nat.le_refl _)

theorem match_agrees (env : Env α) (root : XEl α) (p : List Nat) : (ss : List (Complex α)) → (b : Bool) →
    lxMatch env root p ss = .ok b → matchPrelude env root.el p ss = b
  | [], b, h => by
    unfold lxMatch at h
    cases h; rfl
  | s :: ss, b, h => by
    unfold lxMatch at h
    unfold matchPrelude
    rw [List.any_cons]
    rcases selectors_agrees env root p s with h1 | ⟨h1, _⟩
    · rw [h1] at h
      cases hm : matchSelectors env root.el p s with
      | true => rw [hm] at h; cases h; rfl
      | false =>
        rw [hm] at h
        rw [Bool.false_or]
        exact match_agrees env root p ss b h
    · rw [h1] at h; cases h

theorem match_error (env : Env α) (root : XEl α) (p : List Nat) : (ss : List (Complex α)) → (e : LxErr) →
    lxMatch env root p ss = .error e →
    e = .ofNone ∧ ∃ s ∈ ss, Up s.rest ∧ matchSelectors env root.el p s = false
  | [], e, h => by
    unfold lxMatch at h
    cases h
  | s :: ss, e, h => by
    unfold lxMatch at h
    rcases selectors_agrees env root p s with h1 | ⟨h1, h2, h3⟩
    · rw [h1] at h
      cases hm : matchSelectors env root.el p s with
      | true => rw [hm] at h; cases h
      | false =>
        rw [hm] at h
        obtain ⟨he, t, ht, hr⟩ := match_error env root p ss e h
        exact ⟨he, t, List.mem_cons_of_mem _ ht, hr⟩
    · rw [h1] at h
      cases h
      exact ⟨rfl, s, by simp, h3, h2⟩

theorem select_agrees {V : Type} (env : Env α) (root : XEl α) (p : List Nat) : (rs l : List (Rule α V)) →
    lxSelect env root p rs = .ok l → l = selectElement env root.el p rs
  | [], l, h => by
    unfold lxSelect at h
    cases h; rfl
  | r :: rs, l, h => by
    unfold lxSelect at h
    cases hm : lxMatch env root p r.prelude with
    | error e => rw [hm] at h; cases h
    | ok b =>
      rw [hm] at h
      cases hs : lxSelect env root p rs with
      | error e => rw [hs] at h; cases h
      | ok l' =>
        rw [hs] at h
        have hb := match_agrees env root p _ b hm
        have hl := select_agrees env root p rs l' hs
        cases h
        unfold selectElement at hl ⊢
        rw [List.filter_cons, hb, ← hl]

theorem select_error {V : Type} (env : Env α) (root : XEl α) (p : List Nat) : (rs : List (Rule α V)) → (e : LxErr) →
    lxSelect env root p rs = .error e → e = .ofNone ∧ ∃ r ∈ rs, ∃ s ∈ r.prelude, Up s.rest ∧
      matchSelectors env root.el p s = false
  | [], e, h => by
    unfold lxSelect at h
    cases h
  | r :: rs, e, h => by
    unfold lxSelect at h
    cases hm : lxMatch env root p r.prelude with
    | error e' =>
      rw [hm] at h
      cases h
      obtain ⟨he, hs⟩ := match_error env root p _ _ hm
      exact ⟨he, r, by simp, hs⟩
    | ok b =>
      rw [hm] at h
      cases hs : lxSelect env root p rs with
      | error e' =>
        rw [hs] at h
        cases h
        obtain ⟨he, r', hr', hx⟩ := select_error env root p rs _ hs
        exact ⟨he, r', List.mem_cons_of_mem _ hr', hx⟩
      | ok l' => rw [hs] at h; cases h

end Parce.Lx

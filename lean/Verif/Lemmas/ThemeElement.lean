import Verif.Spec.ThemeElement
import Verif.Lemmas.Css
/-!
# Lemmas about the elements of a theme
-/
namespace Parce.Css
variable {α : Type}

theorem splitGo_word (space : α → Bool) (w : List α) (hw : ∀ c ∈ w, space c = false) : ∀ (cur t : List α), splitGo space cur (w ++ t) = splitGo space (w.reverse ++ cur) t := by
  induction w with
  | nil => intro cur t; rfl
  | cons c w ih =>
    intro cur t
    rw [List.cons_append, splitGo, if_neg (by simp [hw c (by simp)]), ih (fun d hd => hw d (by simp [hd]))]
    simp

theorem split_words (space : α → Bool) (b : α) (hb : space b = true) (w t : List α) (hn : w ≠ []) (hw : ∀ c ∈ w, space c = false) :
    split space (w ++ b :: t) = w :: split space t := by
  unfold split
  rw [splitGo_word space w hw, splitGo, if_pos hb, if_neg (by simpa using hn)]
  simp

theorem split_word (space : α → Bool) (w : List α) (hn : w ≠ []) (hw : ∀ c ∈ w, space c = false) : split space w = [w] := by
  have := splitGo_word space w hw [] []
  rw [List.append_nil] at this
  unfold split
  rw [this, splitGo, if_neg (by simpa using hn)]
  simp

variable [DecidableEq α]

theorem undot {dot blank : α} {w : List α} (h : ∀ c ∈ w, c ≠ dot) : w.map (fun c => if c = dot then blank else c) = w := by
  induction w with
  | nil => rfl
  | cons c w ih => rw [List.map_cons, if_neg (h c (by simp)), ih (fun d hd => h d (by simp [hd]))]

theorem split_class {env : Env α} {low : α → List α} {dot blank : α} : ∀ {names : List (List α)}, NamesOk env low dot blank names →
    split env.space (cssClass env dot blank names) = names.map env.lower
  | [], h => by
    have e : env.lower [] = [] := by rw [h.lower]; rfl
    simp [cssClass, reprText, e, split, splitGo]
  | [n], h => by
    unfold cssClass reprText
    rw [undot (fun c hc => (h.plain n (by simp) c hc).1), split_word _ _ (h.filled n (by simp)) (fun c hc => (h.plain n (by simp) c hc).2)]
    rfl
  | n :: m :: ns, h => by
    have ih := split_class (names := m :: ns) ⟨h.lower, h.dotSame, h.blankSpace, fun x hx => h.filled x (by simp [List.mem_cons.1 hx]), fun x hx => h.plain x (by simp [List.mem_cons.1 hx])⟩
    have e : cssClass env dot blank (n :: m :: ns) = env.lower n ++ blank :: cssClass env dot blank (m :: ns) := by
      unfold cssClass
      rw [reprText, h.lower, List.flatMap_append, List.flatMap_cons, h.dotSame, ← h.lower, ← h.lower, List.map_append, undot (fun c hc => (h.plain n (by simp) c hc).1)]
      simp
    rw [e, split_words _ _ h.blankSpace _ _ (h.filled n (by simp)) (fun c hc => (h.plain n (by simp) c hc).2), ih]
    rfl

theorem classes_cls (env : Env α) (cls : List α) (pc pe : List (List α)) (kids : List (El α)) : getClasses env (clsEl env cls pc pe kids) = split env.space cls := by
  simp [getClasses, clsEl, El.attrs, assoc]

/-- More classes, pseudo classes and pseudo elements: at least the same selectors match. -/
theorem match_mono {env : Env α} {r1 r2 : El α} {p : List Nat} {a b : List α} {pc pc' pe pe' : List (List α)} {k k' : List (El α)}
    (h1 : r1.at p = some (clsEl env a pc pe k)) (h2 : r2.at p = some (clsEl env b pc' pe' k')) (hid : env.idAttr ≠ env.classAttr)
    (hc : split env.space a ⊆ split env.space b) (hpc : pc ⊆ pc') (hpe : pe ⊆ pe')
    (hps : ∀ x, isPseudo r1 p (clsEl env a pc pe k) x = isPseudo r2 p (clsEl env b pc' pe' k') x) {c : Compound α} (hn : a = b ∨ NoClassText env c)
    (hm : matchSelector env r1 p c = true) : matchSelector env r2 p c = true := by
  unfold matchSelector at hm ⊢
  rw [h1] at hm
  rw [h2]
  simp only [Bool.and_eq_true, List.all_eq_true, classes_cls, decide_eq_true_eq] at hm ⊢
  obtain ⟨⟨⟨⟨⟨m1, m2⟩, m3⟩, m4⟩, m5⟩, m6⟩ := hm
  refine ⟨⟨⟨⟨⟨fun x hx => hc (m1 x hx), fun x hx => m2 x hx⟩, fun x hx => ?_⟩, fun x hx => ?_⟩, fun x hx => ?_⟩, fun x hx => hpe (m6 x hx)⟩
  · have := m3 x hx
    simp only [getId, clsEl, El.attrs, assoc, if_neg (Ne.symm hid)] at this
    cases this
  · have m := m4 x hx
    rcases hn with rfl | hn
    · exact m
    · simp only [matchAttr, clsEl, El.attrs, assoc, if_neg (Ne.symm (hn x hx))] at m
      cases m
  · have m := m5 x hx
    cases hd : env.dispatch x with
    | none =>
      rw [hd] at m
      simp only [decide_eq_true_eq] at m ⊢
      exact hpc m
    | some y =>
      rw [hd] at m
      simp only at m ⊢
      rw [← hps]
      exact m

/-- At the root there is nothing to the left. -/
theorem comb_root (env : Env α) (r1 r2 : El α) (rest : List (Comb × Compound α)) : combLoop env r1 [] rest = combLoop env r2 [] rest := by
  cases rest with
  | nil => rfl
  | cons x rest =>
    obtain ⟨o, c⟩ := x
    simp only [combLoop]
    cases o <;> simp [stepComb, getParent, ancLoop, prevSiblings]

/-- Below the root there is only the root. -/
theorem comb_kid (env : Env α) {r1 r2 : El α} (h : ∀ c, matchSelector env r1 [] c = matchSelector env r2 [] c) (rest : List (Comb × Compound α)) :
    combLoop env r1 [0] rest = combLoop env r2 [0] rest := by
  cases rest with
  | nil => rfl
  | cons x rest =>
    obtain ⟨o, c⟩ := x
    simp only [combLoop]
    have e := comb_root env r1 r2 rest
    have hc := h c
    cases hm : matchSelector env r2 [] c <;> rw [hm] at hc <;> cases o
    all_goals try simp [stepComb, prevSiblings, getParent, ancLoop, hm, hc, e]

theorem root_same {env : Env α} {parce a b : List α} (hid : env.idAttr ≠ env.classAttr) (c : Compound α) :
    matchSelector env (clsEl env parce [] [] [clsEl env a [] [] []]) [] c = matchSelector env (clsEl env parce [] [] [clsEl env b [] [] []]) [] c := by
  rw [Bool.eq_iff_iff]
  constructor
  · exact match_mono rfl rfl hid (fun _ h => h) (fun _ h => h) (fun _ h => h) (fun x => by cases x <;> rfl) (.inl rfl)
  · exact match_mono rfl rfl hid (fun _ h => h) (fun _ h => h) (fun _ h => h) (fun x => by cases x <;> rfl) (.inl rfl)

theorem prelude_mono {env : Env α} {r1 r2 : El α} {p : List Nat} {P : List (Complex α)} (hl : ∀ s ∈ P, matchSelector env r1 p s.last = true → matchSelector env r2 p s.last = true)
    (hr : ∀ rest, combLoop env r1 p rest = combLoop env r2 p rest) (h : matchPrelude env r1 p P = true) : matchPrelude env r2 p P = true := by
  unfold matchPrelude at h ⊢
  rw [List.any_eq_true] at h ⊢
  obtain ⟨s, hs, h⟩ := h
  refine ⟨s, hs, ?_⟩
  unfold matchSelectors at h ⊢
  by_cases he : s.last.isEmpty = true
  · simp [he] at h
  · cases hm : matchSelector env r1 p s.last with
    | false => simp [hm] at h
    | true => simpa [hm, he, hl s hs hm, hr s.rest] using h

end Parce.Css

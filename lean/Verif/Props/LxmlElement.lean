import Verif.Lemmas.LxmlElement
import Verif.Props.Css

/-
C109: selecting the rules for an element of an `lxml` tree.

What it means that a selector matches an element is `Complex.Holds` (Spec/Css.lean), for the same tree, with the
tags as names, and without pseudo classes and pseudo elements of its own.
-/

namespace Parce.Lx

open Parce.Css

variable {α : Type} [DecidableEq α]

/-- **C109** (partial). When `match_selectors` of a wrapper returns a value, it is right, and a selector that matches is
    found. (The conditions of C54 remain: `Plain` and `NoBack`.) What is missing: that a value is returned for
    a selector that does not match, see `C109_descendant_violated`. -/
theorem C109_match_partial (env : Env α) (root : XEl α) (p : List Nat) (s : Complex α) (hs : s.Plain) (hb : NoBack s.rest) :
    (lxMatchSelectors env root p s = .ok true ↔ s.Holds env root.el p) ∧
    (lxMatchSelectors env root p s = .ok false → ¬ s.Holds env root.el p) := by
  have h54 := C54_match_partial env root.el p s hs hb
  rw [← h54]
  rcases selectors_agrees env root p s with h | ⟨h, h1, _⟩
  · rw [h]
    cases matchSelectors env root.el p s <;> simp
  · rw [h, h1]
    simp

/-- **C109.** A selector with the combinators `+` and `~` only is always answered. -/
theorem C109_siblings (env : Env α) (root : XEl α) (p : List Nat) (s : Complex α) (hs : s.Plain) (hb : NoBack s.rest)
    (hn : ∀ x ∈ s.rest, x.1 ≠ .child ∧ x.1 ≠ .desc) :
    (s.Holds env root.el p → lxMatchSelectors env root p s = .ok true) ∧
    (¬ s.Holds env root.el p → lxMatchSelectors env root p s = .ok false) := by
  rw [← C54_match_partial env root.el p s hs hb]
  rcases selectors_agrees env root p s with h | ⟨_, _, x, hx, hx2⟩
  · rw [h]
    cases matchSelectors env root.el p s <;> simp
  · have := hn x hx
    rcases hx2 with h | h
    · exact absurd h this.1
    · exact absurd h this.2

/-- **C109** (partial). When `select_element` with a wrapper returns, it has selected the rules with a selector that
    matches, in their order. When it raises, it is an `AttributeError`, and there is a selector with a child or descendant
    combinator that does not match. -/
theorem C109_select_partial {V : Type} (env : Env α) (root : XEl α) (p : List Nat) (rules : List (Rule α V))
    (hr : ∀ r ∈ rules, ∀ s ∈ r.prelude, s.Plain ∧ NoBack s.rest) :
    (∀ l, selectElementLx env root p rules = .ok l →
      l.Sublist rules ∧ ∀ r ∈ rules, (r ∈ l ↔ ∃ s ∈ r.prelude, s.Holds env root.el p)) ∧
    (∀ e, selectElementLx env root p rules = .error e → e = .ofNone ∧
      ∃ r ∈ rules, ∃ s ∈ r.prelude, (∃ x ∈ s.rest, x.1 = .child ∨ x.1 = .desc) ∧ ¬ s.Holds env root.el p) := by
  constructor
  · intro l h
    unfold selectElementLx at h
    cases hl : lxSelect env root p rules with
    | error e => rw [hl] at h; cases h
    | ok l' =>
      rw [hl] at h
      cases h
      rw [select_agrees env root p rules _ hl]
      unfold selectElement
      refine ⟨List.filter_sublist, fun r hr' => ?_⟩
      rw [List.mem_filter, C54_prelude env root.el p r.prelude (hr r hr')]
      exact ⟨fun h => h.2, fun h => ⟨hr', h⟩⟩
  · intro e h
    unfold selectElementLx at h
    cases hl : lxSelect env root p rules with
    | ok l' => rw [hl] at h; cases h
    | error e' =>
      rw [hl] at h
      cases h
      obtain ⟨he, r, h1, s, h2, h3, h4⟩ := select_error env root p rules _ hl
      refine ⟨he, r, h1, s, h2, h3, ?_⟩
      rw [← C54_match_partial env root.el p s (hr r h1 s h2).1 (hr r h1 s h2).2, h4]
      exact Bool.false_ne_true

/-- **C109 does not hold**: for any element that matches `c` and has no ancestor that matches `d`, asking whether `d c`
    matches it raises an `AttributeError`. The parent of the root element is a wrapper of `None` and not `None`. -/
theorem C109_descendant_violated (env : Env α) (root : XEl α) (p : List Nat) (c d : Compound α)
    (hc : c.isEmpty = false) (hd : d.isEmpty = false) (tc : c.Texts) (td : d.Texts)
    (h : c.Holds env root.el p) (hn : ∀ q s, p = q ++ s → s ≠ [] → ¬ d.Holds env root.el q) :
    lxMatchSelectors env root p ⟨c, [(.desc, d)]⟩ = .error .ofNone := by
  have hm := (matchSelector_iff env root.el p c tc).2 h
  unfold lxMatchSelectors
  simp only [hc, Bool.false_eq_true, if_false, lxMatchSelector, hm]
  unfold lxLoop
  simp only [hd, Bool.false_eq_true, if_false, lxStep]
  rcases anc_agrees env root d (p.length + 1) (p.length + 2) p (by omega) (by omega) with ⟨q, h1, _⟩ | ⟨_, h2⟩
  · have := stepComb_sound (fun q => matchSelector env root.el q d) p q .desc (by simp) h1
    obtain ⟨ht, s, hs, hp⟩ := this
    exact absurd ((matchSelector_iff env root.el q d td).1 ht) (hn q s hp hs)
  · rw [h2]

/-- **C109 does not hold** for `d > c` and the root element. -/
theorem C109_child_violated (env : Env α) (root : XEl α) (c d : Compound α)
    (hc : c.isEmpty = false) (hd : d.isEmpty = false) (tc : c.Texts) (h : c.Holds env root.el []) :
    lxMatchSelectors env root [] ⟨c, [(.child, d)]⟩ = .error .ofNone := by
  have hm := (matchSelector_iff env root.el [] c tc).2 h
  unfold lxMatchSelectors
  simp only [hc, Bool.false_eq_true, if_false, lxMatchSelector, hm]
  unfold lxLoop
  simp only [hd, Bool.false_eq_true, if_false, lxStep, lxParent, getParent, if_true, lxMatchSelector]

/-- **C109 does not hold**: `select_lxml_element` never returns, whatever the rules and the element are. When the matching
    raises nothing, there is a `TypeError`, as the function that is decorated returns a `Style` and not the rules. -/
theorem C109_query_violated {V : Type} (env : Env α) (root : XEl α) (p : List Nat) (rules : List (Rule α V)) :
    (∀ l, selectLxmlElement env root p rules ≠ .ok l) ∧
    (∀ l, selectElementLx env root p rules = .ok l → selectLxmlElement env root p rules = .error .notIterable) := by
  unfold selectLxmlElement
  cases selectElementLx env root p rules with
  | error e => exact ⟨(fun l h => by cases h), (fun l h => by cases h)⟩
  | ok l' => exact ⟨(fun l h => by cases h), (fun l h => rfl)⟩

/-! ## Examples -/

/-- `<a><b/><b/><c/></a>` -/
def exX : XEl Nat := .mk [10] [] [.mk [20] [] [], .mk [20] [] [], .mk [30] [] []]

/-- `b ~ c` matches and `a ~ c` does not; `a c` matches; the selector is one that C109 speaks of. -/
example : lxMatchSelectors exEnv exX [2] ⟨exName 30, [(.sib, exName 20)]⟩ = .ok true ∧
    lxMatchSelectors exEnv exX [2] ⟨exName 30, [(.sib, exName 10)]⟩ = .ok false ∧
    lxMatchSelectors exEnv exX [2] ⟨exName 30, [(.desc, exName 10)]⟩ = .ok true := ⟨rfl, rfl, rfl⟩

example : (⟨exName 30, [(.sib, exName 20)]⟩ : Complex Nat).Plain ∧ NoBack [((.sib : Comb), exName 20)] ∧
    ∀ x ∈ [((.sib : Comb), exName 20)], x.1 ≠ .child ∧ x.1 ≠ .desc := by
  refine ⟨⟨?_, by simp⟩, by simp [NoBack], by simp⟩
  intro c hc
  simp only [Complex.parts, List.map_cons, List.map_nil, List.mem_cons, List.not_mem_nil, or_false] at hc
  rcases hc with rfl | rfl <;> exact ⟨rfl, by simp [Compound.Texts, exName]⟩

/-- `z c` for the element `c`, that has no ancestor `z`. -/
example : lxMatchSelectors exEnv exX [2] ⟨exName 30, [(.desc, exName 99)]⟩ = .error .ofNone ∧
    (exName 30 : Compound Nat).Holds exEnv exX.el [2] ∧
    ∀ q s, [2] = q ++ s → s ≠ [] → ¬ (exName 99 : Compound Nat).Holds exEnv exX.el q := by
  refine ⟨rfl, ?_, ?_⟩
  · rw [← matchSelector_iff _ _ _ _ (by simp [Compound.Texts, exName])]; decide
  · intro q s h hs
    have hq : q = [] := by
      cases q with
      | nil => rfl
      | cons a q =>
        simp only [List.cons_append, List.cons.injEq] at h
        have := h.2.symm
        simp only [List.append_eq_nil_iff] at this
        exact absurd this.2 hs
    subst hq
    rw [← matchSelector_iff _ _ _ _ (by simp [Compound.Texts, exName])]; decide

/-- The same tree of `Element` objects: `z c` does not match, and nothing is raised. -/
example : matchSelectors exEnv exX.el [2] ⟨exName 30, [(.desc, exName 99)]⟩ = false := by decide

/-- Selecting with no rules at all. -/
example : selectLxmlElement (V := Nat) exEnv exX [2] [] = .error .notIterable := rfl

end Parce.Lx

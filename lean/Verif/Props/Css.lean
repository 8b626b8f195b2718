import Verif.Lemmas.Css
import Verif.Lemmas.CssCascade
import Verif.Lemmas.CssPrelude

/-
C53 (cascade), C54 (selectors) and C63 (prelude).
-/

namespace Parce.Css

variable {α : Type}

/-! ## C54: matching selectors -/

section
variable [DecidableEq α]

/-- **C54.** One compound selector: classes, names, ids, attributes, pseudo classes and elements. -/
theorem C54_compound (env : Env α) (root : El α) (p : List Nat) (c : Compound α) (hc : c.Texts) :
    matchSelector env root p c = true ↔ c.Holds env root p := matchSelector_iff env root p c hc

/-- **C54.** When a selector matches (no `||`, no `*` alone, no empty text), elements for all its
    parts can be chosen that are related by the combinators. -/
theorem C54_sound (env : Env α) (root : El α) (p : List Nat) (s : Complex α) (hs : s.Plain)
    (h : matchSelectors env root p s = true) : s.Holds env root p := by
  unfold matchSelectors at h
  split at h
  · cases h
  · rename_i hc
    have h1 := hs.1 s.last (by simp [Complex.parts])
    simp only [h1.1, Bool.false_or, Bool.not_eq_true', Bool.not_eq_false] at hc
    refine ⟨(matchSelector_iff env root p s.last h1.2).1 hc, combLoop_sound env root s.rest p ?_ h⟩
    intro x hx
    have := hs.1 x.2 (by simp only [Complex.parts, List.mem_cons, List.mem_map]; exact Or.inr ⟨x, hx, rfl⟩)
    exact ⟨hs.2 x hx, this.1, this.2⟩

/-- **C54** (partial). A selector matches exactly when elements can be chosen, if to the left of a
    descendant combinator there are only descendant combinators, and never `+` directly left of
    `~`. Without this, the search does not go back and misses a match, see `C54_violated_child` and
    `C54_violated_sibling`. -/
theorem C54_match_partial (env : Env α) (root : El α) (p : List Nat) (s : Complex α) (hs : s.Plain) (hb : NoBack s.rest) :
    matchSelectors env root p s = true ↔ s.Holds env root p := by
  refine ⟨C54_sound env root p s hs, ?_⟩
  rintro ⟨h1, h2⟩
  have hl := hs.1 s.last (by simp [Complex.parts])
  unfold matchSelectors
  rw [hl.1, (matchSelector_iff env root p s.last hl.2).2 h1]
  simp only [Bool.not_true, Bool.or_self, Bool.false_eq_true, if_false]
  refine combLoop_complete env root s.rest p ?_ hb h2
  intro x hx
  have := hs.1 x.2 (by simp only [Complex.parts, List.mem_cons, List.mem_map]; exact Or.inr ⟨x, hx, rfl⟩)
  exact ⟨hs.2 x hx, this.1, this.2⟩

/-- **C54.** A prelude matches when one of its lists does. -/
theorem C54_prelude (env : Env α) (root : El α) (p : List Nat) (prelude : List (Complex α))
    (hs : ∀ s ∈ prelude, s.Plain ∧ NoBack s.rest) :
    matchPrelude env root p prelude = true ↔ ∃ s ∈ prelude, s.Holds env root p := by
  unfold matchPrelude
  rw [List.any_eq_true]
  constructor
  · rintro ⟨s, h1, h2⟩
    exact ⟨s, h1, (C54_match_partial env root p s (hs s h1).1 (hs s h1).2).1 h2⟩
  · rintro ⟨s, h1, h2⟩
    exact ⟨s, h1, (C54_match_partial env root p s (hs s h1).1 (hs s h1).2).2 h2⟩

end

/-- For the examples: characters are numbers, 0 is a space, `[1]` and `[2]` are the names of the
    attributes `class` and `id`, `[50]` is `first-child`. -/
def exEnv : Env Nat :=
  { space := fun c => c == 0, lower := id, classAttr := [1], idAttr := [2], dash := 3, dispatch := fun s => if s = [50] then some .firstChild else none }

/-- `<a><b><b><c class="11 12"/></b></b></a>` -/
def exEl : El Nat := .mk [10] [] [] [] [.mk [20] [] [] [] [.mk [20] [] [] [] [.mk [30] [([1], [11, 0, 12])] [] [] []]]]

def exName (n : Nat) : Compound Nat := { names := [[n]] }

/-- `<d><a/><b/><b/><c/></d>` -/
def exEl2 : El Nat := .mk [40] [] [] [] [.mk [10] [] [] [] [], .mk [20] [] [] [] [], .mk [20] [] [] [] [], .mk [30] [] [] [] []]

/-- **C54 does not hold**: `a > b c` is not found, although there are such elements. -/
theorem C54_violated_child :
    matchSelectors exEnv exEl [0, 0, 0] ⟨exName 30, [(.desc, exName 20), (.child, exName 10)]⟩ = false ∧
    (⟨exName 30, [(.desc, exName 20), (.child, exName 10)]⟩ : Complex Nat).Holds exEnv exEl [0, 0, 0] := by
  refine ⟨by decide, ?_, ?_⟩
  · rw [← matchSelector_iff _ _ _ _ (by simp [Compound.Texts, exName])]; decide
  · refine ⟨[0], ⟨[0, 0], by simp, rfl⟩, ?_, [], ⟨0, rfl⟩, ?_, trivial⟩ <;>
    · rw [← matchSelector_iff _ _ _ _ (by simp [Compound.Texts, exName])]; decide

/-- **C54 does not hold**: `a + b ~ c` is not found, although there are such elements. -/
theorem C54_violated_sibling :
    matchSelectors exEnv exEl2 [3] ⟨exName 30, [(.sib, exName 20), (.adj, exName 10)]⟩ = false ∧
    (⟨exName 30, [(.sib, exName 20), (.adj, exName 10)]⟩ : Complex Nat).Holds exEnv exEl2 [3] := by
  refine ⟨by decide, ?_, ?_⟩
  · rw [← matchSelector_iff _ _ _ _ (by simp [Compound.Texts, exName])]; decide
  · refine ⟨[1], ⟨[], 1, 3, by omega, rfl, rfl⟩, ?_, [0], ⟨[], 0, rfl, rfl⟩, ?_, trivial⟩ <;>
    · rw [← matchSelector_iff _ _ _ _ (by simp [Compound.Texts, exName])]; decide

/-- **C54 does not hold** for `*`: it matches no element at all, and everything to the left of it
    is ignored: `z > * > c` matches `c` in a tree without `z`. -/
theorem C54_violated_universal :
    (∀ (root : El Nat) (p : List Nat), matchSelectors exEnv root p ⟨{}, []⟩ = false) ∧
    (∀ (root : El Nat) (p : List Nat), IsEl root p → (⟨{}, []⟩ : Complex Nat).Holds exEnv root p) ∧
    matchSelectors exEnv exEl [0, 0, 0] ⟨exName 30, [(.child, {}), (.child, exName 99)]⟩ = true ∧
    ¬ (⟨exName 30, [(.child, {}), (.child, exName 99)]⟩ : Complex Nat).Holds exEnv exEl [0, 0, 0] := by
  refine ⟨fun _ _ => rfl, fun root p ⟨e, he⟩ => ⟨⟨e, he, ?_⟩, trivial⟩, by decide, ?_⟩
  · simp
  · rintro ⟨_, q, ⟨i, hq⟩, _, q', ⟨j, hq'⟩, h, _⟩
    have h1 : [0, 0] = q := by
      have := congrArg List.dropLast hq
      simpa using this
    subst h1
    have h2 : [0] = q' := by
      have := congrArg List.dropLast hq'
      simpa using this
    subst h2
    rw [← matchSelector_iff _ _ _ _ (by simp [Compound.Texts, exName])] at h
    revert h; decide

/-- **C54 does not hold** for an empty text: `[class=""]` matches every element with the attribute. -/
theorem C54_violated_empty :
    matchSelector exEnv exEl [0, 0, 0] { attrs := [⟨[1], some .eq, some [], false⟩] } = true ∧
    ¬ (⟨[1], some .eq, some [], false⟩ : AttrSel Nat).Holds exEnv (.mk [30] [([1], [11, 0, 12])] [] [] []) := by
  refine ⟨by decide, ?_⟩
  rintro ⟨v, h1, h2⟩
  rw [hasAttr_iff] at h1
  have h2 := h2 .eq [] rfl rfl
  simp only [Bool.false_eq_true, if_false, AOp.Holds] at h2
  subst h2
  revert h1; decide

/-- The hypotheses for a selector `.12 > b c.11` (from right to left). -/
example : (⟨{ names := [[30]], classes := [[11]] }, [(.child, exName 20), (.desc, exName 20), (.desc, exName 10)]⟩ : Complex Nat).Plain ∧
    NoBack [(Comb.child, exName 20), (.desc, exName 20), (.desc, exName 10)] ∧
    matchSelectors exEnv exEl [0, 0, 0] ⟨{ names := [[30]], classes := [[11]] }, [(.child, exName 20), (.desc, exName 20), (.desc, exName 10)]⟩ = true := by
  refine ⟨⟨?_, ?_⟩, ?_, by decide⟩
  · intro c hc
    simp only [Complex.parts, List.map_cons, List.map_nil, List.mem_cons, List.not_mem_nil, or_false] at hc
    rcases hc with rfl | rfl | rfl | rfl <;> exact ⟨rfl, by simp [Compound.Texts, exName]⟩
  · intro x hx
    simp only [List.mem_cons, List.not_mem_nil, or_false] at hx
    rcases hx with rfl | rfl | rfl <;> simp
  · simp [NoBack]

/-! ## C63: the prelude -/

/-- **C63.** The prelude is read per part between commas: the selectors in order, with between every
    two selectors the first operator that was between them, or the descendant operator; empty
    parts are left out. -/
theorem C63_prelude (items : List (PItem α)) :
    mkPrelude items = ((splitComma items).map segment).filter (fun l => !l.isEmpty) := by
  have h := (preludeLoop_spec items).2 []
  simp only [List.map_nil, List.nil_append] at h
  unfold mkPrelude
  rw [← h]
  simp only
  have hc : ∀ l : List (List (SItem α)), l.map (fun l => if (!l.isEmpty && !endsSel l) = true then l.dropLast else l) = l.map clean := fun l => rfl
  rw [hc]
  cases hr : (preludeLoop items [] []).2 with
  | nil => simp [clean]
  | cons x r => simp

/-- **C63.** Every selector list begins and ends with a selector, and there is an operator between
    every two. -/
theorem C63_alternates (items : List (PItem α)) : ∀ l ∈ mkPrelude items, Alternates l := by
  intro l hl
  rw [C63_prelude, List.mem_filter, List.mem_map] at hl
  obtain ⟨⟨s, _, rfl⟩, h2⟩ := hl
  rcases segment_alternates s with h | h
  · rw [h] at h2; simp at h2
  · exact h

example : (mkPrelude [PItem.op .child, .sel (exName 1), .other, .sel (exName 2), .op .adj, .op .sib, .sel (exName 3), .op .child, .comma, .comma, .sel (exName 4)]).map
    (fun l => l.map SItem.isSel) = [[true, false, true, false, true], [true]] := by decide

/-! ## C53: the cascade -/

section
variable [DecidableEq α] {V : Type}

/-- **C53** (partial). With preludes and values that are not empty, the value of a property is
    - absent if no matching rule declares it,
    - that of the strongest (most specific, then latest) matching rule, if no matching rule declares it
      important,
    - that of the strongest rule that declares it important, provided that a rule that does not is
      stronger, or no other rule declares it important. Without this, see `C53_violated_important`. -/
theorem C53_cascade_partial (env : Env α) (root : El α) (p : List Nat) (imp : V → Bool) (rules : List (Rule α V))
    (hpre : ∀ r ∈ rules, r.prelude ≠ []) (hval : ∀ r ∈ rules, ∀ kv ∈ r.props, kv.2 ≠ [])
    (hkeys : ∀ r ∈ rules, (r.props.map (·.1)).Nodup) :
    ∃ rs d, styleRules rules = some rs ∧ properties imp (selectElement env root p rs) = some d ∧ ∀ key,
      let D := Decl rules (fun r => matchPrelude env root p r.prelude = true) key
      ((∀ i val k, ¬ D i val k) → dictGet key d = none) ∧
      (∀ i val k, D i val k → (∀ j val' k', D j val' k' → ¬ Important imp val') →
        (∀ j val' k', D j val' k' → ¬ Stronger j k' i k) → dictGet key d = some val) ∧
      ∀ i val k, D i val k → Important imp val →
        (∀ j val' k', D j val' k' → Important imp val' → ¬ Stronger j k' i k) →
        ((∃ j val' k', D j val' k' ∧ Stronger j k' i k) ∨ (∀ j val' k', D j val' k' → Important imp val' → j = i)) →
        dictGet key d = some val.dropLast := by
  obtain ⟨L, h1, h2, h3⟩ := styleRules_spec rules hpre
  have hL : ∀ x ∈ L, x.2.2 ∈ rules := fun x hx => List.mem_of_getElem? ((h2 x).1 hx).1
  have hvals : ∀ kv ∈ (selectElement env root p (L.map (fun x => x.2.2))).flatMap (·.props), kv.2 ≠ [] := by
    intro kv hkv
    obtain ⟨r, hr, hkv⟩ := List.mem_flatMap.1 hkv
    obtain ⟨x, hx, rfl⟩ := List.mem_map.1 (List.mem_filter.1 hr).1
    exact hval _ (hL x hx) kv hkv
  obtain ⟨st, hst, _⟩ := propFold_none imp [] _ ([], []) hvals rfl (by simp)
  refine ⟨_, st.1, h1, by unfold properties; rw [hst]; rfl, fun key => ?_⟩
  obtain ⟨st', hst', hget⟩ := propFold_none imp key _ ([], []) hvals rfl (by simp)
  rw [hst] at hst'
  cases hst'
  have hdv := declsOf_values (fun r => matchPrelude env root p r.prelude) key L
  have hpw := declsOf_pairwise (fun r => matchPrelude env root p r.prelude) key L h3 (fun x hx => hkeys _ (hL x hx))
  have hmem : ∀ i val k, (k, i, val) ∈ declsOf (fun r => matchPrelude env root p r.prelude) key L ↔
      Decl rules (fun r => matchPrelude env root p r.prelude = true) key i val k := by
    intro i val k
    unfold declsOf
    rw [List.mem_flatMap]
    constructor
    · rintro ⟨x, hx, h⟩
      split at h
      · rename_i hsel
        obtain ⟨v, hv, he⟩ := List.mem_map.1 h
        simp only [Prod.mk.injEq] at he
        obtain ⟨rfl, rfl, rfl⟩ := he
        obtain ⟨hr, hspec⟩ := (h2 x).1 hx
        exact ⟨x.2.2, hr, hsel, (mem_valuesOf _ _ _).1 hv, hspec⟩
      · cases h
    · rintro ⟨r, hr, hsel, hv, hspec⟩
      refine ⟨(k, i, r), (h2 _).2 ⟨hr, hspec⟩, ?_⟩
      simp only [hsel, if_true]
      exact List.mem_map.2 ⟨val, (mem_valuesOf _ _ _).2 hv, rfl⟩
  unfold selectElement at hget
  rw [← hdv] at hget
  generalize declsOf (fun r => matchPrelude env root p r.prelude) key L = ds at *
  simp only
  have hasym : ∀ j k' i k, Stronger j k' i k → ¬ Stronger i k j k' := by
    intro j k' i k h h'
    rcases h with h | ⟨h, hl⟩ <;> rcases h' with h' | ⟨h', hl'⟩
    · exact specLt_irrefl _ (specLt_trans h h')
    · rw [h'] at h; exact specLt_irrefl _ h
    · rw [h] at h'; exact specLt_irrefl _ h'
    · omega
  refine ⟨?_, ?_, ?_⟩
  · intro hno
    cases ds with
    | nil => rw [hget]; rfl
    | cons x ds => exact absurd ((hmem x.2.1 x.2.2 x.1).1 (by simp)) (hno _ _ _)
  · intro i val k hD hni hstr
    cases ds with
    | nil => exact absurd ((hmem i val k).2 hD) (by simp)
    | cons x ds =>
      rw [hget]
      simp only [List.map_cons]
      rw [List.pairwise_cons] at hpw
      have hx : (k, i, val) = x := by
        rcases List.mem_cons.1 ((hmem i val k).2 hD) with h | h
        · exact h
        · exact absurd (hpw.1 _ h) (hstr x.2.1 x.2.2 x.1 ((hmem _ _ _).1 (by simp)))
      have hfind : (ds.map (fun x => x.2.2)).find? (impB imp) = none := by
        rw [List.find?_eq_none]
        intro v hv
        obtain ⟨y, hy, rfl⟩ := List.mem_map.1 hv
        rw [impB_iff]
        exact hni y.2.1 y.2.2 y.1 ((hmem _ _ _).1 (by simp [hy]))
      rw [hfind, ← hx]
      simp only [Option.map_none, Option.getD_none, Option.some.injEq]
      have hni' := hni i val k hD
      rw [← impB_iff] at hni'
      unfold strip
      unfold impB at hni'
      cases hl : val.getLast? with
      | none => rfl
      | some v =>
        rw [hl] at hni'
        simp only [Option.any_some] at hni'
        simp [hni']
  · intro i val k hD himp hstr hor
    cases ds with
    | nil => exact absurd ((hmem i val k).2 hD) (by simp)
    | cons x ds =>
      rw [hget]
      simp only [List.map_cons]
      rw [List.pairwise_cons] at hpw
      have hstrip : ∀ v : List V, Important imp v → strip imp v = v.dropLast := by
        intro v ⟨w, hw, hi⟩
        unfold strip
        rw [Option.mem_def] at hw
        rw [hw]
        simp [hi]
      have hsame : ∀ (j : Nat) (v : List V) (k' : Nat × Nat × Nat), Decl rules (fun r => matchPrelude env root p r.prelude = true) key j v k' → j = i → v = val := by
        rintro j v k' ⟨r, hr, _, hv, _⟩ rfl
        obtain ⟨r', hr', _, hv', _⟩ := hD
        rw [hr] at hr'
        cases hr'
        rcases valuesOf_nodup key r.props (hkeys r (List.mem_of_getElem? hr)) with h | ⟨w, h⟩
        · have := (mem_valuesOf key r.props v).2 hv
          rw [h] at this; cases this
        · have h1 := (mem_valuesOf key r.props v).2 hv
          have h2 := (mem_valuesOf key r.props val).2 hv'
          rw [h] at h1 h2
          simp at h1 h2
          rw [h1, h2]
      rcases List.mem_cons.1 ((hmem i val k).2 hD) with hx | hx
      · -- it is the first: no other is important
        have hnone : (ds.map (fun x => x.2.2)).find? (impB imp) = none := by
          rw [List.find?_eq_none]
          intro v hv
          obtain ⟨y, hy, rfl⟩ := List.mem_map.1 hv
          rw [impB_iff]
          intro hiy
          have hDy := (hmem y.2.1 y.2.2 y.1).1 (by simp [hy])
          rcases hor with ⟨j, v', k', hDj, hs⟩ | hor
          · rcases List.mem_cons.1 ((hmem j v' k').2 hDj) with h | h
            · rw [← hx] at h
              simp only [Prod.mk.injEq] at h
              rw [h.1, h.2.1] at hs
              exact hasym _ _ _ _ hs hs
            · have := hpw.1 _ h
              rw [← hx] at this
              exact hasym _ _ _ _ this hs
          · have hji := hor _ _ _ hDy hiy
            have := hpw.1 y hy
            rw [← hx, hji] at this
            rcases this with h | ⟨_, h⟩
            · -- same rule, same specificity
              obtain ⟨r, hr, _, _, hk1⟩ := hDy
              obtain ⟨r', hr', _, _, hk2⟩ := hD
              rw [hji] at hr
              rw [hr] at hr'
              cases hr'
              rw [isSpec_unique hk1 hk2] at h
              exact specLt_irrefl _ h
            · exact absurd h (Nat.lt_irrefl _)
        rw [hnone, ← hx]
        simp only [Option.map_none, Option.getD_none, Option.some.injEq]
        exact hstrip val himp
      · -- it is in the rest: the first important one
        have hf : (ds.map (fun x => x.2.2)).find? (impB imp) = some val := by
          have hsome : (ds.find? (fun y => impB imp y.2.2)).isSome := by
            rw [List.find?_isSome]
            exact ⟨_, hx, (impB_iff imp val).2 himp⟩
          obtain ⟨y, hy⟩ := Option.isSome_iff_exists.1 hsome
          have hyi := List.find?_some hy
          have hym := List.mem_of_find?_eq_some hy
          rw [List.find?_map]
          have : (impB imp ∘ fun x : (Nat × Nat × Nat) × Nat × List V => x.2.2) = fun y => impB imp y.2.2 := rfl
          rw [this, hy]
          simp only [Option.map_some, Option.some.injEq]
          have hDy := (hmem y.2.1 y.2.2 y.1).1 (by simp [hym])
          have hns := hstr _ _ _ hDy ((impB_iff _ _).1 hyi)
          -- y is the first important one, so it is not after
          have : y = (k, i, val) := by
            rw [List.find?_eq_some_iff_append] at hy
            obtain ⟨_, as, bs, hds, has⟩ := hy
            rw [hds] at hx hpw
            rcases List.mem_append.1 hx with h | h
            · have := has _ h
              simp only [(impB_iff imp val).2 himp] at this
              cases this
            · rcases List.mem_cons.1 h with h | h
              · exact h.symm
              · have hp := (List.pairwise_append.1 hpw.2).2.1
                rw [List.pairwise_cons] at hp
                exact absurd (hp.1 _ h) hns
          rw [this]
        rw [hf]
        simp only [Option.map_some, Option.getD_some, Option.some.injEq]
        exact hstrip val himp

end

/-- For the examples: the value 0 is `!important`. -/
def exImp : Nat → Bool := fun v => v == 0

def exRule (c : Compound Nat) (val : List Nat) : Rule Nat Nat := ⟨[⟨c, []⟩], [([7], val)]⟩

/-- **C53 does not hold**: of two important declarations for `c.11`, that of the less specific rule
    `c {…}` wins from `c.11 {…}`. -/
theorem C53_violated_important :
    (styleRules [exRule (exName 30) [1, 0], exRule { names := [[30]], classes := [[11]] } [2, 0]]).bind
      (fun rs => properties exImp (selectElement exEnv exEl [0, 0, 0] rs)) = some [([7], [1])] := by decide

/-- **C53 does not hold**: a rule without a selector makes that no style can be had (ValueError), and a
    declaration without value makes that no properties can be had (IndexError). -/
theorem C53_violated_raise (rules : List (Rule Nat Nat)) (props : List (List Nat × List Nat)) (key : List Nat) :
    styleRules (rules ++ [⟨[], props⟩]) = none ∧ properties exImp (⟨[], [(key, [])]⟩ :: rules) = none := by
  refine ⟨?_, ?_⟩
  · unfold styleRules
    rw [Option.map_eq_none_iff]
    induction rules with
    | nil => rfl
    | cons r rules ih =>
      rw [List.cons_append, List.mapM_cons, ih]
      cases withKey r <;> rfl
  · simp [properties, propStep]

/-- The hypotheses: a more specific rule, and an important declaration in a less specific one. -/
example : ∃ rules : List (Rule Nat Nat), rules.length = 3 ∧ (∀ r ∈ rules, r.prelude ≠ []) ∧ (∀ r ∈ rules, ∀ kv ∈ r.props, kv.2 ≠ []) ∧
    (∀ r ∈ rules, (r.props.map (·.1)).Nodup) ∧
    (styleRules rules).bind (fun rs => properties exImp (selectElement exEnv exEl [0, 0, 0] rs)) = some [([7], [1])] := by
  refine ⟨[exRule (exName 30) [1, 0], exRule { names := [[30]], classes := [[11]] } [2], exRule (exName 30) [3]], rfl, ?_, ?_, ?_, by decide⟩
  · simp [exRule]
  · simp [exRule]
  · simp [exRule]

end Parce.Css

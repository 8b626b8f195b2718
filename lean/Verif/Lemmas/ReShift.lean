import Verif.Lemmas.Re
import Verif.Spec.Rebuild
/-!
# Matching does not depend on the text far before the position
-/
namespace Parce
variable {α L A : Type}

/-- The groups, moved by `a` positions. -/
def Caps.move (a : Nat) (c : Caps) : Caps := c.map (fun x => (x.1, x.2.1 + a, x.2.2 + a))

/-- An end, moved by `a` positions. -/
def moveEnd (a : Nat) (r : Nat × Caps) : Nat × Caps := (r.1 + a, Caps.move a r.2)

theorem flatMap_same {β γ : Type} {l : List β} {f g : β → List γ} (h : ∀ x ∈ l, f x = g x) : l.flatMap f = l.flatMap g := by
  induction l with
  | nil => rfl
  | cons a l ih =>
    simp only [List.flatMap_cons]
    rw [h a (by simp), ih (fun x hx => h x (by simp [hx]))]

theorem starRun_move {step step' : Nat → Caps → List (Nat × Caps)} {a j n : Nat}
    (hb : ∀ p c, ∀ r ∈ step' p c, r.1 ≤ n ∨ r.1 = p)
    (hs : ∀ p c, j ≤ p → p ≤ n → step (p + a) (Caps.move a c) = (step' p c).map (moveEnd a)) :
    ∀ fuel p c, j ≤ p → p ≤ n → starRun step fuel (p + a) (Caps.move a c) = (starRun step' fuel p c).map (moveEnd a) := by
  intro fuel
  induction fuel with
  | zero => intro p c _ _; simp [starRun, moveEnd]
  | succ k ih =>
    intro p c hp hn
    simp only [starRun, hs p c hp hn, List.flatMap_map, List.map_append, List.map_cons, List.map_nil, List.map_flatMap]
    congr 1
    · apply flatMap_same
      intro r hr
      have := hb p c r hr
      by_cases h : p < r.1
      · rw [if_pos h, if_pos (by simp only [moveEnd]; omega)]
        exact ih r.1 r.2 (by omega) (by omega)
      · rw [if_neg h, if_neg (by simp only [moveEnd]; omega)]; rfl

theorem lazyRun_move {step step' : Nat → Caps → List (Nat × Caps)} {a j n : Nat}
    (hb : ∀ p c, ∀ r ∈ step' p c, r.1 ≤ n ∨ r.1 = p)
    (hs : ∀ p c, j ≤ p → p ≤ n → step (p + a) (Caps.move a c) = (step' p c).map (moveEnd a)) :
    ∀ fuel p c, j ≤ p → p ≤ n → lazyRun step fuel (p + a) (Caps.move a c) = (lazyRun step' fuel p c).map (moveEnd a) := by
  intro fuel
  induction fuel with
  | zero => intro p c _ _; simp [lazyRun, moveEnd]
  | succ k ih =>
    intro p c hp hn
    simp only [lazyRun, hs p c hp hn, List.flatMap_map, List.map_cons, List.map_flatMap]
    congr 1
    · apply flatMap_same
      intro r hr
      have := hb p c r hr
      by_cases h : p < r.1
      · rw [if_pos h, if_pos (by simp only [moveEnd]; omega)]
        exact ih r.1 r.2 (by omega) (by omega)
      · rw [if_neg h, if_neg (by simp only [moveEnd]; omega)]; rfl

/-- An expression finds the same ends when the text before the position is left out, but for the
    characters it looks back at. -/
theorem run_move (t : List α) (k j : Nat) (hk : k ≤ t.length) (a : Pat α) : a.Behind j → ∀ p c, j ≤ p → p + k ≤ t.length →
    a.run t (p + k) (Caps.move k c) = (a.run (t.drop k) p c).map (moveEnd k) := by
  induction a with
  | eps => intro _ p c _ _; simp [Pat.run, moveEnd]
  | set f =>
    intro _ p c _ _
    simp only [Pat.run, List.getElem?_drop, Nat.add_comm k p]
    cases t[p + k]? with
    | none => rfl
    | some x =>
      simp only
      split
      · simp [moveEnd]; omega
      · rfl
  | test f =>
    intro h p c hp hn
    simp only [Pat.run]
    rw [Nat.add_comm p k, h t k p hp (by omega)]
    split
    · simp [moveEnd]; omega
    · rfl
  | cat a b iha ihb =>
    intro h p c hp hn
    simp only [Pat.run, iha h.1 p c hp hn, List.flatMap_map, List.map_flatMap]
    apply flatMap_same
    intro r hr
    have := run_bounds hr
    have hl : (t.drop k).length = t.length - k := by simp
    exact ihb h.2 r.1 r.2 (by omega) (by omega)
  | alt a b iha ihb =>
    intro h p c hp hn
    simp only [Pat.run, iha h.1 p c hp hn, ihb h.2 p c hp hn, List.map_append]
  | star a ih =>
    intro h p c hp hn
    have hl : (t.drop k).length = t.length - k := by simp
    simp only [Pat.run]
    rw [hl, show t.length - (p + k) = t.length - k - p by omega]
    refine starRun_move (n := t.length - k) (j := j) ?_ ?_ _ p c hp (by omega)
    · intro p c r hr; have := run_bounds hr; omega
    · intro p c h1 h2; exact ih h p c h1 (by omega)
  | lazy a ih =>
    intro h p c hp hn
    have hl : (t.drop k).length = t.length - k := by simp
    simp only [Pat.run]
    rw [hl, show t.length - (p + k) = t.length - k - p by omega]
    refine lazyRun_move (n := t.length - k) (j := j) ?_ ?_ _ p c hp (by omega)
    · intro p c r hr; have := run_bounds hr; omega
    · intro p c h1 h2; exact ih h p c h1 (by omega)
  | grp i a ih =>
    intro h p c hp hn
    simp only [Pat.run, ih h p c hp hn, List.map_map]
    apply List.map_congr_left
    intro r _
    simp [moveEnd, Caps.move]
  | look neg a ih =>
    intro h p c hp hn
    simp only [Pat.run, ih h p c hp hn]
    cases a.run (t.drop k) p c <;> cases neg <;> simp [moveEnd]

theorem rel_move (p k : Nat) (c : Caps) : Caps.rel (p + k) (Caps.move k c) = Caps.rel p c := by
  simp only [Caps.rel, Caps.move, List.map_map]
  apply List.map_congr_left
  intro x _
  simp only [Function.comp, Prod.mk.injEq, true_and]
  omega

theorem allAt_move {t : List α} {k j : Nat} (hk : k ≤ t.length) {pats : List (Pat α)} (h : ∀ a ∈ pats, a.Behind j)
    {p : Nat} (hj : j ≤ p) (hn : p + k ≤ t.length) : ∀ i,
    allAt t (p + k) i pats = (allAt (t.drop k) p i pats).map (RB.Mtch.move k) := by
  induction pats with
  | nil => intro i; rfl
  | cons a as ih =>
    intro i
    have h1 := run_move t k j hk a (h a (by simp)) p [] hj hn
    simp only [Caps.move, List.map_nil] at h1
    simp only [allAt, h1, ih (fun b hb => h b (by simp [hb])), List.map_append, List.map_map]
    congr 1
    apply List.map_congr_left
    intro r _
    simp [RB.Mtch.move, moveEnd, rel_move]

theorem rxMatch_move {t : List α} {k j : Nat} (hk : k ≤ t.length) {pats : List (Pat α)} (h : ∀ a ∈ pats, a.Behind j)
    {p : Nat} (hj : j ≤ p) : rxMatch pats t (p + k) = (rxMatch pats (t.drop k) p).map (RB.Mtch.move k) := by
  unfold rxMatch
  have hl : (t.drop k).length = t.length - k := by simp
  rw [hl]
  by_cases hn : p + k ≤ t.length
  · rw [if_pos hn, if_pos (by omega), allAt_move hk h hj hn, List.head?_map]
  · rw [if_neg hn, if_neg (by omega)]; rfl

theorem rxScan_move {t : List α} {k j : Nat} (hk : k ≤ t.length) {pats : List (Pat α)} (h : ∀ a ∈ pats, a.Behind j) :
    ∀ fuel p, j ≤ p → rxScan pats t fuel (p + k) = (rxScan pats (t.drop k) fuel p).map (RB.Mtch.move k) := by
  intro fuel
  induction fuel with
  | zero => intro p _; rfl
  | succ n ih =>
    intro p hj
    simp only [rxScan, rxMatch_move hk h hj]
    cases rxMatch pats (t.drop k) p with
    | some m => rfl
    | none =>
      simp only [Option.map_none]
      rw [show p + k + 1 = p + 1 + k by omega]
      exact ih (p + 1) (by omega)

theorem rxSearch_move {t : List α} {k j : Nat} (hk : k ≤ t.length) {pats : List (Pat α)} (h : ∀ a ∈ pats, a.Behind j)
    {p : Nat} (hj : j ≤ p) (hn : p + k ≤ t.length) (b : Bool) :
    rxSearch pats t (p + k) b = (rxSearch pats (t.drop k) p b).map (RB.Mtch.move k) := by
  unfold rxSearch
  have hl : (t.drop k).length = t.length - k := by simp
  rw [hl]
  have hne : rxNonempty pats t (p + k) = (rxNonempty pats (t.drop k) p).map (RB.Mtch.move k) := by
    unfold rxNonempty
    rw [allAt_move hk h hj hn, List.find?_map]
    congr 2
    funext m
    simp [RB.Mtch.move]
  cases b with
  | false =>
    simp only [Bool.false_eq_true, if_false]
    rw [show t.length + 1 - (p + k) = t.length - k + 1 - p by omega]
    exact rxScan_move hk h _ p hj
  | true =>
    simp only [if_true, hne]
    cases rxNonempty pats (t.drop k) p with
    | some m => rfl
    | none =>
      simp only [Option.map_none]
      rw [show t.length - (p + k) = t.length - k - p by omega, show p + k + 1 = p + 1 + k by omega]
      exact rxScan_move hk h _ (p + 1) (by omega)

theorem slice_move (t : List α) (k a b : Nat) : slice t (a + k) (b + k) = slice (t.drop k) a b := by
  unfold slice
  apply List.ext_getElem?
  intro i
  simp only [List.getElem?_drop, List.getElem?_take]
  by_cases h : a + k + i < b + k
  · rw [if_pos h, if_pos (by omega)]; congr 1; omega
  · rw [if_neg h, if_neg (by omega)]

theorem ruleOut_move (t : List α) (k : Nat) (noAct : A) (rules : List (PRule α L A)) (m : Mtch RM) :
    ruleOut noAct rules t (RB.Mtch.move k m) = ruleOut noAct rules (t.drop k) m := by
  unfold ruleOut groupTexts
  simp only [RB.Mtch.move, slice_move]

theorem bound_behind (w : α → Bool) : (Pat.bound w).Behind 1 := by
  intro t a p hp _
  have e1 : (a + p != 0) = true := by simp; omega
  have e2 : (p != 0) = true := by simp; omega
  simp only [e1, e2, List.getElem?_drop]
  rw [show a + p - 1 = a + (p - 1) by omega]

theorem Behind.mono {a : Pat α} {j k : Nat} (h : a.Behind j) (hjk : j ≤ k) : a.Behind k := by
  induction a with
  | eps => trivial
  | set f => trivial
  | test f => exact fun t a p hp ht => h t a p (by omega) ht
  | cat a b iha ihb => exact ⟨iha h.1, ihb h.2⟩
  | alt a b iha ihb => exact ⟨iha h.1, ihb h.2⟩
  | star a ih => exact ih h
  | lazy a ih => exact ih h
  | grp i a ih => exact ih h
  | look neg a ih => exact ih h

theorem chr_behind [DecidableEq α] (c : α) (j : Nat) : (Pat.chr c).Behind j := trivial

theorem str_behind [DecidableEq α] (w : List α) (j : Nat) : (Pat.str w).Behind j := by
  induction w with
  | nil => trivial
  | cons c w ih =>
    cases w with
    | nil => trivial
    | cons d w => exact ⟨trivial, ih⟩

theorem alts_behind {l : List (Pat α)} {j : Nat} (h : ∀ a ∈ l, a.Behind j) : (Pat.alts l).Behind j := by
  induction l with
  | nil => trivial
  | cons a l ih =>
    cases l with
    | nil => exact h a (by simp)
    | cons b l => exact ⟨h a (by simp), ih (fun x hx => h x (by simp [hx]))⟩

theorem times_behind {a : Pat α} {j : Nat} (h : a.Behind j) (n : Nat) : (a.times n).Behind j := by
  induction n with
  | zero => trivial
  | succ n ih => exact ⟨h, ih⟩

theorem compile_behindN (noAct : A) (rules : List (PRule α L A)) (d : Dflt α L A) {j : Nat}
    (h : ∀ r ∈ rules, r.pat.Behind j) : RB.Behind j (compile noAct rules d) := by
  unfold compile
  split
  · trivial
  · have h' : ∀ a ∈ rules.map (·.pat), a.Behind j := by
      intro a ha
      obtain ⟨r, hr, rfl⟩ := List.mem_map.1 ha
      exact h r hr
    exact ⟨fun t a p b hj hp => rxSearch_move (by omega) h' hj hp b, fun t a p hj hp => rxMatch_move (by omega) h' hj,
      fun t p m _ hp => ruleOut_move t p noAct _ m⟩

/-- Patterns that do not look back give a lexicon that does not. -/
theorem compile_behind (noAct : A) (rules : List (PRule α L A)) (d : Dflt α L A)
    (h : ∀ r ∈ rules, r.pat.Behind 0) : RB.NoLookbehind (compile noAct rules d) := by
  unfold compile
  split
  · trivial
  · have h' : ∀ a ∈ rules.map (·.pat), a.Behind 0 := by
      intro a ha
      obtain ⟨r, hr, rfl⟩ := List.mem_map.1 ha
      exact h r hr
    refine ⟨fun t p b hp => ?_, fun t p hp => ?_, fun t p m hp => ruleOut_move t p noAct _ m⟩
    · have := rxSearch_move hp h' (Nat.le_refl 0) (by omega) b
      rw [Nat.zero_add] at this; exact this
    · have := rxMatch_move hp h' (Nat.le_refl 0)
      rw [Nat.zero_add] at this; exact this

/-- The text of a match can be matched by the pattern of its rule. -/
theorem allAt_text {t : List α} {p : Nat} {rules : List (PRule α L A)} {m : Mtch RM}
    (h : m ∈ allAt t p 0 (rules.map (·.pat))) : ∃ r, rules[m.rest.index]? = some r ∧ r ∈ rules ∧ r.pat.text (slice t m.start m.stop) := by
  obtain ⟨h1, h2, _, _, a, h3, h4⟩ := mem_allAt h
  simp only [Nat.sub_zero, List.getElem?_map, Option.map_eq_some_iff] at h3
  obtain ⟨r, h5, rfl⟩ := h3
  exact ⟨r, h5, List.mem_of_getElem? h5, t, p, m.stop, h4, by rw [h1]⟩

theorem rxMatch_mem {pats : List (Pat α)} {t : List α} {p : Nat} {m : Mtch RM} (h : rxMatch pats t p = some m) :
    m ∈ allAt t p 0 pats := by
  unfold rxMatch at h
  split at h
  · exact List.mem_of_mem_head? h
  · cases h

theorem rxSearch_mem {pats : List (Pat α)} {t : List α} {p : Nat} {b : Bool} {m : Mtch RM} (h : rxSearch pats t p b = some m) :
    m ∈ allAt t m.start 0 pats := by
  unfold rxSearch at h
  split at h
  · split at h
    · next m' hm =>
      injection h with h; subst h
      have := (rxNonempty_some hm).1
      rw [this]
      exact List.mem_of_find?_eq_some hm
    · exact rxMatch_mem (rxScan_some h).2.1
  · exact rxMatch_mem (rxScan_some h).2.1

/-- A token of a compiled lexicon is a match of a rule, or text with the default action. -/
theorem compile_tok [DecidableEq α] {noAct : A} {rules : List (PRule α L A)} {d : Dflt α L A} {t : List α} {p : Nat} {b : Bool}
    {tok : Tok α L A RM} {q : PS RM} (h : parseNext noAct (compile noAct rules d) t (.at p b) = some (tok, q)) (ht : tok.text ≠ []) :
    (∃ r ∈ rules, ∃ gs, r.pat.text tok.text ∧ tok.act = (r.out tok.text gs).1 ∧ tok.tgt = (r.out tok.text gs).2) ∨
    (∃ f, d = .action f ∧ tok.act = f tok.text ∧ tok.tgt = none) := by
  have hmatch : ∀ (rs : List (PRule α L A)) (m : Mtch RM), m ∈ allAt t m.start 0 (rs.map (·.pat)) →
      matchTok (ruleOut noAct rs) t m = (tok, q) →
      ∃ r ∈ rs, ∃ gs, r.pat.text tok.text ∧ tok.act = (r.out tok.text gs).1 ∧ tok.tgt = (r.out tok.text gs).2 := by
    intro rs m hm h
    obtain ⟨r, h1, h2, h3⟩ := allAt_text hm
    simp only [matchTok, ruleOut, h1, Prod.mk.injEq] at h
    rw [← h.1]
    exact ⟨r, h2, groupTexts t m, h3, rfl, rfl⟩
  have htail : ∀ p, tailTok (ρ := RM) noAct d t p = some (tok, q) → ∃ f, d = .action f ∧ tok.act = f tok.text ∧ tok.tgt = none := by
    intro p h
    unfold tailTok at h
    split at h
    · split at h
      · cases h
      · simp only [Option.some.injEq, Prod.mk.injEq] at h
        rw [← h.1]
        exact ⟨_, rfl, rfl, rfl⟩
      · simp only [Option.some.injEq, Prod.mk.injEq] at h
        rw [← h.1] at ht
        exact absurd rfl ht
    · cases h
  unfold compile at h
  cases rules with
  | nil => simp only [parseNext] at h; exact Or.inr (htail _ h)
  | cons r0 rs =>
    simp only [parseNext] at h
    cases d with
    | skip =>
      simp only at h
      split at h
      · next m hm =>
        simp only [Option.some.injEq] at h
        exact Or.inl (hmatch (r0 :: rs) m (rxSearch_mem hm) h)
      · cases h
    | action f =>
      simp only at h
      split at h
      · next m hm =>
        split at h
        · simp only [Option.some.injEq, Prod.mk.injEq] at h
          rw [← h.1]
          exact Or.inr ⟨f, rfl, rfl, rfl⟩
        · simp only [Option.some.injEq] at h
          exact Or.inl (hmatch (r0 :: rs) m (rxSearch_mem hm) h)
      · exact Or.inr (htail _ h)
    | target tg =>
      simp only at h
      split at h
      · next m hm =>
        simp only [Option.some.injEq] at h
        have := (rxMatch_some hm).1
        have hm' := rxMatch_mem hm
        rw [← this] at hm'
        exact Or.inl (hmatch (r0 :: rs) m hm' h)
      · exact Or.inr (htail _ h)

theorem patLang_moved (noAct : A) (skip : A → Bool) (consume : L → Bool) (rules : L → List (PRule α L A)) (d : L → Dflt α L A) :
    RB.ExpandsMoved (patLang noAct skip consume rules d) := by
  intro k a
  simp only [patLang, RB.Tok.move]
  split <;> rfl

theorem patLang_within [DecidableEq α] (noAct : A) (skip : A → Bool) (consume : L → Bool) (rules : L → List (PRule α L A)) (d : L → Dflt α L A)
    (t : List α) : ExpandsWithin (patLang noAct skip consume rules d) t := by
  intro _ _ _ tok _ _ h1 h2 h3
  simp only [patLang]
  split
  · exact Nat.le_add_right _ _
  · exact ⟨Nat.le_refl _, h1, h2, h3, Nat.le_refl _⟩

theorem patLang_atStart [DecidableEq α] (noAct : A) (skip : A → Bool) (consume : L → Bool) (rules : L → List (PRule α L A)) (d : L → Dflt α L A) :
    RB.ExpandsAtStart (patLang noAct skip consume rules d) := by
  intro _ _ _ _ k lx ls _ _ _ h
  simp only [patLang] at h
  split at h
  · cases h
  · simp only [List.cons.injEq] at h
    rw [← h.1]

/-- A language of compiled lexicons in which tokens that look the same have the same target. -/
theorem patLang_determined [DecidableEq α] (noAct : A) (skip : A → Bool) (consume : L → Bool) (rules : L → List (PRule α L A))
    (d : L → Dflt α L A) (h : ∀ l, SameLooks (rules l) (d l)) : RB.Determined (patLang noAct skip consume rules d) := by
  intro l t t' p p' b b' tok tok' q q' lx lx' ls ls' _ _ h1 h2 ht ht' he he' htext hact
  simp only [patLang] at he he'
  split at he
  · cases he
  split at he'
  · cases he'
  simp only [List.cons.injEq] at he he'
  obtain ⟨rfl, rfl⟩ := he
  obtain ⟨rfl, rfl⟩ := he'
  simp only at htext hact
  refine ⟨by rw [htext], ?_, ?_⟩
  · rcases compile_tok h1 ht with ⟨r, hr, gs, g1, g2, g3⟩ | ⟨f, g1, g2, g3⟩
    · rcases compile_tok h2 ht' with ⟨r', hr', gs', g1', g2', g3'⟩ | ⟨f, g1', g2', g3'⟩
      · rw [g3, g3', ← htext]
        rw [← htext] at g1' g2'
        exact (h l r hr _ gs ht g1).1 r' hr' gs' g1' (by rw [← g2, hact, g2'])
      · rw [g3, g3']
        exact (h l r hr _ gs ht g1).2 f g1' (by rw [← g2, hact, g2', htext])
    · rcases compile_tok h2 ht' with ⟨r', hr', gs', g1', g2', g3'⟩ | ⟨f', g1', g2', g3'⟩
      · rw [g3, g3']
        exact ((h l r' hr' _ gs' ht' g1').2 f g1 (by rw [← g2', ← hact, g2, htext])).symm
      · rw [g3, g3']
  · simp only [List.map_cons, List.map_nil, RB.Lexeme.move, List.cons.injEq, Lexeme.mk.injEq, and_true]
    exact ⟨by omega, htext.symm, hact.symm⟩

end Parce

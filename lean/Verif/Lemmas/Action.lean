import Verif.Spec.Action
import Verif.Lemmas.ReShift
import Verif.Lemmas.GoesGroup
/-!
# Lemmas about dynamic actions
-/
namespace Parce
variable {α L A : Type}

/-! ### The captured groups -/

/-- The groups follow each other between `p` and `q`. -/
def Ord : Nat → Nat → Caps → Prop
  | p, q, [] => p ≤ q
  | p, q, (_, s, e) :: r => p ≤ s ∧ s ≤ e ∧ Ord e q r

theorem Ord.append {p q r : Nat} {x y : Caps} (h1 : Ord p q x) (h2 : Ord q r y) : Ord p r (x ++ y) := by
  induction x generalizing p with
  | nil =>
    cases y with
    | nil => simp only [Ord, List.append_nil] at *; omega
    | cons c y => obtain ⟨_, s, e⟩ := c; exact ⟨Nat.le_trans h1 h2.1, h2.2⟩
  | cons c x ih =>
    obtain ⟨_, s, e⟩ := c
    exact ⟨h1.1, h1.2.1, ih h1.2.2⟩

theorem starRun_noGroups {step : Nat → Caps → List (Nat × Caps)} (h : ∀ p c, ∀ r ∈ step p c, r.2 = c) :
    ∀ fuel p c, ∀ r ∈ starRun step fuel p c, r.2 = c := by
  intro fuel
  induction fuel with
  | zero => intro p c r hr; simp only [starRun, List.mem_singleton] at hr; rw [hr]
  | succ n ih =>
    intro p c r hr
    simp only [starRun, List.mem_append, List.mem_flatMap, List.mem_singleton] at hr
    rcases hr with ⟨x, h1, h2⟩ | rfl
    · split at h2
      · rw [ih _ _ _ h2, h _ _ _ h1]
      · cases h2
    · rfl

theorem run_noGroups (t : List α) (a : Pat α) : a.NoGroups → ∀ p c, ∀ r ∈ a.run t p c, r.2 = c := by
  induction a with
  | eps => intro _ p c r hr; simp only [Pat.run, List.mem_singleton] at hr; rw [hr]
  | set f =>
    intro _ p c r hr
    simp only [Pat.run] at hr
    split at hr
    · split at hr
      · simp only [List.mem_singleton] at hr; rw [hr]
      · cases hr
    · cases hr
  | test f =>
    intro _ p c r hr
    simp only [Pat.run] at hr
    split at hr
    · simp only [List.mem_singleton] at hr; rw [hr]
    · cases hr
  | cat a b iha ihb =>
    intro h p c r hr
    simp only [Pat.run, List.mem_flatMap] at hr
    obtain ⟨x, h1, h2⟩ := hr
    rw [ihb h.2 _ _ _ h2, iha h.1 _ _ _ h1]
  | alt a b iha ihb =>
    intro h p c r hr
    simp only [Pat.run, List.mem_append] at hr
    rcases hr with hr | hr
    · exact iha h.1 _ _ _ hr
    · exact ihb h.2 _ _ _ hr
  | star a ih => intro h p c r hr; exact starRun_noGroups (ih h) _ _ _ r hr
  | lazy a ih => intro h p c r hr; exact starRun_noGroups (ih h) _ _ _ r ((mem_lazyRun _ _ _ _).1 hr)
  | grp i a ih => intro h; cases h
  | look neg a ih =>
    intro h p c r hr
    simp only [Pat.run] at hr
    split at hr
    · simp only [List.mem_singleton] at hr; rw [hr]
    · cases hr
    · cases hr
    · next x _ hx =>
      simp only [List.mem_singleton] at hr
      rw [hr]
      exact ih h p c x (by rw [hx]; exact List.mem_cons_self ..)

theorem noGroups_nos (a : Pat α) : a.NoGroups → a.groupNos = [] := by
  induction a with
  | cat a b iha ihb | alt a b iha ihb => intro h; simp only [Pat.groupNos, iha h.1, ihb h.2, List.append_nil]
  | star a ih | lazy a ih | look _ a ih => intro h; exact ih h
  | grp i a ih => intro h; cases h
  | eps | set f | test f => intro _; rfl

/-- What is captured by an expression whose groups follow each other. -/
theorem run_chain (t : List α) (a : Pat α) : a.Chain → ∀ p c, ∀ r ∈ a.run t p c,
    ∃ new : Caps, r.2 = new.reverse ++ c ∧ (new.map (·.1)).Sublist a.groupNos ∧ Ord p r.1 new := by
  have bd : ∀ (a : Pat α) p c, ∀ r ∈ a.run t p c, p ≤ r.1 := fun a p c r hr =>
    (mat_bounds t a p r.1 ((run_mat t a p c r.1).1 ⟨r.2, hr⟩)).1
  have none' : ∀ (a : Pat α), a.NoGroups → ∀ p c, ∀ r ∈ a.run t p c,
      ∃ new : Caps, r.2 = new.reverse ++ c ∧ (new.map (·.1)).Sublist a.groupNos ∧ Ord p r.1 new := by
    intro a h p c r hr
    exact ⟨[], by rw [run_noGroups t a h p c r hr]; rfl, List.nil_sublist _, bd a p c r hr⟩
  induction a with
  | eps | set f | test f => intro _; exact none' _ trivial
  | star a ih => intro h; exact none' (.star a) h
  | lazy a ih => intro h; exact none' (.lazy a) h
  | look neg a ih => intro h; exact none' (.look neg a) h
  | cat a b iha ihb =>
    intro h p c r hr
    simp only [Pat.run, List.mem_flatMap] at hr
    obtain ⟨x, h1, h2⟩ := hr
    obtain ⟨n1, e1, s1, o1⟩ := iha h.1 _ _ _ h1
    obtain ⟨n2, e2, s2, o2⟩ := ihb h.2 _ _ _ h2
    refine ⟨n1 ++ n2, by rw [e2, e1]; simp, ?_, o1.append o2⟩
    rw [List.map_append]
    exact s1.append s2
  | alt a b iha ihb =>
    intro h p c r hr
    simp only [Pat.run, List.mem_append] at hr
    rcases hr with hr | hr
    · obtain ⟨n1, e1, s1, o1⟩ := iha h.1 _ _ _ hr
      exact ⟨n1, e1, s1.trans (List.sublist_append_left _ _), o1⟩
    · obtain ⟨n1, e1, s1, o1⟩ := ihb h.2 _ _ _ hr
      exact ⟨n1, e1, s1.trans (List.sublist_append_right _ _), o1⟩
  | grp i a ih =>
    intro h p c r hr
    simp only [Pat.run, List.mem_map] at hr
    obtain ⟨x, h1, rfl⟩ := hr
    refine ⟨[(i, p, x.1)], by rw [run_noGroups t a h p c x h1]; rfl, ?_, ?_⟩
    · simp only [List.map_cons, List.map_nil, Pat.groupNos]
      exact List.Sublist.cons_cons _ (List.nil_sublist _)
    · exact ⟨Nat.le_refl _, bd a p c x h1, Nat.le_refl _⟩

/-! ### What the tokens are -/

theorem mem_allAt_caps {t : List α} {p : Nat} {m : Mtch RM} : ∀ {rules : List (PRule α L A)} {i : Nat}, m ∈ allAt t p i (rules.map (·.pat)) →
    ∃ r c, rules[m.rest.index - i]? = some r ∧ i ≤ m.rest.index ∧ (m.stop, c) ∈ r.pat.run t p [] ∧ m.rest.caps = Caps.rel p c ∧ m.start = p := by
  intro rules
  induction rules with
  | nil => intro i h; cases h
  | cons r rs ih =>
    intro i h
    simp only [List.map_cons, allAt, List.mem_append, List.mem_map] at h
    rcases h with ⟨x, h1, rfl⟩ | h
    · exact ⟨r, x.2, by simp, Nat.le_refl _, h1, rfl, rfl⟩
    · obtain ⟨r', c, h1, h2, h3⟩ := ih h
      refine ⟨r', c, ?_, by omega, h3⟩
      rw [show m.rest.index - i = (m.rest.index - (i + 1)) + 1 by omega, List.getElem?_cons_succ, h1]

/-- A token of a compiled lexicon is a match of a rule, or text with the default action. -/
theorem compile_tok_caps [DecidableEq α] {noAct : A} {rules : List (PRule α L A)} {d : Dflt α L A} {t : List α} {ps : PS RM}
    {tok : Tok α L A RM} {q : PS RM} (hps : PSOK t (compile noAct rules d) ps) (h : parseNext noAct (compile noAct rules d) t ps = some (tok, q))
    (ht : tok.text ≠ []) :
    (∃ m r c gs, tok.mtch = some m ∧ r ∈ rules ∧ (m.stop, c) ∈ r.pat.run t tok.pos [] ∧ m.rest.caps = Caps.rel tok.pos c ∧
      m.start = tok.pos ∧ tok.text = slice t tok.pos m.stop ∧ tok.act = (r.out tok.text gs).1) ∨
    (tok.mtch = none ∧ ∃ f w, d = .action f ∧ tok.act = f w) := by
  have hmatch : ∀ (rs : List (PRule α L A)) (m : Mtch RM), m ∈ allAt t m.start 0 (rs.map (·.pat)) →
      matchTok (ruleOut noAct rs) t m = (tok, q) →
      ∃ m r c gs, tok.mtch = some m ∧ r ∈ rs ∧ (m.stop, c) ∈ r.pat.run t tok.pos [] ∧ m.rest.caps = Caps.rel tok.pos c ∧
      m.start = tok.pos ∧ tok.text = slice t tok.pos m.stop ∧ tok.act = (r.out tok.text gs).1 := by
    intro rs m hm h
    obtain ⟨r, c, h1, _, h2, h3, _⟩ := mem_allAt_caps hm
    rw [Nat.sub_zero] at h1
    simp only [matchTok, ruleOut, h1, Prod.mk.injEq] at h
    rw [← h.1]
    exact ⟨m, r, c, groupTexts t m, rfl, List.mem_of_getElem? h1, h2, h3, rfl, rfl, rfl⟩
  have htail : ∀ p, tailTok (ρ := RM) noAct d t p = some (tok, q) → tok.mtch = none ∧ ∃ f w, d = .action f ∧ tok.act = f w := by
    intro p h
    unfold tailTok at h
    split at h
    · split at h
      · cases h
      · simp only [Option.some.injEq, Prod.mk.injEq] at h
        rw [← h.1]
        exact ⟨rfl, _, _, rfl, rfl⟩
      · simp only [Option.some.injEq, Prod.mk.injEq] at h
        rw [← h.1] at ht
        exact absurd rfl ht
    · cases h
  unfold compile at h hps
  cases rules with
  | nil =>
    cases ps with
    | «at» p b => simp only [parseNext] at h; exact Or.inr (htail _ h)
    | pend m => simp [parseNext] at h
    | pendLit i => simp [parseNext] at h
    | stop => simp [parseNext] at h
  | cons r0 rs =>
    cases ps with
    | stop => simp [parseNext] at h
    | pendLit i => simp [parseNext] at h
    | pend m =>
      simp only [parseNext, Option.some.injEq] at h
      obtain ⟨_, _, s, ma, r, f, he, hf⟩ := hps
      simp only [LexDef.regex.injEq] at he
      obtain ⟨rfl, rfl, _, _⟩ := he
      refine Or.inl (hmatch (r0 :: rs) m ?_ h)
      rcases hf with ⟨p, hp⟩ | ⟨p, b, hp⟩
      · have := (rxMatch_some hp).1
        have hm' := rxMatch_mem hp
        rwa [← this] at hm'
      · exact rxSearch_mem hp
    | «at» p b =>
      simp only [parseNext] at h
      cases d with
      | skip =>
        simp only at h
        split at h
        · next m hm =>
          simp only [Option.some.injEq] at h
          exact Or.inl (hmatch (r0 :: rs) m (rxSearch_mem hm) h)
        · cases h
      | action f =>
        simp only at h
        split at h
        · next m hm =>
          split at h
          · simp only [Option.some.injEq, Prod.mk.injEq] at h
            rw [← h.1]
            exact Or.inr ⟨rfl, f, _, rfl, rfl⟩
          · simp only [Option.some.injEq] at h
            exact Or.inl (hmatch (r0 :: rs) m (rxSearch_mem hm) h)
        · exact Or.inr (htail _ h)
      | target tg =>
        simp only at h
        split at h
        · next m hm =>
          simp only [Option.some.injEq] at h
          have := (rxMatch_some hm).1
          have hm' := rxMatch_mem hm
          rw [← this] at hm'
          exact Or.inl (hmatch (r0 :: rs) m hm' h)
        · exact Or.inr (htail _ h)

/-! ### One action -/

theorem slice_inside (t : List α) {a b k s : Nat} (hab : a ≤ b) (hs : s ≤ b - a) : slice (slice t a b) k s = slice t (a + k) (a + s) := by
  unfold slice
  rw [List.take_drop, List.take_take, List.drop_drop, show min (a + s) b = a + s by omega]

/-- What lexing with a lexicon gives lies in the text. -/
def SubOK (sub : L → List α → List (Lexeme α (Act α L A))) : Prop := ∀ l w, Within w 0 w.length (sub l w)

theorem within_shift {t w : List α} {p : Nat} (hw : w = slice t p (p + w.length)) (hp : p + w.length ≤ t.length) :
    ∀ {ls : List (Lexeme α A)} {a b : Nat}, Within w a b ls → b ≤ w.length →
      Within t (p + a) (p + b) (ls.map (fun x => { x with pos := p + x.pos })) := by
  intro ls
  induction ls with
  | nil => intro a b h _; simp only [Within, List.map_nil] at *; omega
  | cons x xs ih =>
    intro a b h hb
    obtain ⟨h1, h2, h3, h4, h5⟩ := h
    refine ⟨by simp only; omega, h2, ?_, by simp only; omega, ?_⟩
    · simp only
      have e : slice w x.pos (x.pos + x.text.length) = slice (slice t p (p + w.length)) x.pos (x.pos + x.text.length) :=
        congrArg (fun l => slice l x.pos (x.pos + x.text.length)) hw
      rw [slice_inside t (Nat.le_add_right _ _) (by omega), ← Nat.add_assoc] at e
      rw [← e]
      exact h3
    · have := ih h5 hb
      simp only
      rw [Nat.add_assoc]
      exact this

theorem filterAct_none {sub : L → List α → List (Lexeme α (Act α L A))} {tok : Tok α L (Act α L A) RM} {a : Act α L A} (h : a.One) :
    ∀ p ls, filterAct sub tok p none a = some ls → ls = [] := by
  induction h with
  | plain a => intro p ls h; simpa [filterAct] using h.symm
  | skip => intro p ls h; simpa [filterAct] using h.symm
  | lexicon l => intro p ls h; simp [filterAct] at h
  | dyn f h1 h2 ih =>
    intro p ls h
    simp only [filterAct] at h
    have g1 := h1 none tok.groupTexts
    have g2 := ih none tok.groupTexts
    generalize f none tok.groupTexts = as at h g1 g2
    match as with
    | [] => simpa [filterAll] using h.symm
    | [a] =>
      simp only [filterAll] at h
      cases hx : filterAct sub tok p none a with
      | none => simp [hx] at h
      | some x =>
        simp only [hx, List.append_nil, Option.some.injEq] at h
        rw [← h]
        exact g2 a (List.mem_singleton.2 rfl) p x hx
    | a :: b :: r => simp at g1

theorem filterAct_within {sub : L → List α → List (Lexeme α (Act α L A))} (hsub : SubOK sub) {t : List α} {tok : Tok α L (Act α L A) RM}
    {a : Act α L A} (h : a.One) : ∀ p w ls, w = slice t p (p + w.length) → p + w.length ≤ t.length →
    filterAct sub tok p (some w) a = some ls → Within t p (p + w.length) ls := by
  induction h with
  | plain a =>
    intro p w ls h1 h2 h
    cases w with
    | nil => simp only [filterAct, Option.some.injEq] at h; rw [← h]; exact Nat.le_add_right _ _
    | cons c w =>
      simp only [filterAct, Option.some.injEq] at h
      rw [← h]
      exact ⟨Nat.le_refl _, by simp, h1, h2, Nat.le_refl _⟩
  | skip => intro p w ls _ _ h; simp only [filterAct, Option.some.injEq] at h; rw [← h]; exact Nat.le_add_right _ _
  | lexicon l =>
    intro p w ls h1 h2 h
    simp only [filterAct, Option.map_some, Option.some.injEq] at h
    rw [← h]
    exact within_shift (a := 0) (b := w.length) h1 h2 (hsub l w) (Nat.le_refl _)
  | dyn f h1 h2 ih =>
    intro p w ls hw hp h
    simp only [filterAct] at h
    have g1 := h1 (some w) tok.groupTexts
    have g2 := ih (some w) tok.groupTexts
    generalize f (some w) tok.groupTexts = as at h g1 g2
    match as with
    | [] => simp only [filterAll, Option.some.injEq] at h; rw [← h]; exact Nat.le_add_right _ _
    | [a] =>
      simp only [filterAll] at h
      cases hx : filterAct sub tok p (some w) a with
      | none => simp [hx] at h
      | some x =>
        simp only [hx, List.append_nil, Option.some.injEq] at h
        rw [← h]
        exact g2 a (List.mem_singleton.2 rfl) p w x hw hp hx
    | a :: b :: r => simp at g1

/-! ### The groups -/

theorem find_reverse {new : Caps} (h : (new.map (·.1)).Pairwise (· < ·)) (i : Nat) :
    new.reverse.find? (fun c => c.1 == i) = new.find? (fun c => c.1 == i) := by
  induction new with
  | nil => rfl
  | cons x r ih =>
    simp only [List.map_cons, List.pairwise_cons] at h
    rw [List.reverse_cons, List.find?_append, ih h.2, List.find?_cons, List.find?_cons]
    by_cases hx : (x.1 == i) = true
    · have hn : r.find? (fun c => c.1 == i) = none := by
        refine List.find?_eq_none.2 (fun y hy => ?_)
        have h1 := h.1 y.1 (List.mem_map.2 ⟨y, hy, rfl⟩)
        simp only [beq_iff_eq] at hx ⊢
        omega
      simp [hx, hn]
    · simp only [Bool.not_eq_true] at hx
      simp [hx]

theorem groupOf_rel {new : Caps} (h : (new.map (·.1)).Pairwise (· < ·)) (p i : Nat) :
    groupOf (Caps.rel p new.reverse) i = (new.find? (fun c => c.1 == i)).map (fun c => (c.2.1 - p, c.2.2 - p)) := by
  unfold groupOf Caps.rel
  rw [List.find?_map]
  rw [show ((fun c : Nat × Nat × Nat => c.1 == i) ∘ fun x : Nat × Nat × Nat => (x.1, x.2.1 - p, x.2.2 - p)) = (fun c => c.1 == i) from rfl,
    find_reverse h, Option.map_map]
  rfl

theorem Ord.le {p q : Nat} {x : Caps} (h : Ord p q x) : p ≤ q := by
  induction x generalizing p with
  | nil => exact h
  | cons c x ih => obtain ⟨_, s, e⟩ := c; have := ih h.2.2; have := h.1; have := h.2.1; omega

/-- The lexemes of groups that follow each other do so as well. -/
theorem filterGroups_within [DecidableEq α] {sub : L → List α → List (Lexeme α (Act α L A))} (hsub : SubOK sub) {t : List α} {tok : Tok α L (Act α L A) RM}
    {caps : Caps} {q : Nat} (hq : q ≤ t.length) (hpq : tok.pos ≤ q) (htext : tok.text = slice t tok.pos q) :
    ∀ (as : List (Act α L A)) (i lo : Nat) (new : Caps) (ls : List (Lexeme α (Act α L A))), (∀ a ∈ as, a.One) → (new.map (·.1)).Pairwise (· < ·) →
      (∀ c ∈ new, i ≤ c.1) → tok.pos ≤ lo → Ord lo q new →
      (∀ j, i ≤ j → groupOf caps j = (new.find? (fun c => c.1 == j)).map (fun c => (c.2.1 - tok.pos, c.2.2 - tok.pos))) →
      filterGroups sub tok caps i as = some ls → Within t lo q ls := by
  intro as
  induction as with
  | nil =>
    intro i lo new ls _ _ _ _ ho _ h
    simp only [filterGroups, Option.some.injEq] at h
    rw [← h]
    exact ho.le
  | cons a as ih =>
    intro i lo new ls hone hinc hge hlo ho hg h
    have h1 := hone a (List.mem_cons_self ..)
    have h2 := fun x hx => hone x (List.mem_cons_of_mem a hx)
    simp only [filterGroups] at h
    have key : ∀ (new' : Caps) (lo' : Nat) (x y : List (Lexeme α (Act α L A))), (new'.map (·.1)).Pairwise (· < ·) → (∀ c ∈ new', i + 1 ≤ c.1) →
        tok.pos ≤ lo' → Ord lo' q new' → (∀ j, i + 1 ≤ j → new'.find? (fun c => c.1 == j) = new.find? (fun c => c.1 == j)) → Within t lo lo' x →
        filterGroups sub tok caps (i + 1) as = some y → Within t lo q (x ++ y) := by
      intro new' lo' x y k1 k2 k3 k4 k5 k6 k7
      refine k6.append (ih (i + 1) lo' new' y h2 k1 k2 k3 k4 (fun j hj => ?_) k7)
      rw [k5 j hj]
      exact hg j (by omega)
    by_cases hc : ∃ s e r, new = (i, s, e) :: r
    · obtain ⟨s, e, r, rfl⟩ := hc
      have hi := hg i (Nat.le_refl _)
      simp only [List.find?_cons, BEq.rfl, Option.map_some] at hi
      simp only [hi] at h
      obtain ⟨o1, o2, o3⟩ := ho
      have o4 := o3.le
      have hsl : slice tok.text (s - tok.pos) (e - tok.pos) = slice t s e := by
        rw [htext, slice_inside t hpq (by omega), show tok.pos + (s - tok.pos) = s by omega, show tok.pos + (e - tok.pos) = e by omega]
      have hlen : (slice t s e).length = e - s := by simp only [slice, List.length_drop, List.length_take]; omega
      rw [hsl, show tok.pos + (s - tok.pos) = s by omega] at h
      cases hx : filterAct sub tok s (some (slice t s e)) a with
      | none => simp [hx] at h
      | some x =>
        cases hy : filterGroups sub tok caps (i + 1) as with
        | none => simp [hx, hy] at h
        | some y =>
          simp only [hx, hy, Option.some.injEq] at h
          rw [← h]
          have hw := filterAct_within hsub (t := t) h1 s (slice t s e) x (by rw [hlen, show s + (e - s) = e by omega]) (by omega) hx
          rw [hlen, show s + (e - s) = e by omega] at hw
          simp only [List.map_cons, List.pairwise_cons] at hinc
          refine key r e x y hinc.2 (fun c hc => hinc.1 c.1 (List.mem_map.2 ⟨c, hc, rfl⟩)) (by omega) o3 (fun j hj => ?_) (hw.mono o1 (Nat.le_refl _)) hy
          rw [List.find?_cons]
          have : ((i : Nat) == j) = false := by simp; omega
          simp [this]
    · have hgt : ∀ c ∈ new, i + 1 ≤ c.1 := by
        intro c hc'
        have := hge c hc'
        by_cases hci : c.1 = i
        · exfalso
          cases new with
          | nil => cases hc'
          | cons y r =>
            simp only [List.map_cons, List.pairwise_cons] at hinc
            rcases List.mem_cons.1 hc' with rfl | hc'
            · exact hc ⟨c.2.1, c.2.2, r, by rw [← hci]⟩
            · have := hinc.1 c.1 (List.mem_map.2 ⟨c, hc', rfl⟩)
              have := hge y (List.mem_cons_self ..)
              omega
        · omega
      have hn : new.find? (fun c => c.1 == i) = none := by
        refine List.find?_eq_none.2 (fun c hc => ?_)
        have := hgt c hc
        simp only [beq_iff_eq]
        omega
      have hi := hg i (Nat.le_refl _)
      rw [hn, Option.map_none] at hi
      simp only [hi] at h
      cases hx : filterAct sub tok 0 none a with
      | none => simp [hx] at h
      | some x =>
        cases hy : filterGroups sub tok caps (i + 1) as with
        | none => simp [hx, hy] at h
        | some y =>
          simp only [hx, hy, Option.some.injEq] at h
          rw [← h, filterAct_none h1 0 x hx]
          exact key new lo [] y hinc hgt hlo ho (fun _ _ => rfl) (Nat.le_refl _) hy

theorem tokLexemes_within [DecidableEq α] {sub : L → List α → List (Lexeme α (Act α L A))} (hsub : SubOK sub) {noAct : Act α L A}
    {rules : List (PRule α L (Act α L A))} {d : Dflt α L (Act α L A)} (hr : ∀ r ∈ rules, ∀ w g, (r.out w g).1.Suits r.pat)
    (hd : ∀ f, d = .action f → ∀ w, (f w).One) {t : List α} {ps ps' : PS RM} {tok : Tok α L (Act α L A) RM}
    (hps : PSOK t (compile noAct rules d) ps) (h : parseNext noAct (compile noAct rules d) t ps = some (tok, ps')) (ht : tok.text ≠ [])
    (h1 : tok.text = slice t tok.pos (tok.pos + tok.text.length)) (h2 : tok.pos + tok.text.length ≤ t.length) :
    Within t tok.pos (tok.pos + tok.text.length) ((tokLexemes sub tok).getD []) := by
  have hnone : Within t tok.pos (tok.pos + tok.text.length) ((none : Option (List (Lexeme α (Act α L A)))).getD []) := Nat.le_add_right _ _
  have hone : tok.act.One → Within t tok.pos (tok.pos + tok.text.length) ((tokLexemes sub tok).getD []) := by
    intro ho
    cases hx : tokLexemes sub tok with
    | none => exact hnone
    | some x => exact filterAct_within hsub ho _ _ _ h1 h2 hx
  rcases compile_tok_caps hps h ht with ⟨m, r, c, gs, e1, e2, e3, e4, e5, e6, e7⟩ | ⟨_, f, w, e1, e2⟩
  · have hs := hr r e2 tok.text gs
    rw [← e7] at hs
    cases ha : tok.act with
    | plain a => exact hone (ha ▸ .plain a)
    | skip => exact hone (ha ▸ .skip)
    | lexicon l => exact hone (ha ▸ .lexicon l)
    | dyn f => rw [ha] at hs; exact hone (ha ▸ hs)
    | groups as =>
      rw [ha] at hs
      obtain ⟨s1, s2, s3⟩ := hs
      obtain ⟨new, n1, n2, n3⟩ := run_chain t r.pat s1 _ _ _ e3
      simp only [List.append_nil] at n1
      have hinc : (new.map (·.1)).Pairwise (· < ·) := (s2 ▸ List.pairwise_lt_range' : r.pat.groupNos.Pairwise (· < ·)).sublist n2
      have hb := mat_bounds t r.pat tok.pos m.stop ((run_mat t r.pat tok.pos [] m.stop).1 ⟨c, e3⟩)
      have hstop : m.stop = tok.pos + tok.text.length := by
        have hl := congrArg List.length e6
        simp only [slice, List.length_drop, List.length_take] at hl
        have := List.length_pos_iff.2 ht
        omega
      cases hx : tokLexemes sub tok with
      | none => exact hnone
      | some x =>
        unfold tokLexemes at hx
        rw [ha] at hx
        simp only [filterAct, e1] at hx
        simp only [Option.getD_some]
        rw [← hstop] at h1 ⊢
        refine filterGroups_within hsub (by omega) hb.1 h1 as 1 tok.pos new x s3 hinc ?_ (Nat.le_refl _) n3 (fun j _ => ?_) hx
        · intro c hc
          have := n2.subset (List.mem_map.2 ⟨c, hc, rfl⟩)
          rw [s2] at this
          exact (List.mem_range'_1.1 this).1
        · rw [e4, n1]
          exact groupOf_rel hinc tok.pos j
  · exact hone (e2 ▸ hd f e1 w)

end Parce

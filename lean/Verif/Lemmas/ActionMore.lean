import Verif.Lemmas.Action
import Verif.Props.Lexer
import Verif.Props.Re
/-!
# Languages with dynamic actions
-/
namespace Parce
variable {α L A : Type}

theorem act_ld [DecidableEq α] (D : ActDef α L A) (fuel : List α → Nat) (n : Nat) (l : L) :
    (actLang D fuel n).ld l = compile D.noAct (D.rules l) (D.dflt l) := by cases n <;> rfl

theorem act_noAct [DecidableEq α] (D : ActDef α L A) (fuel : List α → Nat) (n : Nat) : (actLang D fuel n).noAct = D.noAct := by cases n <;> rfl

theorem act_expand [DecidableEq α] (D : ActDef α L A) (hD : D.Suits) (fuel : List α → Nat) (n : Nat) :
    ∃ sub, SubOK sub ∧ ∀ tok, (actLang D fuel n).expand tok = (tokLexemes sub tok).getD [] := by
  have hcons : ∀ n, (∃ sub, SubOK sub ∧ ∀ tok, (actLang D fuel n).expand tok = (tokLexemes sub tok).getD []) →
      ∀ t, ExpandsWithin (actLang D fuel n) t := by
    intro n ⟨sub, h1, h2⟩ t l ps ps' tok hps h ht htx hle
    rw [h2]
    rw [act_ld] at hps
    rw [act_ld, act_noAct] at h
    exact tokLexemes_within h1 (hD.rules l) (hD.dflt l) hps h ht htx hle
  induction n with
  | zero => exact ⟨_, fun _ _ => Nat.zero_le _, fun _ => rfl⟩
  | succ n ih =>
    refine ⟨_, ?_, fun tok => rfl⟩
    intro l w
    exact C19_lexemes_ordered (actLang D fuel n) w (fun l => by rw [act_ld]; exact compile_ok _ _ _) (hcons n ih w) [l] (by simp) 0 (Nat.zero_le _) _

theorem act_within [DecidableEq α] (D : ActDef α L A) (hD : D.Suits) (fuel : List α → Nat) (n : Nat) (t : List α) :
    ExpandsWithin (actLang D fuel n) t := by
  intro l ps ps' tok hps h ht htx hle
  obtain ⟨sub, h1, h2⟩ := act_expand D hD fuel n
  rw [h2]
  rw [act_ld] at hps
  rw [act_ld, act_noAct] at h
  exact tokLexemes_within h1 (hD.rules l) (hD.dflt l) hps h ht htx hle

/-! ### Moving -/

theorem groupTexts_move (k : Nat) (tok : Tok α L (Act α L A) RM) : (RB.Tok.move k tok).groupTexts = tok.groupTexts := by
  unfold Tok.groupTexts RB.Tok.move
  cases tok.mtch <;> rfl

section
variable (sub : L → List α → List (Lexeme α (Act α L A))) (tok : Tok α L (Act α L A) RM) (k : Nat)

mutual

theorem filterAct_move (p p' : Nat) (w : Option (List α)) (hp : w = none ∨ p' = p + k) : ∀ a, filterAct sub (RB.Tok.move k tok) p' w a =
      (filterAct sub tok p w a).map (List.map (RB.Lexeme.move k))
  | .plain a => by
    match w with
    | none => rfl
    | some [] => rfl
    | some (c :: w) =>
      rcases hp with hp | rfl
      · cases hp
      · rfl
  | .skip => rfl
  | .groups as => by
    simp only [filterAct]
    cases h : tok.mtch with
    | none => simp [RB.Tok.move, h]
    | some m =>
      simp only [RB.Tok.move, h, Option.map_some, RB.Mtch.move]
      have := filterGroups_move m.rest.caps 1 as
      simp only [RB.Tok.move, h, Option.map_some, RB.Mtch.move] at this
      exact this
  | .lexicon l => by
    simp only [filterAct]
    cases w with
    | none => rfl
    | some w =>
      rcases hp with hp | rfl
      · cases hp
      simp only [Option.map_some, List.map_map, Option.some.injEq]
      apply List.map_congr_left
      intro x _
      simp only [Function.comp, RB.Lexeme.move, Lexeme.mk.injEq, and_true]
      omega
  | .dyn f => by
    simp only [filterAct, groupTexts_move]
    exact filterAll_move p p' w hp (f w tok.groupTexts)

theorem filterGroups_move (caps : Caps) (i : Nat) : ∀ as, filterGroups sub (RB.Tok.move k tok) caps i as =
      (filterGroups sub tok caps i as).map (List.map (RB.Lexeme.move k))
  | [] => rfl
  | a :: as => by
    simp only [filterGroups]
    rw [filterGroups_move caps (i + 1) as]
    have h0 : ∀ s e, filterAct sub (RB.Tok.move k tok) ((RB.Tok.move k tok).pos + s) (some (slice (RB.Tok.move k tok).text s e)) a =
        (filterAct sub tok (tok.pos + s) (some (slice tok.text s e)) a).map (List.map (RB.Lexeme.move k)) := by
      intro s e
      exact filterAct_move (tok.pos + s) _ _ (Or.inr (Nat.add_right_comm ..)) a
    have h1 : filterAct sub (RB.Tok.move k tok) 0 none a = (filterAct sub tok 0 none a).map (List.map (RB.Lexeme.move k)) :=
      filterAct_move 0 0 none (Or.inl rfl) a
    cases groupOf caps i with
    | none =>
      simp only [h1]
      cases filterAct sub tok 0 none a <;> cases filterGroups sub tok caps (i + 1) as <;> simp
    | some x =>
      simp only [h0]
      cases filterAct sub tok (tok.pos + x.1) (some (slice tok.text x.1 x.2)) a <;> cases filterGroups sub tok caps (i + 1) as <;> simp

theorem filterAll_move (p p' : Nat) (w : Option (List α)) (hp : w = none ∨ p' = p + k) : ∀ as, filterAll sub (RB.Tok.move k tok) p' w as =
      (filterAll sub tok p w as).map (List.map (RB.Lexeme.move k))
  | [] => rfl
  | a :: as => by
    simp only [filterAll]
    rw [filterAct_move p p' w hp a, filterAll_move p p' w hp as]
    cases filterAct sub tok p w a <;> cases filterAll sub tok p w as <;> simp

end
end

theorem act_moved [DecidableEq α] (D : ActDef α L A) (fuel : List α → Nat) (n : Nat) : RB.ExpandsMoved (actLang D fuel n) := by
  have key : ∀ (sub : L → List α → List (Lexeme α (Act α L A))) (tok : Tok α L (Act α L A) RM) (k : Nat),
      (tokLexemes sub (RB.Tok.move k tok)).getD [] = ((tokLexemes sub tok).getD []).map (RB.Lexeme.move k) := by
    intro sub tok k
    have h : tokLexemes sub (RB.Tok.move k tok) = (tokLexemes sub tok).map (List.map (RB.Lexeme.move k)) :=
      filterAct_move sub tok k tok.pos _ (some tok.text) (Or.inr rfl) tok.act
    rw [h]
    cases tokLexemes sub tok <;> rfl
  intro tok k
  cases n with
  | zero => exact key _ tok k
  | succ n => exact key _ tok k

/-! ### The first lexeme -/

theorem act_atStart [DecidableEq α] (D : ActDef α L A) (hD : D.Suits) (fuel : List α → Nat) (n : Nat)
    (hr : ∀ l, ∀ r ∈ D.rules l, ∀ w g, (r.out w g).1.Begins r.pat) (hd : ∀ l f, D.dflt l = .action f → ∀ w, ∃ a, f w = .plain a) :
    RB.ExpandsAtStart (actLang D fuel n) := by
  obtain ⟨sub, hsub⟩ : ∃ sub, ∀ tok, (actLang D fuel n).expand tok = (tokLexemes sub tok).getD [] := by
    cases n with
    | zero => exact ⟨_, fun _ => rfl⟩
    | succ n => exact ⟨_, fun _ => rfl⟩
  intro t l ps ps' tok lx ls hps h ht hex
  rw [hsub] at hex
  rw [act_ld] at hps
  rw [act_ld, act_noAct] at h
  have hplain : ∀ a, tok.act = .plain a → lx.pos = tok.pos := by
    intro a ha
    simp only [tokLexemes, ha] at hex
    cases htt : tok.text with
    | nil => exact absurd htt ht
    | cons c w =>
      simp only [htt, filterAct, Option.getD_some, List.cons.injEq] at hex
      rw [← hex.1]
  rcases compile_tok_caps hps h ht with ⟨m, r, c, gs, e1, e2, e3, e4, e5, e6, e7⟩ | ⟨_, f, w, e1, e2⟩
  · have hb := hr l r e2 tok.text gs
    rw [← e7] at hb
    cases ha : tok.act with
    | plain a => exact hplain a ha
    | skip => simp [tokLexemes, ha, filterAct] at hex
    | lexicon l => rw [ha] at hb; cases hb
    | dyn f => rw [ha] at hb; cases hb
    | groups as =>
      rw [ha] at hb
      match as, hb with
      | .plain a :: as, hb =>
        obtain ⟨pa, pb, hpat, hcons⟩ := hb
        have hs := hD.rules l r e2 tok.text gs
        rw [← e7, ha] at hs
        obtain ⟨s1, s2, _⟩ := hs
        rw [hpat] at e3 s1 s2
        simp only [Pat.run, List.mem_flatMap, List.mem_map] at e3
        obtain ⟨_, ⟨x, hx, rfl⟩, hb2⟩ := e3
        have hx0 := run_noGroups t pa s1.1 _ _ _ hx
        have hlt := hcons t tok.pos x.1 ((run_mat t pa tok.pos [] x.1).1 ⟨x.2, hx⟩)
        obtain ⟨new, n1, n2, n3⟩ := run_chain t pb s1.2 _ _ _ hb2
        simp only [hx0] at n1
        have hle := n3.le
        simp only at hle
        have hc : c = ((1, tok.pos, x.1) :: new).reverse := by rw [n1]; simp
        have hinc : (((1, tok.pos, x.1) :: new).map (·.1)).Pairwise (· < ·) := by
          refine (s2 ▸ List.pairwise_lt_range' : (Pat.cat (.grp 1 pa) pb).groupNos.Pairwise (· < ·)).sublist ?_
          simp only [Pat.groupNos, List.map_cons, noGroups_nos pa s1.1]
          exact List.Sublist.cons_cons _ n2
        have hg := groupOf_rel hinc tok.pos 1
        rw [← hc, ← e4] at hg
        simp only [List.find?_cons, BEq.rfl, Option.map_some, Nat.sub_self] at hg
        have hne : ∃ y w, slice tok.text 0 (x.1 - tok.pos) = y :: w := by
          cases hsl : slice tok.text 0 (x.1 - tok.pos) with
          | cons y w => exact ⟨y, w, rfl⟩
          | nil =>
            have := congrArg List.length hsl
            have := List.length_pos_iff.2 ht
            simp only [slice, List.length_drop, List.length_take, List.length_nil] at *
            omega
        obtain ⟨y, w, hyw⟩ := hne
        simp only [tokLexemes, ha, filterAct, e1, filterGroups, hg, hyw] at hex
        cases hy : filterGroups sub tok m.rest.caps (1 + 1) as with
        | none => simp [hy] at hex
        | some z =>
          simp only [hy, Option.getD_some, List.cons_append, List.nil_append, List.cons.injEq] at hex
          rw [← hex.1]
          rfl
  · obtain ⟨a, h2⟩ := hd l f e1 w
    exact hplain a (by rw [e2, h2])

/-! ### No exceptions -/

/-- Group `i` is among the captured ones. -/
theorem run_takes (t : List α) (i : Nat) (a : Pat α) : ∀ p c, ∀ r ∈ a.run t p c, (a.Takes i ∨ ∃ x ∈ c, x.1 = i) → a.Chain → ∃ x ∈ r.2, x.1 = i := by
  have keep : ∀ (a : Pat α), a.Chain → ∀ p c, ∀ r ∈ a.run t p c, (∃ x ∈ c, x.1 = i) → ∃ x ∈ r.2, x.1 = i := by
    intro a ha p c r hr ⟨x, h1, h2⟩
    obtain ⟨new, n1, _, _⟩ := run_chain t a ha p c r hr
    exact ⟨x, by rw [n1]; exact List.mem_append_right _ h1, h2⟩
  induction a with
  | cat a b iha ihb =>
    intro p c r hr h hc
    rcases h with h | h
    · simp only [Pat.run, List.mem_flatMap] at hr
      obtain ⟨x, h1, h2⟩ := hr
      rcases h with h | h
      · exact keep b hc.2 _ _ _ h2 (iha _ _ _ h1 (Or.inl h) hc.1)
      · exact ihb _ _ _ h2 (Or.inl h) hc.2
    · exact keep _ hc _ _ _ hr h
  | alt a b iha ihb =>
    intro p c r hr h hc
    rcases h with h | h
    · simp only [Pat.run, List.mem_append] at hr
      rcases hr with hr | hr
      · exact iha _ _ _ hr (Or.inl h.1) hc.1
      · exact ihb _ _ _ hr (Or.inl h.2) hc.2
    · exact keep _ hc _ _ _ hr h
  | grp j a ih =>
    intro p c r hr h hc
    rcases h with h | h
    · simp only [Pat.run, List.mem_map] at hr
      obtain ⟨x, h1, rfl⟩ := hr
      rcases h with h | h
      · exact ⟨_, List.mem_cons_self .., h.symm⟩
      · have : ∀ a : Pat α, a.NoGroups → a.Takes i → False := by
          intro a
          induction a with
          | cat a b iha ihb => intro h1 h2; exact h2.elim (iha h1.1) (ihb h1.2)
          | alt a b iha ihb => intro h1 h2; exact iha h1.1 h2.1
          | grp j a ih => intro h1; cases h1
          | eps | set _ | test _ | star _ _ | lazy _ _ | look _ _ _ => intro _ h2; cases h2
        exact (this a hc h).elim
    · exact keep _ hc _ _ _ hr h
  | eps | set _ | test _ | star _ _ | lazy _ _ | look _ _ _ =>
    intro p c r hr h hc
    rcases h with h | h
    · cases h
    · exact keep _ hc _ _ _ hr h

theorem noLexer_some {sub : L → List α → List (Lexeme α (Act α L A))} {tok : Tok α L (Act α L A) RM} {a : Act α L A} (h : a.NoLexer) :
    ∀ p w, filterAct sub tok p w a ≠ none := by
  induction h with
  | plain a => intro p w; match w with
    | none => simp [filterAct]
    | some [] => simp [filterAct]
    | some (c :: w) => simp [filterAct]
  | skip => intro p w; simp [filterAct]
  | dyn f _ ih =>
    intro p w
    simp only [filterAct]
    have g := ih w tok.groupTexts
    generalize f w tok.groupTexts = as at g
    induction as with
    | nil => simp [filterAll]
    | cons a as ih' =>
      simp only [filterAll]
      have h1 := g a (List.mem_cons_self ..) p w
      have h2 := ih' (fun b hb => g b (List.mem_cons_of_mem _ hb))
      cases hx : filterAct sub tok p w a with
      | none => exact absurd hx h1
      | some x =>
        cases hy : filterAll sub tok p w as with
        | none => exact absurd hy h2
        | some y => simp

theorem one_some {sub : L → List α → List (Lexeme α (Act α L A))} {tok : Tok α L (Act α L A) RM} {a : Act α L A} (h : a.One) :
    ∀ p w, filterAct sub tok p (some w) a ≠ none := by
  induction h with
  | plain a => intro p w; cases w <;> simp [filterAct]
  | skip => intro p w; simp [filterAct]
  | lexicon l => intro p w; simp [filterAct]
  | dyn f h1 _ ih =>
    intro p w
    simp only [filterAct]
    have g := ih (some w) tok.groupTexts
    generalize f (some w) tok.groupTexts = as at g
    induction as with
    | nil => simp [filterAll]
    | cons a as ih' =>
      simp only [filterAll]
      have h1 := g a (List.mem_cons_self ..) p w
      have h2 := ih' (fun b hb => g b (List.mem_cons_of_mem _ hb))
      cases hx : filterAct sub tok p (some w) a with
      | none => exact absurd hx h1
      | some x =>
        cases hy : filterAll sub tok p (some w) as with
        | none => exact absurd hy h2
        | some y => simp

theorem filterGroups_some {sub : L → List α → List (Lexeme α (Act α L A))} {tok : Tok α L (Act α L A) RM} {caps : Caps} :
    ∀ (as : List (Act α L A)) (i : Nat), (∀ a ∈ as, a.One) → (∀ j a, as[j]? = some a → a.NoLexer ∨ groupOf caps (i + j) ≠ none) →
      filterGroups sub tok caps i as ≠ none := by
  intro as
  induction as with
  | nil => intro i _ _; simp [filterGroups]
  | cons a as ih =>
    intro i h1 h2
    have h3 := ih (i + 1) (fun b hb => h1 b (List.mem_cons_of_mem _ hb)) (fun j b hj => by
      have := h2 (j + 1) b (by rw [List.getElem?_cons_succ]; exact hj)
      rwa [show i + (j + 1) = i + 1 + j by omega] at this)
    have h4 := h2 0 a rfl
    simp only [filterGroups]
    cases hy : filterGroups sub tok caps (i + 1) as with
    | none => exact absurd hy h3
    | some y =>
      cases hg : groupOf caps i with
      | none =>
        have : a.NoLexer := h4.resolve_right (by simp [hg])
        simp only
        cases hx : filterAct sub tok 0 none a with
        | none => exact absurd hx (noLexer_some this _ _)
        | some x => simp
      | some g =>
        simp only
        cases hx : filterAct sub tok (tok.pos + g.1) (some (slice tok.text g.1 g.2)) a with
        | none => exact absurd hx (one_some (h1 a (List.mem_cons_self ..)) _ _)
        | some x => simp

/-! ### Groups that cover the match -/

theorem plain_groups (sub : L → List α → List (Lexeme α (Act α L A))) (tok : Tok α L (Act α L A) RM) (caps : Caps) :
    ∀ (as : List A) (i : Nat) (cuts : List Nat) (s : Nat), cuts.length = as.length →
      (∀ j, j < as.length → groupOf caps (i + j) = some (((s :: cuts)[j]?).getD 0, (cuts[j]?).getD 0)) →
      (s :: cuts).Pairwise (· ≤ ·) →
      ∃ ls, filterGroups sub tok caps i (as.map .plain) = some ls ∧ ls.flatMap (·.text) = slice tok.text s ((s :: cuts).getLastD 0) := by
  intro as
  induction as with
  | nil =>
    intro i cuts s h _ _
    have : cuts = [] := List.length_eq_zero_iff.1 h
    subst this
    exact ⟨[], rfl, by simp [slice]⟩
  | cons a as ih =>
    intro i cuts s h hg hp
    match cuts, h with
    | e :: cuts, h =>
      simp only [List.length_cons, Nat.add_right_cancel_iff] at h
      simp only [List.pairwise_cons] at hp
      obtain ⟨ls, h1, h2⟩ := ih (i + 1) cuts e h (fun j hj => by
        have := hg (j + 1) (by simp only [List.length_cons]; omega)
        simpa [show i + (j + 1) = i + 1 + j by omega] using this) (by simp only [List.pairwise_cons]; exact hp.2)
      have h0 := hg 0 (by simp)
      simp only [Nat.add_zero, List.getElem?_cons_zero, Option.getD_some] at h0
      have hse := hp.1 e (List.mem_cons_self ..)
      have hjoin : slice tok.text s e ++ slice tok.text e ((e :: cuts).getLastD 0) = slice tok.text s ((e :: cuts).getLastD 0) := by
        have hel : e ≤ (e :: cuts).getLastD 0 := by
          rw [List.getLastD_eq_getLast?, List.getLast?_eq_some_getLast (List.cons_ne_nil e cuts), Option.getD_some]
          rcases List.mem_cons.1 (List.getLast_mem (List.cons_ne_nil e cuts)) with h | h
          · rw [h]; exact Nat.le_refl _
          · exact hp.2.1 _ h
        generalize (e :: cuts).getLastD 0 = z at hel
        simp only [slice]
        apply List.ext_getElem?
        intro n
        rw [List.getElem?_append]
        simp only [List.length_drop, List.length_take, List.getElem?_drop, List.getElem?_take]
        grind
      have hl : (s :: e :: cuts).getLastD 0 = (e :: cuts).getLastD 0 := by simp
      rw [hl, ← hjoin, ← h2]
      simp only [List.map_cons, filterGroups, h0, h1]
      cases hsl : slice tok.text s e with
      | nil => exact ⟨ls, by simp [filterAct], by simp⟩
      | cons c w => exact ⟨⟨tok.pos + s, c :: w, .plain a⟩ :: ls, by simp [filterAct], by simp⟩

/-- What a row of groups captures. -/
theorem row_run (t : List α) : ∀ (as : List (Pat α)) (i p : Nat) (c : Caps), (∀ a ∈ as, a.NoGroups) → ∀ r ∈ (Pat.groupRow i as).run t p c,
    ∃ cuts : List Nat, cuts.length = as.length ∧ (p :: cuts).Pairwise (· ≤ ·) ∧ (p :: cuts).getLastD 0 = r.1 ∧
      r.2 = ((List.range as.length).map (fun j => (i + j, ((p :: cuts)[j]?).getD 0, (cuts[j]?).getD 0))).reverse ++ c := by
  intro as
  induction as with
  | nil =>
    intro i p c _ r hr
    simp only [Pat.groupRow, Pat.run, List.mem_singleton] at hr
    exact ⟨[], rfl, by simp, by rw [hr]; rfl, by rw [hr]; rfl⟩
  | cons a as ih =>
    intro i p c h r hr
    simp only [Pat.groupRow, Pat.run, List.mem_flatMap, List.mem_map] at hr
    obtain ⟨_, ⟨x, hx, rfl⟩, hr⟩ := hr
    have hx0 := run_noGroups t a (h a (List.mem_cons_self ..)) _ _ _ hx
    have hle := (mat_bounds t a p x.1 ((run_mat t a p c x.1).1 ⟨x.2, hx⟩)).1
    obtain ⟨cuts, c1, c2, c3, c4⟩ := ih (i + 1) x.1 _ (fun b hb => h b (List.mem_cons_of_mem _ hb)) r hr
    simp only [List.pairwise_cons] at c2
    refine ⟨x.1 :: cuts, by simp [c1], ?_, by rw [← c3]; simp, ?_⟩
    · simp only [List.pairwise_cons, List.mem_cons, forall_eq_or_imp]
      exact ⟨⟨hle, fun y hy => Nat.le_trans hle (c2.1 y hy)⟩, c2⟩
    · rw [c4, hx0]
      simp only [List.length_cons, List.range_succ_eq_map, List.map_cons, List.map_map, List.reverse_cons, Nat.add_zero,
        List.getElem?_cons_zero, Option.getD_some, List.append_assoc, List.cons_append, List.nil_append]
      congr 1
      congr 1
      apply List.map_congr_left
      intro j _
      simp only [Function.comp, List.getElem?_cons_succ, Nat.succ_eq_add_one, Prod.mk.injEq, and_true]
      omega

theorem find_range (n i j : Nat) (f : Nat → Nat × Nat) (hj : j < n) :
    ((List.range n).map (fun j => (i + j, f j))).find? (fun c => c.1 == i + j) = some (i + j, f j) := by
  rw [List.find?_map]
  have : (List.range n).find? ((fun c : Nat × Nat × Nat => c.1 == i + j) ∘ fun j => (i + j, f j)) = some j := by
    rw [List.find?_eq_some_iff_getElem]
    refine ⟨by simp, j, by simpa using hj, by simp, ?_⟩
    intro k hk
    simp
    omega
  rw [this]
  rfl

theorem range_inc (n i : Nat) (f : Nat → Nat × Nat) : (((List.range n).map (fun j => (i + j, f j))).map (·.1)).Pairwise (· < ·) := by
  rw [List.map_map, List.pairwise_map]
  refine List.pairwise_lt_range.imp ?_
  intro a b h
  simp only [Function.comp]
  omega

theorem row_covers {sub : L → List α → List (Lexeme α (Act α L A))} {t : List α} {tok : Tok α L (Act α L A) RM} {m : Mtch RM} {c : Caps}
    {pats : List (Pat α)} {as : List A} (hlen : pats.length = as.length) (hn : ∀ a ∈ pats, a.NoGroups) (hm : tok.mtch = some m)
    (hr : (m.stop, c) ∈ (Pat.groupRow 1 pats).run t tok.pos []) (hc : m.rest.caps = Caps.rel tok.pos c)
    (htext : tok.text = slice t tok.pos m.stop) (ha : tok.act = .groups (as.map .plain)) :
    ∃ ls, tokLexemes sub tok = some ls ∧ ls.flatMap (·.text) = tok.text := by
  obtain ⟨cuts, c1, c2, c3, c4⟩ := row_run t pats 1 tok.pos [] hn _ hr
  simp only [List.append_nil] at c4
  have hge : ∀ x ∈ cuts, tok.pos ≤ x := fun x hx => (List.pairwise_cons.1 c2).1 x hx
  obtain ⟨ls, h1, h2⟩ := plain_groups sub tok m.rest.caps as 1 (cuts.map (· - tok.pos)) 0 (by rw [List.length_map, c1, hlen]) (by
    intro j hj
    rw [hc, c4, groupOf_rel (range_inc _ 1 (fun j => (((tok.pos :: cuts)[j]?).getD 0, (cuts[j]?).getD 0))) tok.pos,
      find_range pats.length 1 j (fun j => (((tok.pos :: cuts)[j]?).getD 0, (cuts[j]?).getD 0)) (by omega)]
    simp only [Option.map_some, Option.some.injEq, Prod.mk.injEq]
    constructor
    · cases j with
      | zero => simp
      | succ j =>
        simp only [List.getElem?_cons_succ, List.getElem?_map]
        cases cuts[j]? <;> simp
    · simp only [List.getElem?_map]
      cases cuts[j]? <;> simp) (by
    simp only [List.pairwise_cons, List.mem_map, forall_exists_index, and_imp, forall_apply_eq_imp_iff₂, Nat.zero_le, implies_true, true_and]
    rw [List.pairwise_map]
    refine (List.pairwise_cons.1 c2).2.imp ?_
    intro a b h
    omega)
  refine ⟨ls, by rw [tokLexemes, ha]; simp only [filterAct, hm]; exact h1, ?_⟩
  rw [h2]
  have hl : (0 :: cuts.map (· - tok.pos)).getLastD 0 = m.stop - tok.pos := by
    rw [← (show (tok.pos :: cuts).getLastD 0 = m.stop from c3)]
    cases hcu : cuts.getLast? with
    | none => rw [List.getLast?_eq_none_iff.1 hcu]; simp
    | some z =>
      have e1 : (0 :: cuts.map (· - tok.pos)).getLastD 0 = z - tok.pos := by
        rw [List.getLastD_cons, List.getLastD_eq_getLast?, List.getLast?_map, hcu]; rfl
      have e2 : (tok.pos :: cuts).getLastD 0 = z := by
        rw [List.getLastD_cons, List.getLastD_eq_getLast?, hcu]; rfl
      rw [e1, e2]
  rw [hl, htext]
  simp only [slice, List.drop_zero, List.take_drop, List.take_take]
  congr 2
  omega

/-! ### `grpLang` is a language of that kind -/

/-- The same lexeme, with an action of the other kind. -/
def Lexeme.lift (x : Lexeme α A) : Lexeme α (Act α L A) := ⟨x.pos, x.text, .plain x.act⟩

theorem within_lift {t : List α} : ∀ {ls : List (Lexeme α A)} {a b : Nat},
    Within t a b (ls.map (Lexeme.lift (L := L))) → Within t a b ls := by
  intro ls
  induction ls with
  | nil => intro a b h; exact h
  | cons x xs ih => intro a b h; exact ⟨h.1, h.2.1, h.2.2.1, h.2.2.2.1, ih h.2.2.2.2⟩

/-- The same action. -/
def liftAct (skip : A → Bool) (a : A) : Act α L A := if skip a then .skip else .plain a

/-- The same token. -/
def liftTok (tok : Tok α L A RM) : Tok α L (Act α L A) RM := ⟨tok.pos, tok.text, tok.mtch, .skip, none⟩

theorem groupLexemes_lift [DecidableEq α] (skip : A → Bool) (tok : Tok α L A RM) (caps : Caps) : ∀ (as : List A) (i : Nat),
    filterGroups (fun _ _ => []) (liftTok tok) caps i (as.map (liftAct skip)) =
      some (((as.zipIdx i).flatMap (fun x => groupLexeme skip tok caps x.2 x.1)).map (Lexeme.lift (L := L))) := by
  intro as
  induction as with
  | nil => intro i; rfl
  | cons a as ih =>
    intro i
    simp only [List.map_cons, filterGroups, ih (i + 1), List.zipIdx_cons, List.flatMap_cons, List.map_append]
    unfold groupLexeme liftAct
    cases groupOf caps i with
    | none => by_cases h : skip a = true <;> simp [h, filterAct]
    | some x =>
      by_cases h : skip a = true
      · simp [h, filterAct]
      · simp only [h, liftTok]
        cases hs : slice tok.text x.1 x.2 <;> simp [filterAct, Lexeme.lift]

/-- The lexemes for the groups of a match lie in it. -/
theorem grpLang_within [DecidableEq α] (noAct : A) (skip : A → Bool) (groups : A → Option (List A)) (consume : L → Bool)
    (rules : L → List (PRule α L A)) (d : L → Dflt α L A)
    (h : ∀ l, ∀ r ∈ rules l, ∀ w g as, groups (r.out w g).1 = some as → r.pat.Chain ∧ r.pat.groupNos = List.range' 1 r.pat.groupNos.length)
    (t : List α) : ExpandsWithin (grpLang noAct skip groups consume rules d) t := by
  intro l ps ps' tok hps hp ht h1 h2
  show Within t tok.pos (tok.pos + tok.text.length) (match groups tok.act with
    | some as => groupLexemes skip tok as
    | none => if skip tok.act then [] else [⟨tok.pos, tok.text, tok.act⟩])
  cases hg : groups tok.act with
  | none =>
    simp only
    split
    · exact Nat.le_add_right _ _
    · exact ⟨Nat.le_refl _, ht, h1, h2, Nat.le_refl _⟩
  | some as =>
    simp only [groupLexemes]
    rcases compile_tok_caps hps hp ht with ⟨m, r, c, gs, e1, e2, e3, e4, e5, e6, e7⟩ | ⟨e1, _⟩
    · rw [e1]
      simp only
      rw [e7] at hg
      obtain ⟨s1, s2⟩ := h l r e2 tok.text gs as hg
      obtain ⟨new, n1, n2, n3⟩ := run_chain t r.pat s1 _ _ _ e3
      simp only [List.append_nil] at n1
      have hinc : (new.map (·.1)).Pairwise (· < ·) := (s2 ▸ List.pairwise_lt_range' : r.pat.groupNos.Pairwise (· < ·)).sublist n2
      have hb := mat_bounds t r.pat tok.pos m.stop ((run_mat t r.pat tok.pos [] m.stop).1 ⟨c, e3⟩)
      have hstop : m.stop = tok.pos + tok.text.length := by
        have hl := congrArg List.length e6
        simp only [slice, List.length_drop, List.length_take] at hl
        have := List.length_pos_iff.2 ht
        omega
      rw [← hstop] at h1 ⊢
      refine within_lift (L := L) (filterGroups_within (sub := fun _ _ => []) (tok := liftTok tok) (caps := m.rest.caps) (fun _ _ => Nat.zero_le _)
        (by omega) hb.1 h1 (as.map (liftAct skip)) 1 tok.pos new _ ?_ hinc ?_ (Nat.le_refl _) n3 (fun j _ => ?_) (groupLexemes_lift skip tok m.rest.caps as 1))
      · intro a ha
        obtain ⟨b, _, rfl⟩ := List.mem_map.1 ha
        unfold liftAct
        split
        · exact .skip
        · exact .plain b
      · intro c hc
        have := n2.subset (List.mem_map.2 ⟨c, hc, rfl⟩)
        rw [s2] at this
        exact (List.mem_range'_1.1 this).1
      · rw [e4, n1]
        exact groupOf_rel hinc tok.pos j
    · rw [e1]
      exact Nat.le_add_right _ _

end Parce

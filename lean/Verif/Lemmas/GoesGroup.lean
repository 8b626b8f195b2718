import Verif.Lemmas.ReBest
import Verif.Model.ReGroup
/-!
# More steps of the lexer: lexicons that consume, empty matches, and groups
-/
namespace Parce
variable {α L A ρ : Type}

/-! ### Targets in the factory -/

theorem leaves_succ (n : Nat) : ∀ b : BState α L A, b.leaves (n + 1) = (b.leaves n).leave := by
  induction n with
  | zero => intro b; rfl
  | succ n ih => intro b; rw [BState.leaves, ih, BState.leaves]

theorem enters_kids (ls : List L) : ∀ b : BState α L A, ls ≠ [] → (ls.foldl BState.enter b).cur.kids = [] := by
  induction ls with
  | nil => intro b h; exact absurd rfl h
  | cons l ls ih =>
    intro b _
    cases ls with
    | nil => rfl
    | cons l' ls => exact ih _ (by simp)

/-- Leaving a context with something in it. -/
theorem add_pop_get {fac : Factory L} {b B : BState α L A} (h : b.target fac.get.1 = B) (hk : B.cur.kids ≠ []) :
    b.target (fac.add ⟨1, []⟩).get.1 = B.leave := by
  obtain ⟨fp, fs⟩ := fac
  have hfs : fs = [] := by
    apply Classical.byContradiction
    intro hne
    have : (Factory.mk fp fs).get.1 = some ⟨fp, fs⟩ := by
      unfold Factory.get; rw [if_pos (Or.inr hne)]
    rw [this] at h
    subst h
    exact hk (enters_kids fs _ hne)
  subst hfs
  have h1 : b.leaves fp = B := by
    by_cases h0 : fp = 0
    · subst h0
      simpa [Factory.get, BState.target, BState.leaves] using h
    · simpa [Factory.get, BState.target, h0] using h
  have h2 : ((Factory.mk fp []).add (⟨1, []⟩ : Target L)).get.1 = some ⟨fp + 1, []⟩ := by
    simp [Factory.add, Factory.get]
  rw [h2]
  simp only [BState.target, List.foldl_nil]
  rw [leaves_succ, h1]

variable [DecidableEq α] {lang : Lang α L A ρ} {t : List α}

/-- A token with text and a target that enters lexicons, the last of which wants the token. -/
theorem goes_consume {p : Nat} {B : BState α L A} {o : Bool} {tok : Tok α L A ρ} {ps' : PS ρ} {ls : List L} {a : A}
    (h : parseNext lang.noAct (lang.ld B.cur.lex) t (.at p false) = some (tok, ps')) (ht : tok.text ≠ []) (hg : tok.tgt = some ⟨0, ls⟩)
    (he : lang.expand tok = [⟨tok.pos, tok.text, a⟩]) (hc : (ls.getLast?.map lang.consume).getD false = true) :
    Goes lang t ⟨p, B, o⟩ ⟨tok.pos + tok.text.length, (B.target (some ⟨0, ls⟩)).addTok tok.pos tok.text a, true⟩ := by
  intro s b hat
  obtain ⟨h1, h2, h3, h4⟩ := hat
  have hcl := clamp_same (b := B) (tg := ⟨0, ls⟩) (Nat.zero_le _)
  have hstep : lexStep lang t s = some (⟨(⟨0, ls⟩ : Target L).apply B.stack, (s.fac.add ⟨0, ls⟩).get.2, [],
      .at (tok.pos + tok.text.length) false⟩, [⟨(s.fac.add ⟨0, ls⟩).get.1, [⟨tok.pos, tok.text, a⟩]⟩]) := by
    unfold lexStep
    rw [h1]
    simp only [BState.stack] at hcl ⊢
    simp only at h2
    rw [h2, h]
    simp only [hg, ne_eq, ht, not_false_eq_true, if_true, hcl, hc, emit, he]
  refine ⟨1, _, by rw [lexRun_one hstep], ?_⟩
  rw [lexRun_one hstep]
  have hs := (target_stack (b := B) (tg := ⟨0, ls⟩) (Nat.zero_le _))
  refine ⟨hs.symm, rfl, fun c hc => (by simp at hc), ?_⟩
  simp only [List.foldl_cons, List.foldl_nil]
  rw [get_snd, init_get]
  simp only at h4
  simp only [BState.event, BState.target, BState.addTok]
  have := add_push_get s.fac ls b
  rw [h4] at this
  simp only [BState.target] at this
  rw [this]
  rfl

/-- A token with text that is left out, and that leaves a context with something in it. -/
theorem goes_skip_pop {p : Nat} {B : BState α L A} {o : Bool} {tok : Tok α L A ρ} {ps' : PS ρ}
    (h : parseNext lang.noAct (lang.ld B.cur.lex) t (.at p false) = some (tok, ps')) (ht : tok.text ≠ []) (hg : tok.tgt = some ⟨1, []⟩)
    (he : lang.expand tok = []) (hpop : 1 ≤ B.up.length) (hk : B.cur.kids ≠ []) :
    Goes lang t ⟨p, B, o⟩ ⟨tok.pos + tok.text.length, B.leave, true⟩ := by
  intro s b hat
  obtain ⟨h1, h2, h3, h4⟩ := hat
  have hcl := clamp_same (b := B) (tg := ⟨1, []⟩) hpop
  have hstep : lexStep lang t s = some (⟨(⟨1, []⟩ : Target L).apply B.stack, s.fac.add ⟨1, []⟩, [],
      .at (tok.pos + tok.text.length) false⟩, []) := by
    unfold lexStep
    rw [h1]
    simp only [BState.stack] at hcl ⊢
    simp only at h2
    rw [h2, h]
    simp only [hg, ne_eq, ht, not_false_eq_true, if_true, hcl, emit, he]
    rfl
  refine ⟨1, _, by rw [lexRun_one hstep], ?_⟩
  rw [lexRun_one hstep]
  exact ⟨(target_stack (b := B) (tg := ⟨1, []⟩) hpop).symm, rfl, fun c hc => (by simp at hc), add_pop_get h4 hk⟩

/-- An empty match that leaves a context with something in it. -/
theorem goes_empty_pop {p : Nat} {B : BState α L A} {tok : Tok α L A ρ} {ps' : PS ρ}
    (h : parseNext lang.noAct (lang.ld B.cur.lex) t (.at p false) = some (tok, ps')) (ht : tok.text = []) (hg : tok.tgt = some ⟨1, []⟩)
    (hp : tok.pos = p) (hpop : 1 ≤ B.up.length) (hk : B.cur.kids ≠ []) :
    Goes lang t ⟨p, B, true⟩ ⟨p, B.leave, false⟩ := by
  intro s b hat
  obtain ⟨h1, h2, h3, h4⟩ := hat
  have hcl := clamp_same (b := B) (tg := ⟨1, []⟩) hpop
  have hn : (tok.pos, B.stack.length - 1, ([] : List L).length) ∉ s.circ := by
    intro hm
    have := (h3 _ hm).2 rfl
    simp only at this
    omega
  have hstep : lexStep lang t s = some (⟨(⟨1, []⟩ : Target L).apply B.stack, s.fac.add ⟨1, []⟩,
      (tok.pos, B.stack.length - 1, ([] : List L).length) :: s.circ, .at tok.pos false⟩, []) := by
    unfold lexStep
    rw [h1]
    simp only [BState.stack] at hcl hn ⊢
    simp only at h2
    rw [h2, h]
    simp only [hg, ht, ne_eq, not_true_eq_false, if_false, hcl]
    rw [if_neg hn]
  refine ⟨1, _, by rw [lexRun_one hstep], ?_⟩
  rw [lexRun_one hstep]
  refine ⟨(target_stack (b := B) (tg := ⟨1, []⟩) hpop).symm, by rw [hp], fun c hc => ⟨?_, fun hh => by cases hh⟩, add_pop_get h4 hk⟩
  simp only [List.mem_cons] at hc
  rcases hc with rfl | hc
  · simp only; omega
  · exact (h3 c hc).1

omit [DecidableEq α] in
theorem add_push_pop (fac : Factory L) (l : L) : (fac.add ⟨0, [l]⟩).add ⟨1, []⟩ = fac := by
  obtain ⟨fp, fs⟩ := fac
  simp [Factory.add]

/-- A default target that enters a lexicon, and a token there that is left out and leaves it at once: no context is made. -/
theorem goes_through {p : Nat} {B : BState α L A} {tok tok' : Tok α L A ρ} {ps' ps'' : PS ρ} {l : L}
    (h : parseNext lang.noAct (lang.ld B.cur.lex) t (.at p false) = some (tok, ps')) (ht : tok.text = []) (hg : tok.tgt = some ⟨0, [l]⟩)
    (hp : tok.pos = p) (h' : parseNext lang.noAct (lang.ld l) t (.at p false) = some (tok', ps'')) (ht' : tok'.text ≠ [])
    (hg' : tok'.tgt = some ⟨1, []⟩) (he : lang.expand tok' = []) :
    Goes lang t ⟨p, B, true⟩ ⟨tok'.pos + tok'.text.length, B, true⟩ := by
  intro s b hat
  obtain ⟨h1, h2, h3, h4⟩ := hat
  have hcl := clamp_same (b := B) (tg := ⟨0, [l]⟩) (Nat.zero_le _)
  have hn : (tok.pos, B.stack.length - 0, [l].length) ∉ s.circ := by
    intro hm
    have := (h3 _ hm).2 rfl
    simp only at this
    omega
  have hstep : lexStep lang t s = some (⟨l :: B.stack, s.fac.add ⟨0, [l]⟩,
      (tok.pos, B.stack.length - 0, [l].length) :: s.circ, .at tok.pos false⟩, []) := by
    unfold lexStep
    rw [h1]
    simp only [BState.stack] at hcl hn ⊢
    simp only at h2
    rw [h2, h]
    simp only [hg, ht, ne_eq, not_true_eq_false, if_false, hcl]
    rw [if_neg hn]
    rfl
  have hstep' : lexStep lang t ⟨l :: B.stack, s.fac.add ⟨0, [l]⟩, (tok.pos, B.stack.length - 0, [l].length) :: s.circ, .at tok.pos false⟩ =
      some (⟨B.stack, s.fac, [], .at (tok'.pos + tok'.text.length) false⟩, []) := by
    have hcl' : clampPop (l :: B.stack) (⟨1, []⟩ : Target L) = ⟨1, []⟩ := by
      unfold clampPop
      rw [if_neg]
      simp [BState.stack]
    unfold lexStep
    simp only [hp, h', hg', ht', ne_eq, not_false_eq_true, if_true, hcl', emit, he]
    rw [add_push_pop]
    simp [Target.apply]
  have hrun : lexRun lang t 2 s = ([], some ⟨B.stack, s.fac, [], .at (tok'.pos + tok'.text.length) false⟩) := by
    simp only [lexRun, hstep]
    rw [hstep']
    rfl
  refine ⟨2, _, by rw [hrun], ?_⟩
  rw [hrun]
  exact ⟨rfl, rfl, fun c hc => (by simp at hc), h4⟩

/-! ### Compiled lexicons -/

/-- What is parsed where a rule matches. -/
theorem parse_match {noAct : A} {rs : List (PRule α L A)} {dl : Dflt α L A} {p q i : Nat} {c : Caps} {r : PRule α L A}
    (hm : rxMatch (rs.map (·.pat)) t p = some ⟨p, q, ⟨i, c⟩⟩) (hr : rs[i]? = some r) :
    parseNext noAct (compile noAct rs dl) t (.at p false) =
      some (⟨p, slice t p q, some ⟨p, q, ⟨i, c⟩⟩, (r.out (slice t p q) (groupTexts t ⟨p, q, ⟨i, c⟩⟩)).1,
        (r.out (slice t p q) (groupTexts t ⟨p, q, ⟨i, c⟩⟩)).2⟩, .at q (p == q)) := by
  have hne : rs ≠ [] := by rintro rfl; cases hr
  rw [compile_cons _ _ _ hne]
  have htok : matchTok (ruleOut noAct rs) t ⟨p, q, ⟨i, c⟩⟩ =
      (⟨p, slice t p q, some ⟨p, q, ⟨i, c⟩⟩, (r.out (slice t p q) (groupTexts t ⟨p, q, ⟨i, c⟩⟩)).1,
        (r.out (slice t p q) (groupTexts t ⟨p, q, ⟨i, c⟩⟩)).2⟩, .at q (p == q)) := by
    simp only [matchTok, ruleOut, hr]
  cases dl with
  | target _ => simp only [parseNext, hm, htok]
  | action f => simp only [parseNext, search_here hm, htok, gt_iff_lt, Nat.lt_irrefl, if_false]
  | skip => simp only [parseNext, search_here hm, htok]

/-- The text before the next match, with the default action. -/
theorem goes_gap' {lang : Lang α L A RM} {rs : List (PRule α L A)} {p : Nat} {w post : List α} {f : List α → A} {B : BState α L A} {o : Bool}
    {m : Mtch RM} (hld : lang.ld B.cur.lex = compile lang.noAct rs (.action f))
    (he : ∀ p w, lang.expand ⟨p, w, none, f w, none⟩ = [⟨p, w, f w⟩])
    (ht : t.drop p = w ++ post) (hw : w ≠ [])
    (hn : ∀ i, p ≤ i → i < p + w.length → ¬ Starts (rs.map (·.pat)) t i)
    (hm : rxMatch (rs.map (·.pat)) t (p + w.length) = some m) :
    Goes lang t ⟨p, B, o⟩ ⟨p + w.length, B.addTok p w (f w), true⟩ := by
  have hne : rs ≠ [] := by
    intro h; rw [h] at hm
    simp [rxMatch, allAt] at hm
  have hl : 0 < w.length := List.length_pos_iff.2 hw
  have hst := (rxMatch_some hm).1
  rw [compile_cons _ _ _ hne] at hld
  refine goes_tok (lang := lang) (tok := ⟨p, w, none, f w, none⟩) (ps' := .pend m) ?_ hw rfl (he p w) (Nat.le_refl _) ?_
  · rw [hld]
    simp only [parseNext, search_first (Nat.le_add_right _ _) hn hm, hst]
    rw [if_pos (by omega), slice_here ht]
  · rw [hld]
    simp only [parseNext, search_here hm, hst]
    rw [if_neg (by omega)]

/-! ### Groups -/

omit [DecidableEq α] in
/-- The expression matches at `p`, its first match ends at `q`, and captures the groups `g`. -/
def BestC (t : List α) (a : Pat α) (p q : Nat) (g : Caps) : Prop := ∀ c, ∃ r, a.run t p c = (q, g ++ c) :: r

omit [DecidableEq α] in
theorem Best.toC {a : Pat α} {p q : Nat} (h : Best t a p q) : BestC t a p q [] := h

omit [DecidableEq α] in
theorem BestC.cat {a b : Pat α} {p q r : Nat} {g g' : Caps} (h1 : BestC t a p q g) (h2 : BestC t b q r g') :
    BestC t (.cat a b) p r (g' ++ g) := by
  intro c
  obtain ⟨x, hx⟩ := h1 c
  obtain ⟨y, hy⟩ := h2 (g ++ c)
  exact ⟨_, by simp only [Pat.run, hx, List.flatMap_cons, hy, List.cons_append, List.append_assoc]; rfl⟩

omit [DecidableEq α] in
theorem Best.grp {a : Pat α} {p q : Nat} (i : Nat) (h : Best t a p q) : BestC t (.grp i a) p q [(i, p, q)] := by
  intro c
  obtain ⟨x, hx⟩ := h c
  exact ⟨_, by simp only [Pat.run, hx, List.map_cons]; rfl⟩

omit [DecidableEq α] in
theorem rxMatch_bestC {ps qs : List (Pat α)} {a : Pat α} {p q : Nat} {g : Caps} (hf : ∀ b ∈ ps, Fails t b p) (h : BestC t a p q g)
    (hp : p ≤ t.length) : rxMatch (ps ++ a :: qs) t p = some ⟨p, q, ⟨ps.length, Caps.rel p g⟩⟩ := by
  unfold rxMatch
  rw [if_pos hp]
  suffices h' : ∀ i, (allAt t p i (ps ++ a :: qs)).head? = some ⟨p, q, ⟨i + ps.length, Caps.rel p g⟩⟩ by
    have := h' 0; rwa [Nat.zero_add] at this
  induction ps with
  | nil =>
    intro i
    obtain ⟨r, hr⟩ := h []
    simp only [List.nil_append, allAt, hr, List.map_cons, List.cons_append, List.head?_cons, List.append_nil]
    rfl
  | cons b ps ih =>
    intro i
    have hb := (hf b (List.mem_cons_self ..)).run []
    simp only [List.cons_append, allAt, hb, List.map_nil, List.nil_append]
    rw [ih (fun b' hb' => hf b' (List.mem_cons_of_mem _ hb'))]
    simp only [List.length_cons]
    congr 3
    omega

end Parce

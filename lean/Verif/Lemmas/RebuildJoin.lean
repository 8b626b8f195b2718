import Verif.Lemmas.RebuildLex
/-!
# Two lexers that yield the same lexeme at the same unchanged text
-/
set_option linter.unusedSectionVars false
namespace Parce.RB
variable {α L A ρ : Type} [DecidableEq α]

/-- When the lexer yields the same first lexeme with the same lexicons in two texts that are the same
    from there on, it yields the same events. -/
def Joins (lang : Lang α L A ρ) : Prop :=
  ∀ (t0 t1 : List α) (stack : List L) (p0 p1 k0 k1 : Nat) (lx0 lx1 : Lexeme α A) (ls0 ls1 : List (Lexeme α A))
    (Z0 Z1 : List (Event α L A)), p0 ≤ t0.length → p1 ≤ t1.length → t0.drop p0 = t1.drop p1 →
    lx0.pos = p0 → lx1.pos = p1 → lx0.text = lx1.text → lx0.act = lx1.act →
    Emits lang t0 stack p0 (lx0 :: ls0) k0 Z0 → Emits lang t1 stack p1 (lx1 :: ls1) k1 Z1 →
    ∃ G : List (Event α L A), (⟨none, lx0 :: ls0⟩ :: Z0) = G.map (Event.move p0) ∧ (⟨none, lx1 :: ls1⟩ :: Z1) = G.map (Event.move p1)

/-- Without look-behind this is always so. -/
theorem joins_forward {lang : Lang α L A ρ} (hl : ∀ l, LexOK (lang.ld l)) (hb : ∀ l, NoLookbehind (lang.ld l))
    (hx : ExpandsMoved lang) : Joins lang := by
  intro t0 t1 stack p0 p1 k0 k1 lx0 lx1 ls0 ls1 Z0 Z1 h0 h1 hd _ _ _ _ he0 he1
  refine ends_shift (p := 0) hl (fun l => (hb l).behind) hx (Nat.le_refl 0) (by omega) (by omega) hd
    (n := k0 + 2) (n' := k1 + 2) (stack := stack) (fac := Factory.init) ?_ ?_
  · rw [Nat.zero_add]; exact he0.ends
  · rw [Nat.zero_add]; exact he1.ends

/-! ### After the token -/

/-- The lexicons after a target. -/
def stackAfter (stack : List L) : Option (Target L) → List L
  | none => stack
  | some tg => (clampPop stack tg).apply stack

/-- The pending target after a token with a target. -/
def facAfter (lang : Lang α L A ρ) (stack : List L) : Option (Target L) → Factory L
  | none => Factory.init
  | some tg =>
    if ((clampPop stack tg).push.getLast?.map lang.consume).getD false then Factory.init
    else Factory.init.add (clampPop stack tg)

theorem get_init (f : Factory L) : f.get.2 = Factory.init := by
  unfold Factory.get
  split
  · rfl
  · next h =>
    obtain ⟨p, q⟩ := f
    by_cases hp : p = 0
    · by_cases hq : q = []
      · subst hp; subst hq; rfl
      · exact absurd (Or.inr hq) h
    · exact absurd (Or.inl (by simpa using hp)) h

theorem state_after {lang : Lang α L A ρ} {t : List α} {stack : List L} {ps : PS ρ} {s' : LState L ρ} {e : Event α L A}
    (hl : ∀ l, LexOK (lang.ld l)) (hok : StOK lang t ⟨stack, Factory.init, [], ps⟩)
    (h : lexStep lang t ⟨stack, Factory.init, [], ps⟩ = some (s', [e])) :
    ∃ top rest tok ps', stack = top :: rest ∧ parseNext lang.noAct (lang.ld top) t ps = some (tok, ps') ∧ tok.text ≠ [] ∧
      TokOK t (ps.floor t) tok ps' ∧
      e.lexemes = lang.expand tok ∧ s'.stack = stackAfter stack tok.tgt ∧ s'.fac = facAfter lang stack tok.tgt ∧
      s'.ps.floor t = tok.pos + tok.text.length := by
  have hem : ∀ (f : Factory L) (tok : Tok α L A ρ), [e] = (emit lang f tok).2 →
      e.lexemes = lang.expand tok ∧ (emit lang f tok).1 = Factory.init := by
    intro f tok h
    rcases emit_cases lang f tok with ⟨_, h1⟩ | ⟨_, h1⟩
    · rw [h1] at h; simp at h
    · rw [h1] at h
      simp only [List.cons.injEq, and_true] at h
      rw [h, h1]
      exact ⟨rfl, rfl⟩
  unfold lexStep at h
  cases stack with
  | nil => simp at h
  | cons top rest =>
    simp only at h
    cases hp : parseNext lang.noAct (lang.ld top) t ps with
    | none => rw [hp] at h; simp at h
    | some r =>
      obtain ⟨tok, ps'⟩ := r
      obtain ⟨hk1, hk2⟩ := parseNext_ok (hl top) (hok top rest rfl) hp
      rw [hp] at h
      simp only at h
      cases htg : tok.tgt with
      | none =>
        rw [htg] at h
        simp only at h
        split at h
        · next hte =>
          simp only [Option.some.injEq, Prod.mk.injEq] at h
          obtain ⟨h1, h2⟩ := h
          obtain ⟨h3, h4⟩ := hem _ _ h2.symm
          refine ⟨top, rest, tok, ps', rfl, hp, hte, hk1, h3, ?_, ?_, ?_⟩
          · rw [← h1, htg]; rfl
          · rw [← h1, htg]; exact h4
          · rw [← h1]; exact hk1.exact hte
        · simp at h
      | some tg0 =>
        rw [htg] at h
        simp only at h
        split at h
        · next hte =>
          split at h
          · next hc =>
            simp only [Option.some.injEq, Prod.mk.injEq] at h
            obtain ⟨h1, h2⟩ := h
            obtain ⟨h3, h4⟩ := hem _ _ h2.symm
            refine ⟨top, rest, tok, ps', rfl, hp, hte, hk1, h3, ?_, ?_, ?_⟩
            · rw [← h1, htg]; rfl
            · rw [← h1, htg]; simp only [facAfter, if_pos hc]; exact h4
            · rw [← h1]; rfl
          · next hc =>
            simp only [Option.some.injEq, Prod.mk.injEq] at h
            obtain ⟨h1, h2⟩ := h
            obtain ⟨h3, h4⟩ := hem _ _ h2.symm
            refine ⟨top, rest, tok, ps', rfl, hp, hte, hk1, h3, ?_, ?_, ?_⟩
            · rw [← h1, htg]; rfl
            · rw [← h1, htg]; simp only [facAfter, if_neg hc, h4]
            · rw [← h1]; rfl
        · split at h <;> simp at h

/-- After a token the lexer can be restarted, with the pending target. -/
theorem ends_fresh {lang : Lang α L A ρ} {t : List α} {s : LState L ρ} {k : Nat} {Z : List (Event α L A)}
    (hl : ∀ l, LexOK (lang.ld l)) (hi : Inv lang t s) (hc : ∀ st ∈ s.circ, st.1 < s.ps.floor t) (h : Ends lang t k s Z) :
    Ends lang t (k + 1) ⟨s.stack, s.fac, [], .at (s.ps.floor t) false⟩ Z := by
  have hsim : Sim t s ⟨s.stack, s.fac, [], s.ps⟩ := by
    refine ⟨rfl, rfl, fun st hst => ?_⟩
    constructor
    · intro hm; have := hc st hm; omega
    · intro hm; simp at hm
  have h2 : Ends lang t k ⟨s.stack, s.fac, [], s.ps⟩ Z := by
    obtain ⟨h12, h13⟩ := lexRun_sim lang t hl k s _ hi.ok hsim rfl
    unfold Ends at h ⊢
    rw [h] at h12 h13
    have : (lexRun lang t k ⟨s.stack, s.fac, [], s.ps⟩).2 = none := by simpa using h13.symm
    simp only at h12
    rw [← this, h12]
  cases hs : s.stack with
  | nil => exact absurd hs hi.ne
  | cons top rest =>
    rcases hi.fresh top rest hs with hf | ⟨hf, tok, hf1, hf2, hf3⟩
    · refine Ends.succ ?_
      have : lexStep lang t ⟨top :: rest, s.fac, [], .at (s.ps.floor t) false⟩ = lexStep lang t ⟨top :: rest, s.fac, [], s.ps⟩ := by
        simp only [lexStep, hf]
      rw [hs] at h2
      unfold Ends at h2 ⊢
      cases k with
      | zero => simp [lexRun] at h2
      | succ k => rw [lexRun] at h2 ⊢; rw [this]; exact h2
    · rw [hs] at h2
      rw [hf] at h2
      refine Ends.step (ev := []) ?_ h2
      have hf4 : parseNext lang.noAct (lang.ld top) t (⟨top :: rest, s.fac, [], .at (s.ps.floor t) false⟩ : LState L ρ).ps =
          some (tok, .at (s.ps.floor t) true) := hf1
      simp only [lexStep, hf4, hf2, hf3]
      rfl

theorem within_ge {t : List α} {a b : Nat} {ls : List (Lexeme α A)} (h : Within t a b ls) : ∀ l ∈ ls, a ≤ l.pos := by
  induction ls generalizing a with
  | nil => intro l hl; cases hl
  | cons x xs ih =>
    obtain ⟨h1, _, _, _, h5⟩ := h
    intro l hl
    rcases List.mem_cons.1 hl with rfl | hl
    · exact h1
    · have := ih h5 l hl; omega

/-- With one character of look-behind, if tokens that look the same have the same target. -/
theorem joins_behind {lang : Lang α L A ρ} (hl : ∀ l, LexOK (lang.ld l)) (hb : ∀ l, Behind 1 (lang.ld l)) (hdet : Determined lang)
    (hw : ∀ t, ExpandsWithin lang t) (hx : ExpandsMoved lang) (hat : ExpandsAtStart lang) : Joins lang := by
  intro t0 t1 stack p0 p1 k0 k1 lx0 lx1 ls0 ls1 Z0 Z1 h0 h1 hd hp0 hp1 htext hact he0 he1
  obtain ⟨_, b0, s0, hs0, hi0, hz0, _, hc0⟩ := he0
  obtain ⟨_, b1, s1, hs1, hi1, hz1, _, hc1⟩ := he1
  have hok : ∀ (t : List α) (p : Nat) (b : Bool), p ≤ t.length → StOK lang t (⟨stack, Factory.init, [], .at p b⟩ : LState L ρ) :=
    fun t p b h _ _ _ => h
  obtain ⟨top, rest, tok0, ps0, hst, hps0, hte0, hok0, hex0, hstk0, hfac0, hfl0⟩ := state_after hl (hok _ _ _ h0) hs0
  obtain ⟨top1, rest1, tok1, ps1, hst1, hps1, hte1, hok1, hex1, hstk1, hfac1, hfl1⟩ := state_after hl (hok _ _ _ h1) hs1
  rw [hst] at hst1
  simp only [List.cons.injEq] at hst1
  obtain ⟨rfl, rfl⟩ := hst1
  have ht0 : tok0.pos = p0 := by rw [← hp0]; exact (hat t0 top (.at p0 b0) _ tok0 lx0 ls0 (show p0 ≤ t0.length from h0) hps0 hte0 hex0.symm).symm
  have ht1 : tok1.pos = p1 := by rw [← hp1]; exact (hat t1 top (.at p1 b1) _ tok1 lx1 ls1 (show p1 ≤ t1.length from h1) hps1 hte1 hex1.symm).symm
  obtain ⟨hlen, htgt, hls⟩ := hdet top t0 t1 p0 p1 b0 b1 tok0 tok1 ps0 ps1 lx0 lx1 ls0 ls1 h0 h1 hps0 hps1 hte0 hte1 hex0.symm hex1.symm htext hact
  have hpos := List.length_pos_iff.2 hte0
  have hle0 := hok0.le
  have hle1 := hok1.le
  have f0 := ends_fresh hl hi0 hc0 hz0
  have f1 := ends_fresh hl hi1 hc1 hz1
  rw [hstk0, hfac0, hfl0] at f0
  rw [hstk1, hfac1, hfl1, ← htgt, ← hlen] at f1
  rw [ht0, Nat.add_comm p0] at f0
  rw [ht1, Nat.add_comm p1] at f1
  obtain ⟨F, hF0, hF1⟩ := ends_shift (p := tok0.text.length) hl hb hx (by omega) (by omega) (by omega) hd f0 f1
  have hw0 := within_ge (hw t0 top (.at p0 b0) _ tok0 (show p0 ≤ t0.length from h0) hps0 hte0 hok0.text hok0.le)
  rw [← hex0, ht0] at hw0
  simp only at hw0
  have hL0 : ((lx0 :: ls0).map (fun x => ({ x with pos := x.pos - p0 } : Lexeme α A))).map (Lexeme.move p0) = lx0 :: ls0 := by
    rw [List.map_map]
    have : ∀ x ∈ lx0 :: ls0, (Lexeme.move p0 ∘ fun x => ({ x with pos := x.pos - p0 } : Lexeme α A)) x = x := by
      intro x hx
      have := hw0 x hx
      simp only [Function.comp, Lexeme.move]
      rw [Nat.sub_add_cancel this]
    conv => rhs; rw [← List.map_id (lx0 :: ls0)]
    exact List.map_congr_left this
  refine ⟨⟨none, (lx0 :: ls0).map (fun x => ({ x with pos := x.pos - p0 } : Lexeme α A))⟩ :: F, ?_, ?_⟩
  · rw [List.map_cons, ← hF0]
    simp only [Event.move]
    rw [hL0]
  · rw [List.map_cons, ← hF1]
    simp only [Event.move]
    rw [ht0, ht1] at hls
    have hL1 : ((lx0 :: ls0).map (fun x => ({ x with pos := x.pos - p0 } : Lexeme α A))).map (Lexeme.move p1) = lx1 :: ls1 := by
      have hinj : ∀ a b : List (Lexeme α A), a.map (Lexeme.move p0) = b.map (Lexeme.move p0) → a = b := by
        intro a b hab
        refine List.map_inj_right ?_ |>.1 hab
        intro x y hxy
        cases x; cases y
        simp only [Lexeme.move, Lexeme.mk.injEq] at hxy ⊢
        exact ⟨by omega, hxy.2⟩
      apply hinj
      rw [hls, List.map_map]
      conv => rhs; rw [← hL0]
      rw [List.map_map, List.map_map, List.map_map]
      apply List.map_congr_left
      intro x _
      simp only [Function.comp, Lexeme.move, Lexeme.mk.injEq, and_true]
      omega
    rw [hL1]

end Parce.RB

import Verif.Spec.Lexer
import Verif.Lemmas.EditOps
set_option linter.unusedSectionVars false
namespace Parce
variable {α L A ρ : Type}

/-! ### Factories -/

/-- The stack effect of the target a factory is going to return. -/
def Factory.eff (f : Factory L) (stack : List L) : List L := f.fpush.reverse ++ stack.drop f.fpop

theorem eff_add (f : Factory L) (t : Target L) (s : List L) : (f.add t).eff s = t.apply (f.eff s) := by
  unfold Factory.add Target.apply
  split
  · rename_i h; simp [Factory.eff, h]
  · split
    · rename_i h
      simp only [Factory.eff, List.reverse_append, List.append_assoc]
      congr 1
      rw [List.drop_append, List.length_reverse, show t.pop - f.fpush.length = 0 by omega, List.drop_zero]
      congr 1
      rw [List.drop_reverse]
    · rename_i h
      simp only [Factory.eff]
      congr 1
      have h' : f.fpush.reverse.drop t.pop = [] := List.drop_eq_nil_of_le (by simp; omega)
      rw [List.drop_append, h', List.nil_append, List.length_reverse, List.drop_drop]

theorem eff_pop (f : Factory L) (n : Nat) (s : List L) : (f.pop n).eff s = (f.eff s).drop n := by
  unfold Factory.pop
  split
  · split
    · rename_i h
      simp only [Factory.eff]
      rw [List.drop_append, List.length_reverse, show n - f.fpush.length = 0 by omega, List.drop_zero,
        List.drop_reverse]
    · simp only [Factory.eff, List.reverse_nil, List.nil_append]
      have h' : f.fpush.reverse.drop n = [] := List.drop_eq_nil_of_le (by simp; omega)
      rw [List.drop_append, h', List.nil_append, List.length_reverse, List.drop_drop]
  · rename_i h; simp at h; simp [h]

theorem eff_push (f : Factory L) (ls : List L) (s : List L) :
    (f.push ls).eff s = ls.reverse ++ f.eff s := by
  simp [Factory.push, Factory.eff]

theorem get_eff (f : Factory L) (s : List L) : applyOpt f.get.1 s = f.eff s := by
  unfold Factory.get
  split
  · rfl
  · rename_i h
    simp only [ne_eq, not_or, Decidable.not_not] at h
    simp [applyOpt, Factory.eff, h.1, h.2]

theorem get_init (f : Factory L) : f.get.2 = Factory.init := by
  unfold Factory.get
  split
  · rfl
  · rename_i h
    simp only [ne_eq, not_or, Decidable.not_not] at h
    obtain ⟨a, b⟩ := f
    simp at h
    simp [Factory.init, h.1, h.2]

theorem eff_init (s : List L) : (Factory.init : Factory L).eff s = s := by
  simp [Factory.init, Factory.eff]

theorem clamp_lt (stack : List L) (t : Target L) (h : stack ≠ []) :
    (clampPop stack t).pop < stack.length := by
  unfold clampPop
  have := List.length_pos_iff.2 h
  split
  · simp only; omega
  · rename_i h2
    omega

/-- A factory that pops less than the depth of the stack below. -/
def Factory.Fits (f : Factory L) (base : List L) : Prop := f.fpop < base.length

theorem Fits.add {f : Factory L} {base : List L} {t : Target L} (h : f.Fits base)
    (ht : t.pop < (f.eff base).length) : (f.add t).Fits base := by
  unfold Factory.add Factory.Fits at *
  simp only [Factory.eff, List.length_append, List.length_reverse, List.length_drop] at ht
  split
  · exact h
  · split
    · exact h
    · simp only; omega

theorem apply_getLast {t : Target L} {s : List L} (h : t.pop < s.length) :
    (t.apply s).getLast? = s.getLast? := by
  unfold Target.apply
  rw [List.getLast?_append, List.getLast?_drop, if_neg (by omega)]
  cases hs : s.getLast? with
  | none => simp only [List.getLast?_eq_none_iff] at hs; simp [hs] at h
  | some x => simp

/-! ### Emitting events -/

theorem emit_cases (lang : Lang α L A ρ) (f : Factory L) (tok : Tok α L A ρ) :
    (lang.expand tok = [] ∧ emit lang f tok = (f, [])) ∨
    (lang.expand tok ≠ [] ∧ emit lang f tok = (Factory.init, [⟨f.get.1, lang.expand tok⟩])) := by
  unfold emit
  split
  · exact Or.inl ⟨by assumption, rfl⟩
  · rename_i h; right; rw [h, get_init]; exact ⟨by simp, rfl⟩

/-- The lexer's stack is what the pending target makes of the replayed stack. -/
def StackInv (base : List L) (stack : List L) (f : Factory L) : Prop :=
  stack = f.eff base ∧ f.Fits base

theorem StackInv.add {base stack : List L} {f : Factory L} {t : Target L} (h : StackInv base stack f)
    (ht : t.pop < stack.length) : StackInv base (t.apply stack) (f.add t) := by
  obtain ⟨h1, h2⟩ := h
  refine ⟨by rw [eff_add, h1], Fits.add h2 (by rw [← h1]; exact ht)⟩

theorem apply_ne_nil {t : Target L} {s : List L} (h : t.pop < s.length) : t.apply s ≠ [] := by
  intro h2
  have := congrArg List.length h2
  simp [Target.apply] at this
  omega

theorem StackInv.emit {base stack : List L} {f : Factory L} (lang : Lang α L A ρ) (tok : Tok α L A ρ)
    (h : StackInv base stack f) (hs : stack ≠ []) :
    KeepsRoot base (emit lang f tok).2 ∧
    StackInv (replayStack base (emit lang f tok).2) stack (emit lang f tok).1 ∧
    (∀ es, KeepsRoot base ((emit lang f tok).2 ++ es) ↔
      KeepsRoot (replayStack base (emit lang f tok).2) es) := by
  rcases emit_cases lang f tok with ⟨_, h1⟩ | ⟨_, h1⟩
  · rw [h1]; exact ⟨trivial, h, fun es => Iff.rfl⟩
  · rw [h1]
    have hk : ∀ t, f.get.1 = some t → t.pop < base.length := by
      intro t ht
      unfold Factory.get at ht
      split at ht
      · simp only [Option.some.injEq] at ht
        rw [← ht]; exact h.2
      · simp at ht
    refine ⟨⟨hk, trivial⟩, ?_, ?_⟩
    · simp only [replayStack, get_eff]
      refine ⟨by rw [eff_init, ← h.1], ?_⟩
      rw [← h.1]
      exact List.length_pos_iff.2 hs
    · intro es
      simp only [List.singleton_append, KeepsRoot, replayStack]
      exact ⟨fun h => h.2, fun h => ⟨hk, h⟩⟩

theorem keepsRoot_append (a b : List (Event α L A)) : ∀ (s : List L),
    KeepsRoot s (a ++ b) ↔ KeepsRoot s a ∧ KeepsRoot (replayStack s a) b := by
  induction a with
  | nil => intro s; simp [KeepsRoot, replayStack]
  | cons e a ih => intro s; simp only [List.cons_append, KeepsRoot, replayStack, ih, and_assoc]

theorem replayStack_append (a b : List (Event α L A)) : ∀ (s : List L),
    replayStack s (a ++ b) = replayStack (replayStack s a) b := by
  induction a with
  | nil => intro s; rfl
  | cons e a ih => intro s; simp only [List.cons_append, replayStack, ih]

theorem keepsRoot_root (evs : List (Event α L A)) : ∀ (s : List L), KeepsRoot s evs →
    (replayStack s evs).getLast? = s.getLast? := by
  induction evs with
  | nil => intro s _; rfl
  | cons e es ih =>
    intro s h
    simp only [replayStack]
    rw [ih _ h.2]
    cases he : e.target with
    | none => rfl
    | some t => exact apply_getLast (h.1 t he)

variable [DecidableEq α]

/-- A step of the lexer, by cases: no target; target with text for a consuming lexicon, or
    another one; target without text, not seen before or circular. -/
theorem lexStep_cases {lang : Lang α L A ρ} {t : List α} {s s' : LState L ρ} {ev : List (Event α L A)}
    (h : lexStep lang t s = some (s', ev)) :
    ∃ top rest tok ps', s.stack = top :: rest ∧
      parseNext lang.noAct (lang.ld top) t s.ps = some (tok, ps') ∧
      ((tok.tgt = none ∧ tok.text ≠ [] ∧
          s' = { s with fac := (emit lang s.fac tok).1, ps := ps' } ∧ ev = (emit lang s.fac tok).2) ∨
       (tok.tgt = none ∧ tok.text = [] ∧ s' = { s with ps := ps' } ∧ ev = []) ∨
       (∃ tg0 tg, tok.tgt = some tg0 ∧ tg = clampPop s.stack tg0 ∧ tok.text ≠ [] ∧
          ((s' = ⟨tg.apply s.stack, (emit lang (s.fac.add tg) tok).1, [],
              .at (tok.pos + tok.text.length) false⟩ ∧ ev = (emit lang (s.fac.add tg) tok).2) ∨
           (s' = ⟨tg.apply s.stack, (emit lang s.fac tok).1.add tg, [],
              .at (tok.pos + tok.text.length) false⟩ ∧ ev = (emit lang s.fac tok).2))) ∨
       (∃ tg0 tg, tok.tgt = some tg0 ∧ tg = clampPop s.stack tg0 ∧ tok.text = [] ∧ ev = [] ∧
          (((tok.pos, s.stack.length - tg.pop, tg.push.length) ∈ s.circ ∧
            s' = ⟨tg.apply s.stack, s.fac.add tg, [],
              .at (if tg.push ≠ [] ∧ tok.pos < t.length then tok.pos + 1 else tok.pos) false⟩) ∨
           ((tok.pos, s.stack.length - tg.pop, tg.push.length) ∉ s.circ ∧
            s' = ⟨tg.apply s.stack, s.fac.add tg,
              (tok.pos, s.stack.length - tg.pop, tg.push.length) :: s.circ, .at tok.pos false⟩)))) := by
  unfold lexStep at h
  split at h
  · simp at h
  · rename_i top rest hs
    split at h
    · simp at h
    · rename_i tok ps' hp
      refine ⟨top, rest, tok, ps', hs, hp, ?_⟩
      split at h
      · rename_i htg
        split at h
        · rename_i hte
          simp only [Option.some.injEq, Prod.mk.injEq] at h
          exact Or.inl ⟨htg, hte, h.1.symm, h.2.symm⟩
        · rename_i hte
          simp only [Option.some.injEq, Prod.mk.injEq] at h
          exact Or.inr (Or.inl ⟨htg, by simpa using hte, h.1.symm, h.2.symm⟩)
      · rename_i tg0 htg
        simp only at h
        split at h
        · rename_i hte
          right; right; left
          refine ⟨tg0, _, htg, rfl, hte, ?_⟩
          split at h
          · simp only [Option.some.injEq, Prod.mk.injEq] at h
            exact Or.inl ⟨h.1.symm, h.2.symm⟩
          · simp only [Option.some.injEq, Prod.mk.injEq] at h
            exact Or.inr ⟨h.1.symm, h.2.symm⟩
        · rename_i hte
          right; right; right
          refine ⟨tg0, _, htg, rfl, by simpa using hte, ?_⟩
          split at h
          · rename_i hc
            simp only [Option.some.injEq, Prod.mk.injEq] at h
            exact ⟨h.2.symm, Or.inl ⟨hc, h.1.symm⟩⟩
          · rename_i hc
            simp only [Option.some.injEq, Prod.mk.injEq] at h
            exact ⟨h.2.symm, Or.inr ⟨hc, h.1.symm⟩⟩

theorem lexStep_stack {lang : Lang α L A ρ} {t : List α} {s s' : LState L ρ} {ev : List (Event α L A)}
    {base : List L} (h : lexStep lang t s = some (s', ev)) (hi : StackInv base s.stack s.fac) :
    KeepsRoot base ev ∧ StackInv (replayStack base ev) s'.stack s'.fac ∧ s'.stack ≠ [] := by
  obtain ⟨top, rest, tok, ps', hs, hp, hc⟩ := lexStep_cases h
  have hne : s.stack ≠ [] := by simp [hs]
  rcases hc with ⟨_, _, rfl, rfl⟩ | ⟨_, _, rfl, rfl⟩ | ⟨tg0, tg, _, h1, _, ⟨rfl, rfl⟩ | ⟨rfl, rfl⟩⟩ |
    ⟨tg0, tg, _, h1, _, rfl, ⟨_, rfl⟩ | ⟨_, rfl⟩⟩
  · obtain ⟨h3, h4, _⟩ := hi.emit lang tok hne
    exact ⟨h3, h4, hne⟩
  · exact ⟨trivial, hi, hne⟩
  · have hlt : tg.pop < s.stack.length := by rw [h1]; exact clamp_lt _ _ hne
    obtain ⟨h3, h4, _⟩ := (hi.add hlt).emit lang tok (apply_ne_nil hlt)
    exact ⟨h3, h4, apply_ne_nil hlt⟩
  · have hlt : tg.pop < s.stack.length := by rw [h1]; exact clamp_lt _ _ hne
    obtain ⟨h3, h4, _⟩ := hi.emit lang tok hne
    exact ⟨h3, h4.add hlt, apply_ne_nil hlt⟩
  · have hlt : tg.pop < s.stack.length := by rw [h1]; exact clamp_lt _ _ hne
    exact ⟨trivial, hi.add hlt, apply_ne_nil hlt⟩
  · have hlt : tg.pop < s.stack.length := by rw [h1]; exact clamp_lt _ _ hne
    exact ⟨trivial, hi.add hlt, apply_ne_nil hlt⟩

theorem lexRun_stack (lang : Lang α L A ρ) (t : List α) : ∀ (n : Nat) (s : LState L ρ) (base : List L),
    StackInv base s.stack s.fac →
    KeepsRoot base (lexRun lang t n s).1 ∧
    ∀ s', (lexRun lang t n s).2 = some s' →
      StackInv (replayStack base (lexRun lang t n s).1) s'.stack s'.fac := by
  intro n
  induction n with
  | zero =>
    intro s base hi
    refine ⟨trivial, ?_⟩
    intro s' h; simp only [lexRun, Option.some.injEq] at h; subst h; exact hi
  | succ n ih =>
    intro s base hi
    simp only [lexRun]
    cases h : lexStep lang t s with
    | none => exact ⟨trivial, by simp⟩
    | some r =>
      obtain ⟨s1, ev⟩ := r
      obtain ⟨h1, h2, _⟩ := lexStep_stack h hi
      obtain ⟨h3, h4⟩ := ih s1 _ h2
      simp only
      refine ⟨(keepsRoot_append _ _ _).2 ⟨h1, h3⟩, ?_⟩
      rw [replayStack_append]
      exact h4

theorem start_inv (stack : List L) (pos : Nat) (h : stack ≠ []) :
    StackInv stack (LState.start (ρ := ρ) stack pos).stack (LState.start (ρ := ρ) stack pos).fac :=
  ⟨(eff_init stack).symm, List.length_pos_iff.2 h⟩

/-! ### Positions -/

/-- The position a suspended generator has reached. -/
def PS.floor (t : List α) : PS ρ → Nat
  | .at p _ => p
  | .pend m => m.start
  | .pendLit i => i
  | .stop => t.length

theorem findSub_some {needle t : List α} {pos i : Nat} (hne : needle ≠ [])
    (h : findSub needle t pos = some i) :
    pos ≤ i ∧ slice t i (i + needle.length) = needle ∧ i + needle.length ≤ t.length := by
  unfold findSub at h
  have := List.find?_some h
  simp only [Bool.and_eq_true, decide_eq_true_eq, beq_iff_eq] at this
  refine ⟨this.1, this.2, ?_⟩
  have h2 := congrArg List.length this.2
  rw [slice_length] at h2
  have := List.length_pos_iff.2 hne
  omega

/-- Facts about a tuple yielded by `parse`. -/
structure TokOK (t : List α) (a : Nat) (tok : Tok α L A ρ) (ps' : PS ρ) : Prop where
  ge : a ≤ tok.pos
  text : tok.text = slice t tok.pos (tok.pos + tok.text.length)
  le : tok.pos + tok.text.length ≤ t.length
  next : tok.pos + tok.text.length ≤ ps'.floor t
  exact : tok.text ≠ [] → ps'.floor t = tok.pos + tok.text.length

theorem slice_self_length {t : List α} {a b : Nat} (h1 : a ≤ b) (h2 : b ≤ t.length) :
    (slice t a b).length = b - a := by rw [slice_length]; omega

theorem parseNext_ok {noAct : A} {ld : LexDef α L A ρ} {t : List α} {ps ps' : PS ρ} {tok : Tok α L A ρ}
    (hld : LexOK ld) (hps : PSOK t ld ps) (h : parseNext noAct ld t ps = some (tok, ps')) :
    TokOK t (ps.floor t) tok ps' ∧ PSOK t ld ps' := by
  have htail : ∀ (d : Dflt α L A) (p : Nat), p ≤ t.length →
      tailTok noAct d t p = some (tok, ps') → TokOK t p tok ps' ∧ PSOK t ld ps' := by
    intro d p hp h
    unfold tailTok at h
    split at h
    · rename_i hlt
      split at h
      · simp at h
      · simp only [Option.some.injEq, Prod.mk.injEq] at h
        obtain ⟨rfl, rfl⟩ := h
        refine ⟨⟨Nat.le_refl _, ?_, ?_, ?_, ?_⟩, trivial⟩
        · simp only [List.length_drop, slice]
          rw [show p + (t.length - p) = t.length by omega, List.take_length]
        · simp only [List.length_drop]; omega
        · simp only [List.length_drop, PS.floor]; omega
        · simp only [List.length_drop, PS.floor]; omega
      · simp only [Option.some.injEq, Prod.mk.injEq] at h
        obtain ⟨rfl, rfl⟩ := h
        refine ⟨⟨Nat.le_refl _, ?_, ?_, ?_, ?_⟩, trivial⟩
        · simp [slice]
        · simp only [List.length_nil]; omega
        · simp only [List.length_nil, PS.floor]; omega
        · simp
    · simp at h
  have hmatch : ∀ (rule : List α → Mtch ρ → A × Option (Target L)) (m : Mtch ρ) (a : Nat), a ≤ m.start →
      m.start ≤ m.stop → m.stop ≤ t.length → matchTok rule t m = (tok, ps') →
      TokOK t a tok ps' ∧ PSOK t ld ps' := by
    intro rule m a h1 h2 h3 h
    simp only [matchTok, Prod.mk.injEq] at h
    obtain ⟨rfl, rfl⟩ := h
    have hl : (slice t m.start m.stop).length = m.stop - m.start := slice_self_length h2 h3
    refine ⟨⟨h1, ?_, ?_, ?_, ?_⟩, ?_⟩
    · simp only [hl, show m.start + (m.stop - m.start) = m.stop by omega]
    · simp only [hl]; omega
    · simp only [hl, PS.floor]; omega
    · simp only [hl, PS.floor]; omega
    · simpa [PSOK] using h3
  have hlit : ∀ (needle : List α) (act : A) (tgt : Option (Target L)) (i a : Nat), a ≤ i →
      slice t i (i + needle.length) = needle → i + needle.length ≤ t.length →
      litTok needle act tgt i = (tok, ps') → TokOK t a tok ps' ∧ PSOK t ld ps' := by
    intro needle act tgt i a h1 h2 h3 h
    simp only [litTok, Prod.mk.injEq] at h
    obtain ⟨rfl, rfl⟩ := h
    exact ⟨⟨h1, h2.symm, h3, Nat.le_refl _, fun _ => rfl⟩, by simpa [PSOK] using h3⟩
  have hgap : ∀ (p i : Nat) (a : A) (ps1 : PS ρ), p < i → i ≤ t.length → ps1.floor t = i → PSOK t ld ps1 →
      (Tok.mk p (slice t p i) none a none, ps1) = (tok, ps') →
      TokOK t p tok ps' ∧ PSOK t ld ps' := by
    intro p i a ps1 h1 h2 h3 h4 h
    simp only [Prod.mk.injEq] at h
    obtain ⟨rfl, rfl⟩ := h
    have hl : (slice t p i).length = i - p := slice_self_length (by omega) h2
    refine ⟨⟨Nat.le_refl _, ?_, ?_, ?_, ?_⟩, h4⟩
    · simp only [hl, show p + (i - p) = i by omega]
    · simp only [hl]; omega
    · simp only [hl, h3]; omega
    · simp only [hl, h3]; omega
  cases ps with
  | stop => simp [parseNext] at h
  | pend m =>
    simp only [parseNext] at h
    cases ld with
    | regex search matchAt rule d =>
      simp only [Option.some.injEq] at h
      exact hmatch rule m m.start (Nat.le_refl _) hps.1 hps.2.1 h
    | empty d => simp at h
    | literal n a tg d => simp at h
  | pendLit i =>
    simp only [parseNext] at h
    cases ld with
    | regex search matchAt rule d => simp at h
    | empty d => simp at h
    | literal n a tg d =>
      simp only [Option.some.injEq] at h
      obtain ⟨n', a', tg', f', he, h1, h2⟩ := hps
      cases he
      exact hlit n a tg i i (Nat.le_refl _) h1 h2 h
  | «at» p must =>
    have hp : p ≤ t.length := hps
    show TokOK t p tok ps' ∧ _
    simp only [parseNext] at h
    cases ld with
    | empty d => exact htail d p hp h
    | literal n a tg d =>
      have hn : n ≠ [] := hld
      cases d with
      | skip =>
        simp only at h
        cases hf : findSub n t p with
        | none => rw [hf] at h; simp at h
        | some i =>
          rw [hf] at h
          simp only [Option.some.injEq] at h
          obtain ⟨h1, h2, h3⟩ := findSub_some hn hf
          exact hlit n a tg i p h1 h2 h3 h
      | action f =>
        simp only at h
        cases hf : findSub n t p with
        | none => rw [hf] at h; exact htail _ p hp h
        | some i =>
          rw [hf] at h
          obtain ⟨h1, h2, h3⟩ := findSub_some hn hf
          simp only at h
          split at h
          · simp only [Option.some.injEq] at h
            refine hgap p i _ _ (by omega) (by omega) rfl ?_ h
            exact ⟨n, a, tg, f, rfl, h2, h3⟩
          · simp only [Option.some.injEq] at h
            exact hlit n a tg i p h1 h2 h3 h
      | target tg' =>
        simp only at h
        split at h
        · rename_i he
          simp only [Option.some.injEq] at h
          have hl := congrArg List.length he
          rw [slice_length] at hl
          have := List.length_pos_iff.2 hn
          exact hlit n a tg p p (Nat.le_refl _) he (by omega) h
        · exact htail _ p hp h
    | regex search matchAt rule d =>
      obtain ⟨hs, hm⟩ := hld
      cases d with
      | skip =>
        simp only at h
        cases hf : search t p must with
        | none => rw [hf] at h; simp at h
        | some m =>
          rw [hf] at h
          simp only [Option.some.injEq] at h
          obtain ⟨h1, h2, h3, _⟩ := hs t p must m hf
          exact hmatch rule m p h1 h2 h3 h
      | action f =>
        simp only at h
        cases hf : search t p must with
        | none => rw [hf] at h; exact htail _ p hp h
        | some m =>
          rw [hf] at h
          obtain ⟨h1, h2, h3, _⟩ := hs t p must m hf
          simp only at h
          split at h
          · simp only [Option.some.injEq] at h
            exact hgap p m.start _ (.pend m) (by omega) (by omega) rfl ⟨h2, h3, _, _, _, _, rfl, Or.inr ⟨_, _, hf⟩⟩ h
          · simp only [Option.some.injEq] at h
            exact hmatch rule m p h1 h2 h3 h
      | target tg' =>
        simp only at h
        cases hf : matchAt t p with
        | none => rw [hf] at h; exact htail _ p hp h
        | some m =>
          rw [hf] at h
          simp only [Option.some.injEq] at h
          obtain ⟨h1, h2, h3⟩ := hm t p m hf
          exact hmatch rule m p (by omega) (by omega) h3 h


/-- The suspended generator belongs to the current lexicon. -/
def StOK (lang : Lang α L A ρ) (t : List α) (s : LState L ρ) : Prop :=
  ∀ top rest, s.stack = top :: rest → PSOK t (lang.ld top) s.ps

theorem start_ok (lang : Lang α L A ρ) (t : List α) (stack : List L) {pos : Nat} (h : pos ≤ t.length) :
    StOK lang t (LState.start stack pos) := fun _ _ _ => h

theorem Within.mono {t : List α} : ∀ {ls : List (Lexeme α A)} {a b a' b' : Nat}, Within t a b ls →
    a' ≤ a → b ≤ b' → Within t a' b' ls
  | [], a, b, a', b', h, h1, h2 => by simp only [Within] at *; omega
  | l :: ls, a, b, a', b', h, h1, h2 => by
    simp only [Within] at *
    exact ⟨by omega, h.2.1, h.2.2.1, h.2.2.2.1, h.2.2.2.2.mono (Nat.le_refl _) h2⟩

theorem Within.append {t : List α} : ∀ {ls ms : List (Lexeme α A)} {a b c : Nat}, Within t a b ls →
    Within t b c ms → Within t a c (ls ++ ms)
  | [], ms, a, b, c, h, h2 => h2.mono h (Nat.le_refl _)
  | l :: ls, ms, a, b, c, h, h2 => by
    simp only [Within, List.cons_append] at *
    exact ⟨h.1, h.2.1, h.2.2.1, h.2.2.2.1, h.2.2.2.2.append h2⟩

theorem emit_lexemes (lang : Lang α L A ρ) (f : Factory L) (tok : Tok α L A ρ) :
    lexemes (emit lang f tok).2 = lang.expand tok := by
  rcases emit_cases lang f tok with ⟨h, h1⟩ | ⟨_, h1⟩
  · rw [h1, h]; rfl
  · rw [h1]; simp [lexemes]

/-- One step of the lexer: the token it is about, and the new position. -/
theorem lexStep_pos {lang : Lang α L A ρ} {t : List α} {s s' : LState L ρ} {ev : List (Event α L A)}
    (hl : ∀ l, LexOK (lang.ld l)) (hok : StOK lang t s) (h : lexStep lang t s = some (s', ev)) :
    StOK lang t s' ∧ ∃ top rest tok ps', s.stack = top :: rest ∧
      parseNext lang.noAct (lang.ld top) t s.ps = some (tok, ps') ∧
      TokOK t (s.ps.floor t) tok ps' ∧
      lexemes ev = (if tok.text = [] then [] else lang.expand tok) ∧
      tok.pos + tok.text.length ≤ s'.ps.floor t ∧
      (s'.ps = ps' ∧ s'.stack = s.stack ∧ tok.tgt = none ∨
       (tok.text ≠ [] ∧ s'.ps = .at (tok.pos + tok.text.length) false ∧ s'.circ = [] ∧ tok.tgt ≠ none) ∨
       (tok.text = [] ∧ s'.ps = .at tok.pos false ∧ tok.tgt ≠ none) ∨
       (tok.text = [] ∧ s'.ps = .at (tok.pos + 1) false ∧ ∃ tg, tok.tgt = some tg ∧ tg.push ≠ [])) := by
  obtain ⟨top, rest, tok, ps', hs, hp, hc⟩ := lexStep_cases h
  obtain ⟨h1, h2⟩ := parseNext_ok (hl top) (hok top rest hs) hp
  have hle := h1.le
  have hnx := h1.next
  refine (fun (hh : StOK lang t s' ∧ _) => ⟨hh.1, top, rest, tok, ps', hs, hp, h1, hh.2⟩) ?_
  rcases hc with ⟨h4, h5, rfl, rfl⟩ | ⟨h4, h5, rfl, rfl⟩ | ⟨tg0, tg, h4, _, h5, ⟨rfl, rfl⟩ | ⟨rfl, rfl⟩⟩ |
    ⟨tg0, tg, h4, h6, h5, rfl, ⟨_, rfl⟩ | ⟨_, rfl⟩⟩
  · refine ⟨?_, ?_, hnx, Or.inl ⟨rfl, rfl, h4⟩⟩
    · intro top' rest' hs'
      simp only at hs'
      rw [hs] at hs'
      cases hs'
      exact h2
    · rw [emit_lexemes, if_neg h5]
  · refine ⟨?_, ?_, hnx, Or.inl ⟨rfl, rfl, h4⟩⟩
    · intro top' rest' hs'
      simp only at hs'
      rw [hs] at hs'
      cases hs'
      exact h2
    · rw [if_pos h5]; rfl
  · refine ⟨fun _ _ _ => hle, by rw [emit_lexemes, if_neg h5], Nat.le_refl _, ?_⟩
    exact Or.inr (Or.inl ⟨h5, rfl, rfl, by simp [h4]⟩)
  · refine ⟨fun _ _ _ => hle, by rw [emit_lexemes, if_neg h5], Nat.le_refl _, ?_⟩
    exact Or.inr (Or.inl ⟨h5, rfl, rfl, by simp [h4]⟩)
  · rw [h5] at hle ⊢
    simp only [List.length_nil, Nat.add_zero] at hle ⊢
    by_cases hc : tg.push ≠ [] ∧ tok.pos < t.length
    · rw [if_pos hc]
      refine ⟨fun _ _ _ => ?_, rfl, Nat.le_succ _, Or.inr (Or.inr (Or.inr ⟨trivial, rfl, tg0, h4, ?_⟩))⟩
      · simp only [PSOK]; omega
      · intro h7
        apply hc.1
        rw [h6]
        unfold clampPop
        split
        · exact h7
        · exact h7
    · rw [if_neg hc]
      exact ⟨fun _ _ _ => hle, rfl, Nat.le_refl _, Or.inr (Or.inr (Or.inl ⟨trivial, rfl, by simp [h4]⟩))⟩
  · rw [h5] at hle ⊢
    simp only [List.length_nil, Nat.add_zero] at hle ⊢
    exact ⟨fun _ _ _ => hle, rfl, Nat.le_refl _, Or.inr (Or.inr (Or.inl ⟨trivial, trivial, by simp [h4]⟩))⟩

theorem lexemes_append (a b : List (Event α L A)) : lexemes (a ++ b) = lexemes a ++ lexemes b := by
  simp [lexemes]

theorem floor_le {lang : Lang α L A ρ} {t : List α} {s : LState L ρ} (h : StOK lang t s) (hne : s.stack ≠ []) :
    s.ps.floor t ≤ t.length := by
  cases hs : s.stack with
  | nil => exact absurd hs hne
  | cons top rest =>
    have := h top rest hs
    cases hp : s.ps with
    | «at» p b => rw [hp] at this; exact this
    | pend m => rw [hp] at this; simp only [PSOK] at this; simp only [PS.floor]; omega
    | pendLit i =>
      rw [hp] at this
      obtain ⟨n, _, _, _, _, h1, h2⟩ := this
      simp only [PS.floor]; omega
    | stop => simp [PS.floor]

theorem lexStep_ne_nil {lang : Lang α L A ρ} {t : List α} {s s' : LState L ρ} {ev : List (Event α L A)}
    (h : lexStep lang t s = some (s', ev)) : s'.stack ≠ [] := by
  obtain ⟨top, rest, tok, ps', hs, hp, hc⟩ := lexStep_cases h
  have hne : s.stack ≠ [] := by simp [hs]
  rcases hc with ⟨_, _, rfl, rfl⟩ | ⟨_, _, rfl, rfl⟩ | ⟨tg0, tg, _, h1, _, ⟨rfl, rfl⟩ | ⟨rfl, rfl⟩⟩ |
    ⟨tg0, tg, _, h1, _, rfl, ⟨_, rfl⟩ | ⟨_, rfl⟩⟩
  · exact hne
  · exact hne
  all_goals
    exact apply_ne_nil (by rw [h1]; exact clamp_lt _ _ hne)

theorem lexStep_root {lang : Lang α L A ρ} {t : List α} {s s' : LState L ρ} {ev : List (Event α L A)}
    (h : lexStep lang t s = some (s', ev)) : s'.stack.getLast? = s.stack.getLast? := by
  obtain ⟨top, rest, tok, ps', hs, hp, hc⟩ := lexStep_cases h
  have hne : s.stack ≠ [] := by simp [hs]
  rcases hc with ⟨_, _, rfl, rfl⟩ | ⟨_, _, rfl, rfl⟩ | ⟨tg0, tg, _, h1, _, ⟨rfl, rfl⟩ | ⟨rfl, rfl⟩⟩ |
    ⟨tg0, tg, _, h1, _, rfl, ⟨_, rfl⟩ | ⟨_, rfl⟩⟩
  · rfl
  · rfl
  all_goals
    exact apply_getLast (by rw [h1]; exact clamp_lt _ _ hne)

theorem lexRun_within (lang : Lang α L A ρ) (t : List α) (hl : ∀ l, LexOK (lang.ld l))
    (he : ExpandsWithin lang t) : ∀ (n : Nat) (s : LState L ρ), StOK lang t s → s.stack ≠ [] →
    Within t (s.ps.floor t) t.length (lexemes (lexRun lang t n s).1) := by
  intro n
  induction n with
  | zero => intro s hs hne; exact floor_le hs hne
  | succ n ih =>
    intro s hs hne
    simp only [lexRun]
    cases h : lexStep lang t s with
    | none => exact floor_le hs hne
    | some r =>
      obtain ⟨s1, ev⟩ := r
      obtain ⟨h1, top, rest, tok, ps', hst, hp, h2, h3, h4, _⟩ := lexStep_pos hl hs h
      have h5 := ih s1 h1 (lexStep_ne_nil h)
      simp only [lexemes_append]
      refine Within.append ?_ h5
      rw [h3]
      split
      · have := h2.ge; simp only [Within]; omega
      · rename_i hne'
        exact (he top s.ps ps' tok (hs top rest hst) hp hne' h2.text h2.le).mono h2.ge h4

/-! ### Coverage -/

theorem parseNext_cover {noAct : A} {ld : LexDef α L A ρ} {t : List α} {ps : PS ρ}
    (hld : LexOK ld) (hps : PSOK t ld ps) (hd : HasDefaultAction ld) :
    (parseNext noAct ld t ps = none → ps.floor t = t.length) ∧
    ∀ tok ps', parseNext noAct ld t ps = some (tok, ps') →
      tok.pos = ps.floor t ∧ ps'.floor t = tok.pos + tok.text.length := by
  have htail : ∀ (f : List α → A) (p : Nat), p ≤ t.length →
      (tailTok (ρ := ρ) noAct (.action f : Dflt α L A) t p = none → p = t.length) ∧
      ∀ tok ps', tailTok (ρ := ρ) noAct (.action f : Dflt α L A) t p = some (tok, ps') →
      tok.pos = p ∧ ps'.floor t = tok.pos + tok.text.length := by
    intro f p hp
    unfold tailTok
    split
    · refine ⟨by simp, ?_⟩
      intro tok ps' h
      simp only [Option.some.injEq, Prod.mk.injEq] at h
      obtain ⟨rfl, rfl⟩ := h
      simp only [List.length_drop, PS.floor]
      exact ⟨trivial, by omega⟩
    · exact ⟨fun _ => by omega, by simp⟩
  have hmatch : ∀ (rule : List α → Mtch ρ → A × Option (Target L)) (m : Mtch ρ),
      m.start ≤ m.stop → m.stop ≤ t.length → ∀ tok ps', matchTok rule t m = (tok, ps') →
      tok.pos = m.start ∧ ps'.floor t = tok.pos + tok.text.length := by
    intro rule m h2 h3 tok ps' h
    simp only [matchTok, Prod.mk.injEq] at h
    obtain ⟨rfl, rfl⟩ := h
    have hl : (slice t m.start m.stop).length = m.stop - m.start := slice_self_length h2 h3
    simp only [hl, PS.floor]
    exact ⟨trivial, by omega⟩
  cases ps with
  | stop => simp [parseNext, PS.floor]
  | pend m =>
    obtain ⟨h1, h2, s, ma, r, f, rfl, hfm⟩ := hps
    simp only [parseNext, reduceCtorEq, false_implies, true_and, Option.some.injEq]
    intro tok ps' h
    exact hmatch r m h1 h2 tok ps' h
  | pendLit i =>
    obtain ⟨n, a, tg, f, rfl, h1, h2⟩ := hps
    simp only [parseNext, reduceCtorEq, false_implies, true_and, Option.some.injEq, litTok, Prod.mk.injEq]
    rintro tok ps' ⟨rfl, rfl⟩
    exact ⟨rfl, rfl⟩
  | «at» p must =>
    have hp : p ≤ t.length := hps
    simp only [parseNext, PS.floor]
    cases ld with
    | empty d =>
      cases d with
      | action f => exact htail f p hp
      | skip => exact hd.elim
      | target tg => exact hd.elim
    | literal n a tg d =>
      cases d with
      | skip => exact hd.elim
      | target tg => exact hd.elim
      | action f =>
        simp only
        cases hf : findSub n t p with
        | none => exact htail f p hp
        | some i =>
          obtain ⟨h1, h2, h3⟩ := findSub_some hld hf
          simp only
          split
          · simp only [reduceCtorEq, false_implies, true_and, Option.some.injEq, Prod.mk.injEq]
            rintro tok ps' ⟨rfl, rfl⟩
            have hl : (slice t p i).length = i - p := slice_self_length (by omega) (by omega)
            simp only [hl, PS.floor]
            exact ⟨trivial, by omega⟩
          · simp only [reduceCtorEq, false_implies, true_and, Option.some.injEq, litTok, Prod.mk.injEq]
            rintro tok ps' ⟨rfl, rfl⟩
            exact ⟨by simp only; omega, rfl⟩
    | regex search matchAt rule d =>
      obtain ⟨hs, hm⟩ := hld
      cases d with
      | skip => exact hd.elim
      | target tg => exact hd.elim
      | action f =>
        simp only
        cases hf : search t p must with
        | none => exact htail f p hp
        | some m =>
          obtain ⟨h1, h2, h3, _⟩ := hs t p must m hf
          simp only
          split
          · simp only [reduceCtorEq, false_implies, true_and, Option.some.injEq, Prod.mk.injEq]
            rintro tok ps' ⟨rfl, rfl⟩
            have hl : (slice t p m.start).length = m.start - p := slice_self_length (by omega) (by omega)
            simp only [hl, PS.floor]
            exact ⟨trivial, by omega⟩
          · simp only [reduceCtorEq, false_implies, true_and, Option.some.injEq]
            intro tok ps' h
            obtain ⟨h5, h6⟩ := hmatch rule m h2 h3 tok ps' h
            exact ⟨by omega, h6⟩

/-- A token without text and with a target comes from an empty match or a default target. -/
theorem parseNext_emptyTarget {noAct : A} {ld : LexDef α L A ρ} {t : List α} {ps ps' : PS ρ}
    {tok : Tok α L A ρ} {tg : Target L}
    (hld : LexOK ld) (hps : PSOK t ld ps) (hd : HasDefaultAction ld) (hn : NoEmptyPush ld)
    (h : parseNext noAct ld t ps = some (tok, ps')) (ht : tok.text = []) (htg : tok.tgt = some tg) :
    tg.push = [] := by
  have htail : ∀ (f : List α → A) (p : Nat), 
      tailTok (ρ := ρ) noAct (.action f : Dflt α L A) t p = some (tok, ps') → False := by
    intro f p h
    unfold tailTok at h
    split at h
    · simp only [Option.some.injEq, Prod.mk.injEq] at h
      obtain ⟨rfl, rfl⟩ := h
      simp at htg
    · simp at h
  have hmatch : ∀ (s ma) (rule : List α → Mtch ρ → A × Option (Target L)) (d) (m : Mtch ρ),
      ld = .regex s ma rule d → Finds s ma t m →
      m.start ≤ m.stop → m.stop ≤ t.length → matchTok rule t m = (tok, ps') →
      tg.push = [] := by
    intro s ma rule d m hr hfm h2 h3 h'
    subst hr
    simp only [matchTok, Prod.mk.injEq] at h'
    obtain ⟨rfl, rfl⟩ := h'
    have hl : (slice t m.start m.stop).length = m.stop - m.start := slice_self_length h2 h3
    simp only at ht htg
    rw [ht] at hl
    exact hn t m tg hfm htg (by simp at hl; omega)
  have hlit : ∀ (n : List α) (a : A) tg' (d : Dflt α L A) (i : Nat), ld = .literal n a tg' d →
      (litTok n a tg' i : Tok α L A ρ × PS ρ) = (tok, ps') → tg.push = [] := by
    intro n a tg' d i hl h'
    subst hl
    simp only [litTok, Prod.mk.injEq] at h'
    obtain ⟨rfl, rfl⟩ := h'
    exact absurd ht hld
  cases ps with
  | stop => simp [parseNext] at h
  | pend m =>
    obtain ⟨h1, h2, s, ma, r, f, rfl, hfm⟩ := hps
    simp only [parseNext, Option.some.injEq] at h
    exact hmatch _ _ r _ m rfl hfm h1 h2 h
  | pendLit i =>
    obtain ⟨n, a, tg', f, rfl, h1, h2⟩ := hps
    simp only [parseNext, Option.some.injEq] at h
    exact hlit n a tg' _ i rfl h
  | «at» p must =>
    simp only [parseNext] at h
    cases ld with
    | empty d =>
      cases d with
      | action f => exact (htail f p h).elim
      | skip => exact hd.elim
      | target tg => exact hd.elim
    | literal n a tg' d =>
      cases d with
      | skip => exact hd.elim
      | target tg => exact hd.elim
      | action f =>
        simp only at h
        cases hf : findSub n t p with
        | none => rw [hf] at h; exact (htail f p h).elim
        | some i =>
          rw [hf] at h
          simp only at h
          split at h
          · simp only [Option.some.injEq, Prod.mk.injEq] at h
            obtain ⟨rfl, rfl⟩ := h
            simp at htg
          · simp only [Option.some.injEq] at h
            exact hlit n a tg' _ i rfl h
    | regex search matchAt rule d =>
      obtain ⟨hs, hm⟩ := hld
      cases d with
      | skip => exact hd.elim
      | target tg => exact hd.elim
      | action f =>
        simp only at h
        cases hf : search t p must with
        | none => rw [hf] at h; exact (htail f p h).elim
        | some m =>
          obtain ⟨h1, h2, h3, _⟩ := hs t p must m hf
          rw [hf] at h
          simp only at h
          split at h
          · simp only [Option.some.injEq, Prod.mk.injEq] at h
            obtain ⟨rfl, rfl⟩ := h
            simp at htg
          · simp only [Option.some.injEq] at h
            exact hmatch _ _ rule _ m rfl (Or.inr ⟨_, _, hf⟩) h2 h3 h

theorem slice_append {t : List α} {a b c : Nat} (h1 : a ≤ b) (h2 : b ≤ c) :
    slice t a b ++ slice t b c = slice t a c := by
  unfold slice
  rw [show t.take b = (t.take c).take b by rw [List.take_take, Nat.min_eq_left h2]]
  conv => rhs; rw [← List.take_append_drop b (t.take c)]
  rw [List.drop_append]
  by_cases hb : b ≤ (t.take c).length
  · rw [List.length_take, Nat.min_eq_left hb, Nat.sub_eq_zero_of_le h1, List.drop_zero]
  · rw [List.drop_eq_nil_of_le (show (t.take c).length ≤ b by omega)]
    simp

theorem lexRun_cover (lang : Lang α L A ρ) (t : List α) (hl : ∀ l, LexOK (lang.ld l)) (hpl : Plain lang)
    (hd : ∀ l, HasDefaultAction (lang.ld l)) (hn : ∀ l, NoEmptyPush (lang.ld l)) :
    ∀ (n : Nat) (s : LState L ρ), StOK lang t s → s.stack ≠ [] →
    (lexemes (lexRun lang t n s).1).flatMap (·.text) =
      slice t (s.ps.floor t) (match (lexRun lang t n s).2 with
        | none => t.length
        | some s' => s'.ps.floor t) ∧
    (∀ s', (lexRun lang t n s).2 = some s' →
      s.ps.floor t ≤ s'.ps.floor t ∧ StOK lang t s' ∧ s'.stack ≠ []) := by
  intro n
  induction n with
  | zero =>
    intro s hs hne
    refine ⟨?_, ?_⟩
    · simp [lexRun, lexemes, slice]
    · intro s' h; simp only [lexRun, Option.some.injEq] at h; subst h; exact ⟨Nat.le_refl _, hs, hne⟩
  | succ n ih =>
    intro s hs hne
    simp only [lexRun]
    cases h : lexStep lang t s with
    | none =>
      refine ⟨?_, by simp⟩
      have : s.ps.floor t = t.length := by
        unfold lexStep at h
        split at h
        · rename_i h2; exact absurd h2 hne
        · rename_i top rest hst
          cases hp : parseNext lang.noAct (lang.ld top) t s.ps with
          | none => exact (parseNext_cover (hl top) (hs top rest hst) (hd top)).1 hp
          | some r =>
            obtain ⟨tok, ps'⟩ := r
            rw [hp] at h
            simp only at h
            split at h
            · split at h <;> simp at h
            · split at h
              · split at h <;> simp at h
              · split at h <;> simp at h
      simp [lexemes, slice, this]
    | some r =>
      obtain ⟨s1, ev⟩ := r
      obtain ⟨h1, top, rest, tok, ps', hst, hp, h2, h3, h4, h5⟩ := lexStep_pos hl hs h
      have hne1 := lexStep_ne_nil h
      obtain ⟨h6, h7⟩ := ih s1 h1 hne1
      obtain ⟨hc1, hc2⟩ := (parseNext_cover (hl top) (hs top rest hst) (hd top)).2 tok ps' hp
      have hf : s1.ps.floor t = tok.pos + tok.text.length := by
        rcases h5 with ⟨h8, _⟩ | ⟨_, h8, _⟩ | ⟨h9, h8, _⟩ | ⟨h9, h8, tg, htg, hpu⟩
        · rw [h8]; exact hc2
        · rw [h8]; rfl
        · rw [h8, h9]; rfl
        · exact absurd (parseNext_emptyTarget (hl top) (hs top rest hst) (hd top) (hn top) hp h9 htg) hpu
      simp only [lexemes_append, List.flatMap_append]
      rw [h6, h3]
      have hev : (if tok.text = [] then [] else lang.expand tok).flatMap (·.text) =
          slice t (s.ps.floor t) (s1.ps.floor t) := by
        split
        · rename_i h9; rw [hf, hc1, h9]; simp [slice]
        · rw [hpl tok, hf, ← hc1]; simpa using h2.text
      rw [hev]
      refine ⟨?_, ?_⟩
      · apply slice_append
        · omega
        · cases hr : (lexRun lang t n s1).2 with
          | none => exact floor_le h1 hne1
          | some s' => exact (h7 s' hr).1
      · intro s' h8
        obtain ⟨h9, h10⟩ := h7 s' h8
        exact ⟨by omega, h10⟩


/-! ### Termination -/

def PS.rank : PS ρ → Nat
  | .at _ false => 2
  | .at _ true => 1
  | .pend _ => 2
  | .pendLit _ => 2
  | .stop => 0

/-- A tuple without text and target comes from an empty match, and can not come again. -/
theorem parseNext_noText {noAct : A} {ld : LexDef α L A ρ} {t : List α} {ps ps' : PS ρ}
    {tok : Tok α L A ρ} (hld : LexOK ld) (hps : PSOK t ld ps) (hn : NoStuckMatch ld)
    (h : parseNext noAct ld t ps = some (tok, ps')) (ht : tok.text = []) (htg : tok.tgt = none) :
    ps.floor t < ps'.floor t ∨ (ps.floor t = ps'.floor t ∧ ps'.rank < ps.rank) := by
  have htail : ∀ (d : Dflt α L A) (p : Nat),
      tailTok (ρ := ρ) noAct d t p = some (tok, ps') → False := by
    intro d p h'
    unfold tailTok at h'
    split at h'
    · split at h'
      · simp at h'
      · simp only [Option.some.injEq, Prod.mk.injEq] at h'
        obtain ⟨rfl, rfl⟩ := h'
        simp at ht
        omega
      · simp only [Option.some.injEq, Prod.mk.injEq] at h'
        obtain ⟨rfl, rfl⟩ := h'
        simp at htg
    · simp at h'
  have hmatch : ∀ (rule : List α → Mtch ρ → A × Option (Target L)) (m : Mtch ρ),
      m.start ≤ m.stop → m.stop ≤ t.length → matchTok rule t m = (tok, ps') →
      m.start = m.stop ∧ (rule t m).2 = none ∧ ps' = .at m.stop true := by
    intro rule m h2 h3 h'
    simp only [matchTok, Prod.mk.injEq] at h'
    obtain ⟨rfl, rfl⟩ := h'
    have hl : (slice t m.start m.stop).length = m.stop - m.start := slice_self_length h2 h3
    simp only at ht htg
    rw [ht] at hl
    have : m.start = m.stop := by simp at hl; omega
    exact ⟨this, htg, by simp [this]⟩
  cases ps with
  | stop => simp [parseNext] at h
  | pend m =>
    obtain ⟨h1, h2, s, ma, r, f, rfl, hfm⟩ := hps
    simp only [parseNext, Option.some.injEq] at h
    obtain ⟨h3, _, rfl⟩ := hmatch r m h1 h2 h
    right
    exact ⟨h3, by simp [PS.rank]⟩
  | pendLit i =>
    obtain ⟨n, a, tg', f, rfl, h1, h2⟩ := hps
    simp only [parseNext, Option.some.injEq, litTok, Prod.mk.injEq] at h
    obtain ⟨rfl, rfl⟩ := h
    exact absurd ht hld
  | «at» p must =>
    simp only [parseNext] at h
    cases ld with
    | empty d => exact (htail _ p h).elim
    | literal n a tg' d =>
      exfalso
      have hlit : ∀ (i : Nat), (litTok n a tg' i : Tok α L A ρ × PS ρ) = (tok, ps') → False := by
        intro i h'
        simp only [litTok, Prod.mk.injEq] at h'
        obtain ⟨rfl, rfl⟩ := h'
        exact hld ht
      cases d with
      | skip =>
        simp only at h
        cases hf : findSub n t p with
        | none => rw [hf] at h; simp at h
        | some i => rw [hf] at h; simp only [Option.some.injEq] at h; exact hlit i h
      | target tg =>
        simp only at h
        split at h
        · simp only [Option.some.injEq] at h; exact hlit p h
        · exact htail _ p h
      | action f =>
        simp only at h
        cases hf : findSub n t p with
        | none => rw [hf] at h; exact htail _ p h
        | some i =>
          rw [hf] at h
          obtain ⟨h1, h2, h3⟩ := findSub_some hld hf
          simp only at h
          split at h
          · simp only [Option.some.injEq, Prod.mk.injEq] at h
            obtain ⟨rfl, rfl⟩ := h
            have hl : (slice t p i).length = i - p := slice_self_length (by omega) (by omega)
            simp only at ht
            rw [ht] at hl
            simp at hl
            omega
          · simp only [Option.some.injEq] at h; exact hlit i h
    | regex search matchAt rule d =>
      obtain ⟨hs, hm⟩ := hld
      have hsearch : ∀ m, search t p must = some m → matchTok rule t m = (tok, ps') →
          p < ps'.floor t ∨ (p = ps'.floor t ∧ ps'.rank < (PS.at (ρ := ρ) p must).rank) := by
        intro m hf h'
        obtain ⟨h1, h2, h3, h4⟩ := hs t p must m hf
        obtain ⟨h5, _, rfl⟩ := hmatch rule m h2 h3 h'
        simp only [PS.floor]
        cases must with
        | true => have := h4 rfl; omega
        | false =>
          by_cases hlt : p < m.stop
          · exact Or.inl hlt
          · exact Or.inr ⟨by omega, by simp [PS.rank]⟩
      cases d with
      | skip =>
        simp only at h
        cases hf : search t p must with
        | none => rw [hf] at h; simp at h
        | some m =>
          rw [hf] at h
          simp only [Option.some.injEq] at h
          exact hsearch m hf h
      | action f =>
        simp only at h
        cases hf : search t p must with
        | none => rw [hf] at h; exact (htail _ p h).elim
        | some m =>
          rw [hf] at h
          obtain ⟨h1, h2, h3, h4⟩ := hs t p must m hf
          simp only at h
          split at h
          · simp only [Option.some.injEq, Prod.mk.injEq] at h
            obtain ⟨rfl, rfl⟩ := h
            have hl : (slice t p m.start).length = m.start - p := slice_self_length (by omega) (by omega)
            simp only at ht
            rw [ht] at hl
            simp at hl
            omega
          · simp only [Option.some.injEq] at h
            exact hsearch m hf h
      | target tg =>
        simp only at h
        cases hf : matchAt t p with
        | none => rw [hf] at h; exact (htail _ p h).elim
        | some m =>
          rw [hf] at h
          obtain ⟨h1, h2, h3⟩ := hm t p m hf
          simp only [Option.some.injEq] at h
          obtain ⟨h5, h6, rfl⟩ := hmatch rule m (by omega) h3 h
          exact absurd h6 (hn t p m hf h5)

theorem lex_terminates (lang : Lang α L A ρ) (t : List α) (hl : ∀ l, LexOK (lang.ld l))
    (hn : ∀ l, NoStuckMatch (lang.ld l)) (root : L) (μ : List α → Nat → List L → Nat)
    (hμ : EmptyTargetsDecrease lang root μ)
    (s : LState L ρ) (hs : StOK lang t s) (hroot : s.stack.getLast? = some root) : ∃ n, (lexRun lang t n s).2 = none := by
  cases h : lexStep lang t s with
  | none => exact ⟨1, by simp [lexRun, h]⟩
  | some r =>
    obtain ⟨s1, ev⟩ := r
    obtain ⟨h1, top, rest, tok, ps', hst, hp, h2, h3, h4, h5⟩ := lexStep_pos hl hs h
    have hne1 := lexStep_ne_nil h
    have hne : s.stack ≠ [] := by simp [hst]
    have hfl := floor_le hs hne
    have hfl1 := floor_le h1 hne1
    have hge := h2.ge
    have key : Prod.Lex (· < ·) (Prod.Lex (· < ·) (· < ·))
        (t.length - s1.ps.floor t, μ t (s1.ps.floor t) s1.stack, s1.ps.rank)
        (t.length - s.ps.floor t, μ t (s.ps.floor t) s.stack, s.ps.rank) := by
      by_cases hlt : s.ps.floor t < s1.ps.floor t
      · exact Prod.Lex.left _ _ (by omega)
      · have heq : s.ps.floor t = s1.ps.floor t := by omega
        have hte : tok.text = [] := by
          cases hx : tok.text with
          | nil => rfl
          | cons c cs => rw [hx] at h4; simp at h4; omega
        rw [heq]
        apply Prod.Lex.right
        rcases h5 with ⟨h8, h9, h10⟩ | ⟨h8, _⟩ | ⟨_, h8, h9⟩ | ⟨_, h8, _⟩
        · rw [h9]
          apply Prod.Lex.right
          rcases parseNext_noText (hl top) (hs top rest hst) (hn top) hp hte h10 with h11 | ⟨_, h11⟩
          · rw [h8] at heq; omega
          · rw [h8]; exact h11
        · exact absurd hte h8
        · -- a target without text
          obtain ⟨top2, rest2, tok2, ps2, hst2, hp2, hc⟩ := lexStep_cases h
          rw [hst] at hst2; cases hst2
          rw [hp] at hp2; cases hp2
          apply Prod.Lex.left
          rcases hc with ⟨h12, _⟩ | ⟨h12, _⟩ | ⟨tg0, tg, _, _, h12, _⟩ | ⟨tg0, tg, h12, h13, _, _, ⟨_, rfl⟩ | ⟨_, rfl⟩⟩
          · exact absurd h12 h9
          · exact absurd h12 h9
          · exact absurd hte h12
          · have hfl2 : (if tg.push ≠ [] ∧ tok.pos < t.length then tok.pos + 1 else tok.pos) = tok.pos := by
              have : s.ps.floor t = if tg.push ≠ [] ∧ tok.pos < t.length then tok.pos + 1 else tok.pos := heq
              split at this
              · omega
              · next hh => rw [if_neg hh]
            simp only [hst] at h13 ⊢
            rw [hfl2, h13]
            exact hμ t top rest s.ps ps' tok tg0 (by rw [← hst]; exact hroot) (hs top rest hst) hp hte h12
          · simp only [hst] at h13 ⊢; rw [h13]; exact hμ t top rest s.ps ps' tok tg0 (by rw [← hst]; exact hroot) (hs top rest hst) hp hte h12
        · rw [h8] at heq
          have : PS.floor t (PS.at (ρ := ρ) (tok.pos + 1) false) = tok.pos + 1 := rfl
          omega
    obtain ⟨n, ih⟩ := lex_terminates lang t hl hn root μ hμ s1 h1 (by rw [lexStep_root h, hroot])
    exact ⟨n + 1, by simp [lexRun, h, ih]⟩
termination_by (t.length - s.ps.floor t, μ t (s.ps.floor t) s.stack, s.ps.rank)
decreasing_by exact key

theorem tail_emptyTgt {noAct : A} {d : Dflt α L A} {t : List α} {p : Nat} {ps' : PS ρ}
    {tok : Tok α L A ρ} {tg : Target L} (h : tailTok noAct d t p = some (tok, ps'))
    (htg : tok.tgt = some tg) : d = .target tg := by
  unfold tailTok at h
  split at h
  · split at h
    · simp at h
    · simp only [Option.some.injEq, Prod.mk.injEq] at h
      obtain ⟨rfl, rfl⟩ := h
      simp at htg
    · simp only [Option.some.injEq, Prod.mk.injEq] at h
      obtain ⟨rfl, rfl⟩ := h
      simp only [Option.some.injEq] at htg
      rw [htg]
  · simp at h

theorem parseNext_emptyTgts {noAct : A} {ld : LexDef α L A ρ} {t : List α} {ps ps' : PS ρ}
    {tok : Tok α L A ρ} {tg : Target L} {P : Target L → Prop} (hld : LexOK ld) (hP : EmptyTgts P ld) (hps : PSOK t ld ps)
    (h : parseNext noAct ld t ps = some (tok, ps')) (ht : tok.text = []) (htg : tok.tgt = some tg) : P tg := by
  have hgap : ∀ (p i : Nat) (a : A) (ps1 : PS ρ),
      some (Tok.mk p (slice t p i) none a none, ps1) = some (tok, ps') → P tg := by
    intro p i a ps1 h'
    simp only [Option.some.injEq, Prod.mk.injEq] at h'
    obtain ⟨rfl, rfl⟩ := h'
    simp at htg
  cases ld with
  | empty d =>
    cases ps with
    | «at» p must => exact hP tg (tail_emptyTgt (by simpa [parseNext] using h) htg)
    | stop => simp [parseNext] at h
    | pend m => simp [parseNext] at h
    | pendLit i => simp [parseNext] at h
  | literal n a tg' d =>
    have hlit : ∀ (i : Nat), some (litTok n a tg' i : Tok α L A ρ × PS ρ) = some (tok, ps') → P tg := by
      intro i h'
      simp only [litTok, Option.some.injEq, Prod.mk.injEq] at h'
      obtain ⟨rfl, rfl⟩ := h'
      exact absurd ht hld
    cases ps with
    | stop => simp [parseNext] at h
    | pend m => simp [parseNext] at h
    | pendLit i => exact hlit i (by simpa [parseNext] using h)
    | «at» p must =>
      simp only [parseNext] at h
      cases d with
      | skip =>
        simp only at h
        split at h
        · exact hlit _ h
        · simp at h
      | target tg1 =>
        simp only at h
        split at h
        · exact hlit _ h
        · exact hP tg (tail_emptyTgt h htg)
      | action f =>
        simp only at h
        split at h
        · split at h
          · exact hgap _ _ _ _ h
          · exact hlit _ h
        · exact hP tg (tail_emptyTgt h htg)
  | regex search matchAt rule d =>
    have hm : ∀ (m : Mtch ρ), Finds search matchAt t m → some (matchTok rule t m) = some (tok, ps') → P tg := by
      intro m hfm h'
      simp only [matchTok, Option.some.injEq, Prod.mk.injEq] at h'
      obtain ⟨rfl, rfl⟩ := h'
      exact hP.2 t m tg hfm ht htg
    cases ps with
    | stop => simp [parseNext] at h
    | pendLit m => simp [parseNext] at h
    | pend m =>
      obtain ⟨_, _, s, ma, r, f, he, hfm⟩ := hps
      cases he
      exact hm m hfm (by simpa [parseNext] using h)
    | «at» p must =>
      simp only [parseNext] at h
      cases d with
      | skip =>
        simp only at h
        split at h
        · next m hf => exact hm _ (Or.inr ⟨_, _, hf⟩) h
        · simp at h
      | target tg1 =>
        simp only at h
        split at h
        · next m hf => exact hm _ (Or.inl ⟨_, hf⟩) h
        · exact hP.1 tg (tail_emptyTgt h htg)
      | action f =>
        simp only at h
        split at h
        · next m hf =>
          split at h
          · exact hgap _ _ _ _ h
          · exact hm _ (Or.inr ⟨_, _, hf⟩) h
        · exact hP.1 tg (tail_emptyTgt h htg)

/-! ### Literals -/

/-- The fields of a tuple without the match object. -/
def Tok.proj (tok : Tok α L A ρ) : Nat × List α × A × Option (Target L) :=
  (tok.pos, tok.text, tok.act, tok.tgt)

inductive LitSim (t needle : List α) (r : ρ) : PS ρ → PS ρ → Prop
  | at (p b b') : LitSim t needle r (.at p b) (.at p b')
  | pend (i) (h : slice t i (i + needle.length) = needle) : LitSim t needle r (.pendLit i) (.pend ⟨i, i + needle.length, r⟩)
  | stop : LitSim t needle r .stop .stop

theorem literal_step (noAct : A) (needle : List α) (hne : needle ≠ []) (act : A) (tgt : Option (Target L))
    (d : Dflt α L A) (r : ρ) (t : List α) (ps ps' : PS ρ) (h : LitSim t needle r ps ps') :
    match parseNext noAct (.literal needle act tgt d) t ps,
          parseNext noAct (literalAsRegex needle act tgt d r) t ps' with
    | none, none => True
    | some (a, p), some (b, q) => a.proj = b.proj ∧ LitSim t needle r p q
    | _, _ => False := by
  have htail : ∀ p, match (tailTok noAct d t p : Option (Tok α L A ρ × PS ρ)), (tailTok noAct d t p : Option (Tok α L A ρ × PS ρ)) with
    | none, none => True
    | some (a, p), some (b, q) => a.proj = b.proj ∧ LitSim t needle r p q
    | _, _ => False := by
    intro p
    unfold tailTok
    by_cases hp : p < t.length
    · simp only [if_pos hp]
      cases d with
      | skip => trivial
      | action f => exact ⟨rfl, .stop⟩
      | target tg => exact ⟨rfl, .stop⟩
    · simp only [if_neg hp]
  have hm : ∀ (rule : List α → Mtch ρ → A × Option (Target L)), rule = (fun _ _ => (act, tgt)) →
      ∀ i, slice t i (i + needle.length) = needle →
      (litTok needle act tgt i : Tok α L A ρ × PS ρ).1.proj = (matchTok rule t ⟨i, i + needle.length, r⟩).1.proj ∧
      LitSim t needle r (litTok needle act tgt i : Tok α L A ρ × PS ρ).2
        (matchTok rule t ⟨i, i + needle.length, r⟩).2 := by
    intro rule hr i hi
    subst hr
    simp only [litTok, matchTok, Tok.proj, hi]
    exact ⟨trivial, .at _ _ _⟩
  cases h with
  | stop => simp [parseNext]
  | pend i hi =>
    simp only [parseNext, literalAsRegex]
    exact hm _ rfl i hi
  | «at» p b b' =>
    cases d with
    | skip =>
      simp only [parseNext, literalAsRegex]
      cases hf : findSub needle t p with
      | none => simp
      | some i =>
        obtain ⟨h1, h2, h3⟩ := findSub_some hne hf
        simp only [Option.map_some]
        exact hm _ rfl i h2
    | action f =>
      simp only [parseNext, literalAsRegex]
      cases hf : findSub needle t p with
      | none => simp only [Option.map_none]; exact htail p
      | some i =>
        obtain ⟨h1, h2, h3⟩ := findSub_some hne hf
        simp only [Option.map_some]
        by_cases hlt : i > p
        · rw [if_pos hlt, if_pos hlt]
          exact ⟨rfl, .pend i h2⟩
        · rw [if_neg hlt, if_neg hlt]
          exact hm _ rfl i h2
    | target tg =>
      simp only [parseNext, literalAsRegex]
      by_cases he : slice t p (p + needle.length) = needle
      · rw [if_pos he, if_pos he]
        exact hm _ rfl p he
      · rw [if_neg he, if_neg he]
        exact htail p

theorem literal_take (noAct : A) (needle : List α) (hne : needle ≠ []) (act : A) (tgt : Option (Target L))
    (d : Dflt α L A) (r : ρ) (t : List α) : ∀ (n : Nat) (ps ps' : PS ρ), LitSim t needle r ps ps' →
    (parseTake noAct (.literal needle act tgt d) t n ps).map Tok.proj =
    (parseTake noAct (literalAsRegex needle act tgt d r) t n ps').map Tok.proj := by
  intro n
  induction n with
  | zero => intro _ _ _; rfl
  | succ n ih =>
    intro ps ps' h
    have := literal_step noAct needle hne act tgt d r t ps ps' h
    simp only [parseTake]
    cases h1 : parseNext noAct (.literal needle act tgt d) t ps with
    | none =>
      cases h2 : parseNext noAct (literalAsRegex needle act tgt d r) t ps' with
      | none => rfl
      | some y => rw [h1, h2] at this; exact this.elim
    | some x =>
      cases h2 : parseNext noAct (literalAsRegex needle act tgt d r) t ps' with
      | none => rw [h1, h2] at this; exact this.elim
      | some y =>
        rw [h1, h2] at this
        simp only [List.map_cons]
        rw [this.1, ih _ _ this.2]

/-! ### Resuming -/

theorem lexRun_add (lang : Lang α L A ρ) (t : List α) : ∀ (n k : Nat) (s s' : LState L ρ),
    (lexRun lang t n s).2 = some s' →
    lexRun lang t (n + k) s = ((lexRun lang t n s).1 ++ (lexRun lang t k s').1, (lexRun lang t k s').2) := by
  intro n
  induction n with
  | zero => intro k s s' h; simp only [lexRun, Option.some.injEq] at h; subst h; simp [lexRun]
  | succ n ih =>
    intro k s s' h
    rw [show n + 1 + k = (n + k) + 1 by omega]
    simp only [lexRun] at h ⊢
    cases hs : lexStep lang t s with
    | none => rw [hs] at h; simp at h
    | some r =>
      rw [hs] at h
      simp only at h ⊢
      rw [ih k r.1 s' h]
      simp

end Parce

import Verif.Spec.Rebuild
import Verif.Lemmas.Resume
/-!
# Restarting the lexer: at a token, in a text changed further on, in a moved text
-/
set_option linter.unusedSectionVars false
namespace Parce.RB
variable {α L A ρ : Type} [DecidableEq α]

/-! ### Runs to the end -/

/-- The lexer finishes within `n` steps with these events. -/
def Ends (lang : Lang α L A ρ) (t : List α) (n : Nat) (s : LState L ρ) (E : List (Event α L A)) : Prop :=
  lexRun lang t n s = (E, none)

theorem Ends.succ {lang : Lang α L A ρ} {t : List α} : ∀ {n : Nat} {s : LState L ρ} {E : List (Event α L A)},
    Ends lang t n s E → Ends lang t (n + 1) s E := by
  intro n
  induction n with
  | zero => intro s E h; simp [Ends, lexRun] at h
  | succ n ih =>
    intro s E h
    unfold Ends at h ih ⊢
    rw [lexRun] at h ⊢
    cases hs : lexStep lang t s with
    | none => rw [hs] at h; simp only at h ⊢; exact h
    | some r =>
      obtain ⟨s1, ev⟩ := r
      rw [hs] at h
      simp only [Prod.mk.injEq] at h ⊢
      have h1 : lexRun lang t n s1 = ((lexRun lang t n s1).1, none) := by
        rw [← h.2]
      rw [ih h1]
      exact ⟨h.1, rfl⟩

theorem Ends.mono {lang : Lang α L A ρ} {t : List α} {n m : Nat} {s : LState L ρ} {E : List (Event α L A)}
    (h : Ends lang t n s E) (hm : n ≤ m) : Ends lang t m s E := by
  induction hm with
  | refl => exact h
  | step _ ih => exact ih.succ

theorem Ends.unique {lang : Lang α L A ρ} {t : List α} {n m : Nat} {s : LState L ρ} {E E' : List (Event α L A)}
    (h : Ends lang t n s E) (h' : Ends lang t m s E') : E = E' := by
  have h1 := h.mono (Nat.le_max_left n m)
  have h2 := h'.mono (Nat.le_max_right n m)
  unfold Ends at h1 h2
  rw [h1] at h2
  simpa using h2

theorem Ends.step {lang : Lang α L A ρ} {t : List α} {n : Nat} {s s' : LState L ρ} {E ev : List (Event α L A)}
    (h : lexStep lang t s = some (s', ev)) (h' : Ends lang t n s' E) : Ends lang t (n + 1) s (ev ++ E) := by
  unfold Ends at h' ⊢
  simp only [lexRun, h, h']

theorem lexAll_fst (lang : Lang α L A ρ) (t : List α) : ∀ (n : Nat) (s : LState L ρ),
    (lexAll lang t n s).1 = (lexRun lang t n s).1 := by
  intro n
  induction n with
  | zero => intro s; rfl
  | succ n ih =>
    intro s
    rw [lexAll, lexRun]
    cases hs : lexStep lang t s with
    | none => rfl
    | some r => simp only [ih]

theorem Ends.all {lang : Lang α L A ρ} {t : List α} {n N : Nat} {s : LState L ρ} {E : List (Event α L A)}
    (h : Ends lang t n s E) (hN : n ≤ N) : (lexAll lang t N s).1 = E := by
  rw [lexAll_fst, h.mono hN]

/-- A step yields at most one event. -/
theorem lexStep_one {lang : Lang α L A ρ} {t : List α} {s s' : LState L ρ} {ev : List (Event α L A)}
    (h : lexStep lang t s = some (s', ev)) : ev = [] ∨ ∃ e, ev = [e] := by
  have hem : ∀ (f : Factory L) (tok : Tok α L A ρ), (emit lang f tok).2 = [] ∨ ∃ e, (emit lang f tok).2 = [e] := by
    intro f tok
    rcases emit_cases lang f tok with ⟨_, h⟩ | ⟨_, h⟩
    · rw [h]; exact Or.inl rfl
    · rw [h]; exact Or.inr ⟨_, rfl⟩
  obtain ⟨top, rest, tok, ps', hs, hp, hc⟩ := lexStep_cases h
  rcases hc with ⟨_, _, rfl, rfl⟩ | ⟨_, _, rfl, rfl⟩ | ⟨tg0, tg, _, _, _, ⟨rfl, rfl⟩ | ⟨rfl, rfl⟩⟩ |
    ⟨tg0, tg, _, _, _, rfl, _⟩
  · exact hem _ _
  · exact Or.inl rfl
  · exact hem _ _
  · exact hem _ _
  · exact Or.inl rfl

/-- The step that yields a given event. -/
theorem ends_split {lang : Lang α L A ρ} {t : List α} : ∀ {n : Nat} {s0 : LState L ρ} {X : List (Event α L A)}
    {e : Event α L A} {Z : List (Event α L A)}, Ends lang t n s0 (X ++ e :: Z) →
    ∃ j s s' k, n = j + 1 + k ∧ lexRun lang t j s0 = (X, some s) ∧ lexStep lang t s = some (s', [e]) ∧
      Ends lang t k s' Z := by
  intro n
  induction n with
  | zero => intro s0 X e Z h; simp [Ends, lexRun] at h
  | succ n ih =>
    intro s0 X e Z h
    unfold Ends at h
    rw [lexRun] at h
    cases hs : lexStep lang t s0 with
    | none => rw [hs] at h; simp at h
    | some r =>
      obtain ⟨s1, ev⟩ := r
      rw [hs] at h
      simp only [Prod.mk.injEq] at h
      have hrest : lexRun lang t n s1 = ((lexRun lang t n s1).1, none) := by rw [← h.2]
      have hgo : ∀ X', Ends lang t n s1 (X' ++ e :: Z) → X = ev ++ X' →
          ∃ j s s' k, n + 1 = j + 1 + k ∧ lexRun lang t j s0 = (X, some s) ∧
            lexStep lang t s = some (s', [e]) ∧ Ends lang t k s' Z := by
        intro X' h1 h2
        obtain ⟨j, s, s', k, hn, hr, hst, he⟩ := ih h1
        refine ⟨j + 1, s, s', k, by omega, ?_, hst, he⟩
        rw [lexRun, hs]
        simp only [hr, h2]
      rcases lexStep_one hs with rfl | ⟨e', rfl⟩
      · refine hgo X ?_ (by simp)
        unfold Ends
        rw [hrest]
        simp only [List.nil_append] at h
        rw [h.1]
      · cases X with
        | nil =>
          simp only [List.singleton_append, List.nil_append, List.cons.injEq] at h
          refine ⟨0, s0, s1, n, by omega, rfl, ?_, ?_⟩
          · rw [hs, h.1.1]
          · unfold Ends; rw [hrest, h.1.2]
        | cons x X =>
          simp only [List.cons_append, List.nil_append, List.cons.injEq] at h
          refine hgo X ?_ (by rw [h.1.1]; rfl)
          unfold Ends; rw [hrest, h.1.2]

/-! ### A fresh generator -/

/-- A fresh generator at `p` does the same as the suspended one, perhaps after a match of the empty
    string that has no effect. -/
def Fresh (noAct : A) (ld : LexDef α L A ρ) (t : List α) (ps : PS ρ) (p : Nat) : Prop :=
  parseNext noAct ld t (.at p false) = parseNext noAct ld t ps ∨
  (ps = .at p true ∧ ∃ tok : Tok α L A ρ, parseNext noAct ld t (.at p false) = some (tok, .at p true) ∧
    tok.text = [] ∧ tok.tgt = none)

theorem slice_ne {t : List α} {a b : Nat} (h : a < b) (h2 : b ≤ t.length) : slice t a b ≠ [] := by
  intro h3
  have := slice_self_length (t := t) (Nat.le_of_lt h) h2
  rw [h3] at this
  simp at this; omega

theorem tail_pos {noAct : A} {d : Dflt α L A} {t : List α} {p : Nat} {tok : Tok α L A ρ} {ps' : PS ρ}
    (h : tailTok noAct d t p = some (tok, ps')) :
    tok.pos = p ∧ ps' = .stop ∧ (tok.text = [] → tok.tgt ≠ none) := by
  unfold tailTok at h
  split at h
  · rename_i hlt
    split at h
    · simp at h
    · simp only [Option.some.injEq, Prod.mk.injEq] at h
      obtain ⟨rfl, rfl⟩ := h
      refine ⟨rfl, rfl, fun h => ?_⟩
      have := congrArg List.length h
      simp at this; omega
    · simp only [Option.some.injEq, Prod.mk.injEq] at h
      obtain ⟨rfl, rfl⟩ := h
      exact ⟨rfl, rfl, by simp⟩
  · simp at h

/-- A generator can be restarted at the token it is about to yield. -/
theorem fresh_tok {noAct : A} {ld : LexDef α L A ρ} {t : List α} {ps ps' : PS ρ} {tok : Tok α L A ρ}
    (hld : LexOK ld) (hps : PSOK t ld ps) (hlm : Leftmost ld) (hf : Fresh noAct ld t ps (ps.floor t))
    (h : parseNext noAct ld t ps = some (tok, ps')) : Fresh noAct ld t ps tok.pos := by
  have hsame : tok.pos = ps.floor t → Fresh noAct ld t ps tok.pos := fun h => by rw [h]; exact hf
  cases ps with
  | stop => simp [parseNext] at h
  | pend m =>
    obtain ⟨h1, h2, s, ma, r, f, rfl, hfm⟩ := hps
    simp only [parseNext, matchTok, Option.some.injEq, Prod.mk.injEq] at h
    apply hsame
    rw [← h.1]; rfl
  | pendLit i =>
    obtain ⟨n, a, tg', f, rfl, h1, h2⟩ := hps
    simp only [parseNext, litTok, Option.some.injEq, Prod.mk.injEq] at h
    apply hsame
    rw [← h.1]; rfl
  | «at» p must =>
    have h0 := h
    simp only [parseNext] at h
    cases ld with
    | empty d => exact hsame (tail_pos h).1
    | literal n a tg' d =>
      cases d with
      | skip =>
        simp only at h
        cases hfs : findSub n t p with
        | none => rw [hfs] at h; simp at h
        | some i =>
          rw [hfs] at h
          simp only [litTok, Option.some.injEq, Prod.mk.injEq] at h
          left
          rw [← h.1]
          simp only [parseNext, hfs, findSub_again hfs]
      | target tg =>
        simp only at h
        split at h
        · simp only [litTok, Option.some.injEq, Prod.mk.injEq] at h
          apply hsame; rw [← h.1]; rfl
        · exact hsame (tail_pos h).1
      | action f =>
        simp only at h
        cases hfs : findSub n t p with
        | none => rw [hfs] at h; exact hsame (tail_pos h).1
        | some i =>
          rw [hfs] at h
          simp only at h
          split at h
          · simp only [Option.some.injEq, Prod.mk.injEq] at h
            apply hsame; rw [← h.1]; rfl
          · rename_i hi
            have := (findSub_some hld hfs).1
            simp only [litTok, Option.some.injEq, Prod.mk.injEq] at h
            apply hsame
            rw [← h.1]
            simp only [PS.floor]; omega
    | regex search matchAt rule d =>
      obtain ⟨hs, hm⟩ := hld
      obtain ⟨hl1, hl2⟩ := hlm
      cases d with
      | skip =>
        simp only at h
        cases hfs : search t p must with
        | none => rw [hfs] at h; simp at h
        | some m =>
          rw [hfs] at h
          simp only [matchTok, Option.some.injEq, Prod.mk.injEq] at h
          obtain ⟨h1, _⟩ := hs t p must m hfs
          by_cases hlt : p < m.start
          · left
            rw [← h.1]
            simp only [parseNext, hfs, hl1 t p must m hfs hlt]
          · apply hsame
            rw [← h.1]
            simp only [PS.floor]; omega
      | action f =>
        simp only at h
        cases hfs : search t p must with
        | none => rw [hfs] at h; exact hsame (tail_pos h).1
        | some m =>
          rw [hfs] at h
          obtain ⟨h1, _⟩ := hs t p must m hfs
          simp only at h
          split at h
          · simp only [Option.some.injEq, Prod.mk.injEq] at h
            apply hsame; rw [← h.1]; rfl
          · simp only [matchTok, Option.some.injEq, Prod.mk.injEq] at h
            apply hsame
            rw [← h.1]
            simp only [PS.floor]; omega
      | target tg =>
        simp only at h
        cases hfs : matchAt t p with
        | none => rw [hfs] at h; exact hsame (tail_pos h).1
        | some m =>
          rw [hfs] at h
          obtain ⟨h1, _⟩ := hm t p m hfs
          simp only [matchTok, Option.some.injEq, Prod.mk.injEq] at h
          apply hsame
          rw [← h.1]
          exact h1

/-- After a tuple without text and target. -/
theorem silent_next {noAct : A} {ld : LexDef α L A ρ} {t : List α} {ps ps' : PS ρ} {tok : Tok α L A ρ}
    (hld : LexOK ld) (hps : PSOK t ld ps)
    (h : parseNext noAct ld t ps = some (tok, ps')) (ht : tok.text = []) (hn : tok.tgt = none) :
    ps' = .at tok.pos true := by
  have hmatch : ∀ (rule : List α → Mtch ρ → A × Option (Target L)) (m : Mtch ρ),
      m.start ≤ m.stop → m.stop ≤ t.length → matchTok rule t m = (tok, ps') → ps' = .at tok.pos true := by
    intro rule m h2 h3 h'
    simp only [matchTok, Prod.mk.injEq] at h'
    obtain ⟨rfl, rfl⟩ := h'
    simp only at ht
    have : m.start = m.stop := by
      by_cases hlt : m.start < m.stop
      · exact absurd ht (slice_ne hlt h3)
      · omega
    simp [this]
  have hlit : ∀ (n : List α) (a : A) (tg : Option (Target L)) (i : Nat), n ≠ [] →
      (litTok n a tg i : Tok α L A ρ × PS ρ) = (tok, ps') → False := by
    intro n a tg i hne h'
    simp only [litTok, Prod.mk.injEq] at h'
    rw [← h'.1] at ht
    exact hne ht
  have htail : ∀ (d : Dflt α L A) (p : Nat), tailTok (ρ := ρ) noAct d t p = some (tok, ps') → False :=
    fun d p h' => (tail_pos h').2.2 ht hn
  cases ps with
  | stop => simp [parseNext] at h
  | pend m =>
    obtain ⟨h1, h2, s, ma, r, f, rfl, hfm⟩ := hps
    simp only [parseNext, Option.some.injEq] at h
    exact hmatch r m h1 h2 h
  | pendLit i =>
    obtain ⟨n, a, tg', f, rfl, h1, h2⟩ := hps
    simp only [parseNext, Option.some.injEq] at h
    exact absurd h (fun h => hlit n a tg' i hld h)
  | «at» p must =>
    simp only [parseNext] at h
    cases ld with
    | empty d => exact (htail _ _ h).elim
    | literal n a tg' d =>
      cases d with
      | skip =>
        simp only at h
        cases hfs : findSub n t p with
        | none => rw [hfs] at h; simp at h
        | some i =>
          rw [hfs] at h
          simp only [Option.some.injEq] at h
          exact (hlit _ _ _ _ hld h).elim
      | target tg =>
        simp only at h
        split at h
        · simp only [Option.some.injEq] at h
          exact (hlit _ _ _ _ hld h).elim
        · exact (htail _ _ h).elim
      | action f =>
        simp only at h
        cases hfs : findSub n t p with
        | none => rw [hfs] at h; exact (htail _ _ h).elim
        | some i =>
          rw [hfs] at h
          simp only at h
          split at h
          · rename_i hlt
            obtain ⟨_, _, h5⟩ := findSub_some hld hfs
            simp only [Option.some.injEq, Prod.mk.injEq] at h
            rw [← h.1] at ht
            exact (slice_ne hlt (by omega) ht).elim
          · simp only [Option.some.injEq] at h
            exact (hlit _ _ _ _ hld h).elim
    | regex search matchAt rule d =>
      obtain ⟨hs, hm⟩ := hld
      cases d with
      | skip =>
        simp only at h
        cases hfs : search t p must with
        | none => rw [hfs] at h; simp at h
        | some m =>
          rw [hfs] at h
          simp only [Option.some.injEq] at h
          obtain ⟨h1, h2, h3, _⟩ := hs t p must m hfs
          exact hmatch rule m h2 h3 h
      | action f =>
        simp only at h
        cases hfs : search t p must with
        | none => rw [hfs] at h; exact (htail _ _ h).elim
        | some m =>
          rw [hfs] at h
          obtain ⟨h1, h2, h3, _⟩ := hs t p must m hfs
          simp only at h
          split at h
          · rename_i hlt
            simp only [Option.some.injEq, Prod.mk.injEq] at h
            rw [← h.1] at ht
            exact (slice_ne hlt (by omega) ht).elim
          · simp only [Option.some.injEq] at h
            exact hmatch rule m h2 h3 h
      | target tg =>
        simp only at h
        cases hfs : matchAt t p with
        | none => rw [hfs] at h; exact (htail _ _ h).elim
        | some m =>
          rw [hfs] at h
          obtain ⟨h1, h2, h3⟩ := hm t p m hfs
          simp only [Option.some.injEq] at h
          exact hmatch rule m (by omega) h3 h

theorem fresh_next {noAct : A} {ld : LexDef α L A ρ} {t : List α} {ps ps' : PS ρ} {tok : Tok α L A ρ}
    (hld : LexOK ld) (hps : PSOK t ld ps) (hlm : Leftmost ld) (hf : Fresh noAct ld t ps (ps.floor t))
    (h : parseNext noAct ld t ps = some (tok, ps')) (hn : tok.tgt = none) :
    Fresh noAct ld t ps' (ps'.floor t) := by
  by_cases ht : tok.text = []
  · have h1 := silent_next hld hps h ht hn
    have h2 := fresh_tok hld hps hlm hf h
    subst h1
    show Fresh noAct ld t _ tok.pos
    rcases h2 with h2 | ⟨h2, tok0, h3, h4, h5⟩
    · exact Or.inr ⟨rfl, tok, by rw [h2, h], ht, hn⟩
    · exact Or.inr ⟨rfl, tok0, h3, h4, h5⟩
  · exact Or.inl (parseNext_fresh hld hps hlm h ht).symm

/-- What holds for every state of a lexer. -/
structure Inv (lang : Lang α L A ρ) (t : List α) (s : LState L ρ) : Prop where
  ok : StOK lang t s
  circ : CircOK t s
  ne : s.stack ≠ []
  fresh : ∀ top rest, s.stack = top :: rest → Fresh lang.noAct (lang.ld top) t s.ps (s.ps.floor t)

theorem Inv.start {lang : Lang α L A ρ} {t : List α} {stack : List L} {p : Nat} (hs : stack ≠ [])
    (hp : p ≤ t.length) : Inv lang t (LState.start stack p) :=
  ⟨start_ok lang t stack hp, by simp [CircOK, LState.start], hs, fun _ _ _ => Or.inl rfl⟩

theorem Inv.step {lang : Lang α L A ρ} {t : List α} {s s' : LState L ρ} {ev : List (Event α L A)}
    (hl : ∀ l, LexOK (lang.ld l)) (hlm : ∀ l, Leftmost (lang.ld l)) (hi : Inv lang t s)
    (h : lexStep lang t s = some (s', ev)) : Inv lang t s' := by
  refine ⟨(lexStep_pos hl hi.ok h).1, (lexStep_circ hl hi.ok hi.circ h).1, lexStep_ne_nil h, ?_⟩
  obtain ⟨top, rest, tok, ps', hs, hp, hc⟩ := lexStep_cases h
  have hfr := hi.fresh top rest hs
  have hk := hi.ok top rest hs
  intro top' rest' hs'
  rcases hc with ⟨h4, h5, rfl, rfl⟩ | ⟨h4, h5, rfl, rfl⟩ | ⟨tg0, tg, h4, _, h5, ⟨rfl, rfl⟩ | ⟨rfl, rfl⟩⟩ |
    ⟨tg0, tg, h4, h6, h5, rfl, ⟨_, rfl⟩ | ⟨_, rfl⟩⟩
  · simp only at hs'
    rw [hs] at hs'; cases hs'
    exact fresh_next (hl _) hk (hlm _) hfr hp h4
  · simp only at hs'
    rw [hs] at hs'; cases hs'
    exact fresh_next (hl _) hk (hlm _) hfr hp h4
  all_goals exact Or.inl rfl

theorem Inv.run {lang : Lang α L A ρ} {t : List α} (hl : ∀ l, LexOK (lang.ld l))
    (hlm : ∀ l, Leftmost (lang.ld l)) : ∀ (n : Nat) (s s' : LState L ρ) (E : List (Event α L A)),
    Inv lang t s → lexRun lang t n s = (E, some s') → Inv lang t s' := by
  intro n
  induction n with
  | zero => intro s s' E hi h; simp only [lexRun, Prod.mk.injEq, Option.some.injEq] at h; rw [← h.2]; exact hi
  | succ n ih =>
    intro s s' E hi h
    rw [lexRun] at h
    cases hs : lexStep lang t s with
    | none => rw [hs] at h; simp at h
    | some r =>
      obtain ⟨s1, ev⟩ := r
      rw [hs] at h
      simp only [Prod.mk.injEq] at h
      exact ih s1 s' _ (hi.step hl hlm hs) (by rw [← h.2])

/-! ### Restarting at a token -/

/-- The step that yields an event, and the same step of another lexer. Either the event has the
    pending target, or the token's own target is included, which ends with a lexicon that consumes
    the token. -/
theorem event_step {lang : Lang α L A ρ} {t : List α} {s s' : LState L ρ} {e : Event α L A}
    (h : lexStep lang t s = some (s', [e])) :
    ∃ top rest tok ps', s.stack = top :: rest ∧ parseNext lang.noAct (lang.ld top) t s.ps = some (tok, ps') ∧
      tok.text ≠ [] ∧ e.lexemes = lang.expand tok ∧ lang.expand tok ≠ [] ∧
      ∀ s0 : LState L ρ, s0.stack = s.stack →
        parseNext lang.noAct (lang.ld top) t s0.ps = parseNext lang.noAct (lang.ld top) t s.ps →
        ∃ s0' e0, lexStep lang t s0 = some (s0', [e0]) ∧ e0.lexemes = e.lexemes ∧
          s0'.stack = s'.stack ∧ s0'.ps = s'.ps ∧ s0'.fac = s'.fac ∧
          (s0'.circ = s0.circ ∧ s'.circ = s.circ ∨ s0'.circ = [] ∧ s'.circ = []) ∧
          ((e.target = s.fac.get.1 ∧ e0.target = s0.fac.get.1) ∨
           ∃ tg l, e.target = (s.fac.add tg).get.1 ∧ e0.target = (s0.fac.add tg).get.1 ∧
             tg.push.getLast? = some l ∧ lang.consume l = true ∧ tg.pop < s.stack.length) := by
  have hem : ∀ (f : Factory L) (tok : Tok α L A ρ), [e] = (emit lang f tok).2 →
      e = ⟨f.get.1, lang.expand tok⟩ ∧ lang.expand tok ≠ [] := by
    intro f tok h
    rcases emit_cases lang f tok with ⟨_, h1⟩ | ⟨h0, h1⟩
    · rw [h1] at h; simp at h
    · rw [h1] at h; simp only [List.cons.injEq, and_true] at h; exact ⟨h, h0⟩
  have hem2 : ∀ (f : Factory L) (tok : Tok α L A ρ), lang.expand tok ≠ [] →
      emit lang f tok = (Factory.init, [⟨f.get.1, lang.expand tok⟩]) := by
    intro f tok h
    rcases emit_cases lang f tok with ⟨h1, _⟩ | ⟨_, h1⟩
    · exact absurd h1 h
    · exact h1
  unfold lexStep at h
  split at h
  · simp at h
  · rename_i top rest hs
    split at h
    · simp at h
    · rename_i tok ps' hp
      refine ⟨top, rest, tok, ps', hs, hp, ?_⟩
      split at h
      · rename_i htg
        split at h
        · rename_i hte
          simp only [Option.some.injEq, Prod.mk.injEq] at h
          obtain ⟨h1, h2⟩ := hem _ _ h.2.symm
          refine ⟨hte, by rw [h1], h2, fun s0 hs0 hp0 => ?_⟩
          refine ⟨{ s0 with fac := Factory.init, ps := ps' }, ⟨s0.fac.get.1, lang.expand tok⟩, ?_, by rw [h1], ?_, ?_, ?_, ?_, ?_⟩
          · rw [hs] at hs0
            simp [lexStep, hs0, hp0, hp, htg, hte, hem2 _ _ h2]
          · rw [← h.1]; exact hs0
          · rw [← h.1]
          · rw [← h.1, hem2 _ _ h2]
          · rw [← h.1]; exact Or.inl ⟨rfl, rfl⟩
          · rw [h1]; exact Or.inl ⟨rfl, rfl⟩
        · simp at h
      · rename_i tg0 htg
        simp only at h
        split at h
        · rename_i hte
          split at h
          · rename_i hc
            simp only [Option.some.injEq, Prod.mk.injEq] at h
            obtain ⟨h1, h2⟩ := hem _ _ h.2.symm
            refine ⟨hte, by rw [h1], h2, fun s0 hs0 hp0 => ?_⟩
            refine ⟨⟨(clampPop s.stack tg0).apply s.stack, Factory.init, [], .at (tok.pos + tok.text.length) false⟩,
              ⟨(s0.fac.add (clampPop s.stack tg0)).get.1, lang.expand tok⟩, ?_, by rw [h1], ?_, ?_, ?_, ?_, ?_⟩
            · rw [hs] at hs0 hc ⊢
              simp only [lexStep, hs0, hp0, hp, htg, hte, ne_eq, not_false_eq_true, if_true, hc, hem2 _ _ h2]
            · rw [← h.1]
            · rw [← h.1]
            · rw [← h.1, hem2 _ _ h2]
            · rw [← h.1]; exact Or.inr ⟨rfl, rfl⟩
            · rw [h1]
              refine Or.inr ⟨clampPop s.stack tg0, ?_⟩
              cases hl : (clampPop s.stack tg0).push.getLast? with
              | none => rw [hl] at hc; simp at hc
              | some l =>
                rw [hl] at hc
                exact ⟨l, rfl, rfl, rfl, by simpa using hc, clamp_lt _ _ (by simp [hs])⟩
          · rename_i hc
            simp only [Option.some.injEq, Prod.mk.injEq] at h
            obtain ⟨h1, h2⟩ := hem _ _ h.2.symm
            refine ⟨hte, by rw [h1], h2, fun s0 hs0 hp0 => ?_⟩
            refine ⟨⟨(clampPop s.stack tg0).apply s.stack, (Factory.init).add (clampPop s.stack tg0), [],
                .at (tok.pos + tok.text.length) false⟩,
              ⟨s0.fac.get.1, lang.expand tok⟩, ?_, by rw [h1], ?_, ?_, ?_, ?_, ?_⟩
            · rw [hs] at hs0 hc ⊢
              simp only [lexStep, hs0, hp0, hp, htg, hte, ne_eq, not_false_eq_true, if_true, hc, hem2 _ _ h2,
                if_false, Bool.false_eq_true]
            · rw [← h.1]
            · rw [← h.1]
            · rw [← h.1, hem2 _ _ h2]
            · rw [← h.1]; exact Or.inr ⟨rfl, rfl⟩
            · rw [h1]; exact Or.inl ⟨rfl, rfl⟩
        · split at h <;> simp at h

/-- An event that does not enter a lexicon that consumes the token. -/
def Plainly (lang : Lang α L A ρ) (e : Event α L A) : Prop :=
  ∀ tg l, e.target = some tg → tg.push.getLast? = some l → lang.consume l = false

theorem Plainly.not {lang : Lang α L A ρ} {e : Event α L A} (h : Plainly lang e) {f : Factory L} {tg : Target L}
    {l : L} (h1 : e.target = (f.add tg).get.1) (h2 : tg.push.getLast? = some l) : lang.consume l = false := by
  have hl : (f.add tg).fpush.getLast? = some l := by
    rw [add_eq]
    simp [List.getLast?_append, h2]
  have hne : (f.add tg).fpush ≠ [] := by intro h3; rw [h3] at hl; simp at hl
  refine h ⟨(f.add tg).fpop, (f.add tg).fpush⟩ l ?_ hl
  rw [h1]
  unfold Factory.get
  rw [if_pos (Or.inr hne)]

/-- A lexer with these lexicons at `p` yields the lexemes in its first step (or the next one, after
    an empty match without effect), and then the events `Z`. -/
structure Emits (lang : Lang α L A ρ) (t : List α) (stack : List L) (p : Nat) (lxs : List (Lexeme α A)) (k : Nat)
    (Z : List (Event α L A)) : Prop where
  ends : Ends lang t (k + 2) (LState.start stack p) (⟨none, lxs⟩ :: Z)
  step : ∃ b s', lexStep lang t ⟨stack, Factory.init, [], .at p b⟩ = some (s', [⟨none, lxs⟩]) ∧ Inv lang t s' ∧ Ends lang t k s' Z ∧
    CircOK t s' ∧ (∀ st ∈ s'.circ, st.1 < s'.ps.floor t)

/-- A new lexer, with the same lexicons, at the token of an event yields the event again, without
    target, and the same events after it. -/
theorem restart {lang : Lang α L A ρ} {t : List α} {s s' : LState L ρ} {e : Event α L A}
    (hl : ∀ l, LexOK (lang.ld l)) (hlm : ∀ l, Leftmost (lang.ld l)) (hat : ExpandsAtStart lang)
    (hi : Inv lang t s) (h : lexStep lang t s = some (s', [e])) (hpl : Plainly lang e)
    {k : Nat} {Z : List (Event α L A)} (hZ : Ends lang t k s' Z) :
    e.target = s.fac.get.1 ∧
    ∀ lx ls, e.lexemes = lx :: ls → Emits lang t s.stack lx.pos e.lexemes k Z := by
  obtain ⟨top, rest, tok, ps', hs, hp, hte, hlx, hne, hstep⟩ := event_step h
  constructor
  · obtain ⟨s0', e0, _, _, _, _, _, _, hc⟩ := hstep s rfl rfl
    rcases hc with hc | ⟨tg, l, h1, _, h2, h3, _⟩
    · exact hc.1
    · rw [hpl.not h1 h2] at h3; cases h3
  intro lx ls hlx2
  have hpos : lx.pos = tok.pos := hat t top s.ps ps' tok lx ls (hi.ok top rest hs) hp hte (by rw [← hlx, hlx2])
  have hcirc := (lexStep_circ hl hi.ok hi.circ h).2 (by simp)
  have hinv' := hi.step hl hlm h
  have htl : tok.pos ≤ t.length := by
    have := (parseNext_ok (hl top) (hi.ok top rest hs) hp).1.le
    omega
  -- from any state that does the same step
  have hgo : ∀ s0 : LState L ρ, s0.stack = s.stack → s0.fac = Factory.init → s0.circ = [] →
      parseNext lang.noAct (lang.ld top) t s0.ps = parseNext lang.noAct (lang.ld top) t s.ps →
      ∃ s0', lexStep lang t s0 = some (s0', [⟨none, e.lexemes⟩]) ∧ Ends lang t k s0' Z ∧ Sim t s' s0' := by
    intro s0 h1 h2 h3 h4
    obtain ⟨s0', e0, h5, h6, h7, h8, h9, h10, h11⟩ := hstep s0 h1 h4
    have he0 : e0 = ⟨none, e.lexemes⟩ := by
      rcases h11 with h11 | ⟨tg, l, h11, _, h12, h13, _⟩
      · have : e0.target = none := by rw [h11.2, h2]; rfl
        rw [← h6, ← this]
      · rw [hpl.not h11 h12] at h13; cases h13
    rw [he0] at h5
    have hsim : Sim t s' s0' := by
      refine ⟨h7.symm, h8.symm, fun st hst => ?_⟩
      rcases h10 with ⟨h10, h10'⟩ | ⟨h10, h10'⟩
      · rw [h10, h3]
        constructor
        · intro hm
          have := hcirc st hm
          omega
        · intro hm; simp at hm
      · rw [h10, h10']
    refine ⟨s0', h5, ?_, hsim⟩
    obtain ⟨h12, h13⟩ := lexRun_sim lang t hl k s' s0' hinv'.ok hsim h9.symm
    unfold Ends at hZ ⊢
    rw [hZ] at h12 h13
    have : (lexRun lang t k s0').2 = none := by simpa using h13.symm
    simp only at h12
    rw [← this, h12]
  have hfresh : ∀ (b : Bool), (Inv lang t (⟨s.stack, Factory.init, [], .at tok.pos b⟩ : LState L ρ)) →
      ∀ s0', lexStep lang t ⟨s.stack, Factory.init, [], .at tok.pos b⟩ = some (s0', [⟨none, e.lexemes⟩]) → Ends lang t k s0' Z →
      Inv lang t s0' ∧ Ends lang t k s0' Z ∧ CircOK t s0' ∧ (∀ st ∈ s0'.circ, st.1 < s0'.ps.floor t) := by
    intro b hinv s0' h1 h2
    have h3 := hinv.step hl hlm h1
    have h4 := lexStep_circ hl hinv.ok hinv.circ h1
    exact ⟨h3, h2, h4.1, h4.2 (by simp)⟩
  rw [hpos]
  have hinv0 : Inv lang t (LState.start s.stack tok.pos) := Inv.start hi.ne htl
  rcases fresh_tok (hl top) (hi.ok top rest hs) (hlm top) (hi.fresh top rest hs) hp with hf | ⟨hf, tok0, hf1, hf2, hf3⟩
  · obtain ⟨s0', h1, h2, _⟩ := hgo (LState.start s.stack tok.pos) rfl rfl rfl hf
    exact ⟨(Ends.step (ev := [_]) h1 h2).succ, false, s0', h1, hfresh false hinv0 s0' h1 h2⟩
  · have hst : lexStep lang t (LState.start s.stack tok.pos) =
        some (⟨s.stack, Factory.init, [], .at tok.pos true⟩, []) := by
      have hf1' : parseNext lang.noAct (lang.ld top) t (LState.start (ρ := ρ) s.stack tok.pos).ps =
          some (tok0, .at tok.pos true) := hf1
      have hs2 : (LState.start (ρ := ρ) s.stack tok.pos).stack = top :: rest := hs
      simp only [lexStep, hs2, hf1', hf2, hf3]
      simp [LState.start, hs]
    obtain ⟨s0', h1, h2, _⟩ := hgo ⟨s.stack, Factory.init, [], .at tok.pos true⟩ rfl rfl rfl (by rw [hf])
    exact ⟨Ends.step (ev := []) hst (Ends.step (ev := [_]) h1 h2), true, s0', h1, hfresh true (hinv0.step hl hlm hst) s0' h1 h2⟩

/-! ### A text that is changed further on -/

/-- The end of what the generator has already looked for. -/
def reachPS (ld : LexDef α L A ρ) (t : List α) : PS ρ → Nat
  | .pend m => m.stop
  | .pendLit i =>
    match ld with
    | .literal needle _ _ _ => i + needle.length
    | _ => i
  | ps => ps.floor t

def reach (lang : Lang α L A ρ) (t : List α) (s : LState L ρ) : Nat :=
  match s.stack with
  | top :: _ => reachPS (lang.ld top) t s.ps
  | [] => s.ps.floor t

theorem slice_take {t t' : List α} {q a b : Nat} (h : t.take q = t'.take q) (hb : b ≤ q) :
    slice t a b = slice t' a b := by
  unfold slice
  have : ∀ u : List α, u.take b = (u.take q).take b := by
    intro u; rw [List.take_take, Nat.min_eq_left hb]
  rw [this t, this t', h]

theorem findSub_same {needle t t' : List α} {q p i : Nat} (hne : needle ≠ []) (h : t.take q = t'.take q)
    (hq : q ≤ t'.length) (hf : findSub needle t p = some i) (hi : i + needle.length ≤ q) :
    findSub needle t' p = some i := by
  unfold findSub at hf ⊢
  rw [List.find?_range_eq_some] at hf ⊢
  obtain ⟨h1, h2, h3⟩ := hf
  refine ⟨?_, ?_, fun j hj => ?_⟩
  · simp only [Bool.and_eq_true, decide_eq_true_eq, beq_iff_eq] at h1 ⊢
    exact ⟨h1.1, by rw [← slice_take h hi]; exact h1.2⟩
  · simp only [List.mem_range]; omega
  · have := h3 j hj
    rw [slice_take h (by omega)] at this
    exact this

theorem floor_le_reachPS {ld : LexDef α L A ρ} {t : List α} {ps : PS ρ} (h : PSOK t ld ps) :
    ps.floor t ≤ reachPS ld t ps := by
  cases ps with
  | «at» p b => exact Nat.le_refl _
  | pend m => exact h.1
  | pendLit i =>
    obtain ⟨n, a, tg', f, rfl, h1, h2⟩ := h
    simp only [PS.floor, reachPS]; omega
  | stop => exact Nat.le_refl _

theorem parse_local {noAct : A} {ld : LexDef α L A ρ} {t t' : List α} {q k : Nat} {ps ps' : PS ρ}
    {tok : Tok α L A ρ} (hld : LexOK ld) (ha : Ahead k ld) (hk : 1 ≤ k) (hps : PSOK t ld ps)
    (htq : t.take q = t'.take q) (hq : q ≤ t.length) (hq' : q ≤ t'.length)
    (h : parseNext noAct ld t ps = some (tok, ps'))
    (hend : tok.pos + tok.text.length + k ≤ q) (hre : tok.tgt = none → reachPS ld t ps' + k ≤ q) :
    parseNext noAct ld t' ps = some (tok, ps') := by
  have hmatch : ∀ (rule : List α → Mtch ρ → A × Option (Target L)) (m : Mtch ρ),
      m.start ≤ m.stop → m.stop ≤ t.length → matchTok rule t m = (tok, ps') → m.stop + k ≤ q := by
    intro rule m h2 h3 h'
    simp only [matchTok, Prod.mk.injEq] at h'
    rw [← h'.1] at hend
    simp only [slice_self_length h2 h3] at hend
    omega
  have hmatch2 : ∀ (rule : List α → Mtch ρ → A × Option (Target L)) (m : Mtch ρ),
      (m.stop + k ≤ q → rule t' m = rule t m) →
      m.start ≤ m.stop → m.stop ≤ t.length → matchTok rule t m = (tok, ps') → matchTok rule t' m = (tok, ps') := by
    intro rule m hr h2 h3 h'
    have h4 := hmatch rule m h2 h3 h'
    rw [← h']
    simp only [matchTok, hr h4, ← slice_take htq (show m.stop ≤ q by omega)]
  have htail : ∀ (d : Dflt α L A) (p : Nat), tailTok (ρ := ρ) noAct d t p = some (tok, ps') →
      p + k ≤ q ∧ tailTok (ρ := ρ) noAct d t' p = some (tok, ps') := by
    intro d p h'
    unfold tailTok at h' ⊢
    split at h'
    · rename_i hlt
      split at h'
      · simp at h'
      · simp only [Option.some.injEq, Prod.mk.injEq] at h'
        obtain ⟨rfl, rfl⟩ := h'
        have := hre rfl
        simp only [reachPS, PS.floor] at this
        omega
      · simp only [Option.some.injEq, Prod.mk.injEq] at h'
        obtain ⟨rfl, rfl⟩ := h'
        simp only [List.length_nil] at hend
        exact ⟨by omega, by rw [if_pos (by omega)]⟩
    · simp at h'
  cases ps with
  | stop => simp [parseNext] at h
  | pend m =>
    obtain ⟨h1, h2, s, ma, r, f, rfl, hfm⟩ := hps
    simp only [parseNext, Option.some.injEq] at h ⊢
    exact hmatch2 r m ((ha t t' q htq hq hq').2.2.2 m) h1 h2 h
  | pendLit i =>
    obtain ⟨n, a, tg', f, rfl, h1, h2⟩ := hps
    simp only [parseNext] at h ⊢
    exact h
  | «at» p must =>
    simp only [parseNext] at h ⊢
    cases ld with
    | empty d => exact (htail _ _ h).2
    | literal n a tg' d =>
      have hne : n ≠ [] := hld
      cases d with
      | skip =>
        simp only at h ⊢
        cases hfs : findSub n t p with
        | none => rw [hfs] at h; simp at h
        | some i =>
          rw [hfs] at h
          simp only [litTok, Option.some.injEq, Prod.mk.injEq] at h ⊢
          rw [← h.1] at hend
          rw [findSub_same hne htq hq' hfs (by simp only at hend; omega)]
          simp only [h.1, h.2]
      | target tg =>
        simp only at h ⊢
        split at h
        · rename_i hsl
          simp only [litTok, Option.some.injEq, Prod.mk.injEq] at h
          rw [← h.1] at hend
          rw [slice_take htq (by simp only at hend; omega)] at hsl
          rw [if_pos hsl]
          simp only [litTok, h.1, h.2]
        · rename_i hsl
          obtain ⟨h1, h2⟩ := htail _ _ h
          have ha' : n.length ≤ k := ha
          rw [slice_take htq (by omega)] at hsl
          rw [if_neg hsl, h2]
      | action f =>
        simp only at h ⊢
        cases hfs : findSub n t p with
        | none =>
          rw [hfs] at h
          simp only at h
          exfalso
          unfold tailTok at h
          split at h
          · simp only [Option.some.injEq, Prod.mk.injEq] at h
            obtain ⟨rfl, rfl⟩ := h
            have := hre rfl
            simp only [reachPS, PS.floor] at this
            omega
          · simp at h
        | some i =>
          rw [hfs] at h
          simp only at h
          split at h
          · rename_i hlt
            simp only [Option.some.injEq, Prod.mk.injEq] at h
            obtain ⟨rfl, rfl⟩ := h
            have := hre rfl
            simp only [reachPS] at this
            rw [findSub_same hne htq hq' hfs (by omega)]
            simp only [if_pos hlt, ← slice_take htq (show i ≤ q by omega)]
          · rename_i hlt
            simp only [litTok, Option.some.injEq, Prod.mk.injEq] at h
            rw [← h.1] at hend
            rw [findSub_same hne htq hq' hfs (by simp only at hend; omega)]
            simp only [if_neg hlt, litTok, h.1, h.2]
    | regex search matchAt rule d =>
      obtain ⟨hs, hm⟩ := hld
      obtain ⟨ha1, ha2, ha3, ha4⟩ := ha t t' q htq hq hq'
      cases d with
      | skip =>
        simp only at h ⊢
        cases hfs : search t p must with
        | none => rw [hfs] at h; simp at h
        | some m =>
          rw [hfs] at h
          simp only [Option.some.injEq] at h ⊢
          obtain ⟨h1, h2, h3, _⟩ := hs t p must m hfs
          rw [ha1 p must m hfs (hmatch rule m h2 h3 h)]
          simp only [hmatch2 rule m (ha4 m) h2 h3 h]
      | action f =>
        simp only at h ⊢
        cases hfs : search t p must with
        | none =>
          rw [hfs] at h
          simp only at h
          exfalso
          unfold tailTok at h
          split at h
          · simp only [Option.some.injEq, Prod.mk.injEq] at h
            obtain ⟨rfl, rfl⟩ := h
            have := hre rfl
            simp only [reachPS, PS.floor] at this
            omega
          · simp at h
        | some m =>
          rw [hfs] at h
          obtain ⟨h1, h2, h3, _⟩ := hs t p must m hfs
          simp only at h
          split at h
          · rename_i hlt
            simp only [Option.some.injEq, Prod.mk.injEq] at h
            obtain ⟨rfl, rfl⟩ := h
            have := hre rfl
            simp only [reachPS] at this
            rw [ha1 p must m hfs this]
            simp only [if_pos hlt, ← slice_take htq (show m.start ≤ q by omega)]
          · rename_i hlt
            simp only [Option.some.injEq] at h
            rw [ha1 p must m hfs (hmatch rule m h2 h3 h)]
            simp only [if_neg hlt, hmatch2 rule m (ha4 m) h2 h3 h]
      | target tg =>
        simp only at h ⊢
        cases hfs : matchAt t p with
        | none =>
          rw [hfs] at h
          obtain ⟨h1, h2⟩ := htail _ _ h
          rw [ha3 p hfs h1]
          exact h2
        | some m =>
          rw [hfs] at h
          obtain ⟨h1, h2, h3⟩ := hm t p m hfs
          simp only [Option.some.injEq] at h
          rw [ha2 p m hfs (hmatch rule m (by omega) h3 h)]
          simp only [hmatch2 rule m (ha4 m) (by omega) h3 h]

theorem reach_le_floor {lang : Lang α L A ρ} {t : List α} {s s' : LState L ρ} {ev : List (Event α L A)}
    (hl : ∀ l, LexOK (lang.ld l)) (hok : StOK lang t s) (h : lexStep lang t s = some (s', ev)) :
    reach lang t s ≤ s'.ps.floor t := by
  obtain ⟨hok', top, rest, tok, ps', hs, hp, htok, hlx, hfl, _⟩ := lexStep_pos hl hok h
  refine Nat.le_trans ?_ hfl
  have hps := hok top rest hs
  have hge := htok.ge
  simp only [reach, hs]
  cases hq : s.ps with
  | «at» p b => rw [hq] at hge; simp only [PS.floor] at hge; simp only [reachPS, PS.floor]; omega
  | pend m =>
    rw [hq] at hps hp
    obtain ⟨h1, h2, s1, ma, r, f, hld, hfm⟩ := hps
    rw [hld] at hp
    simp only [parseNext, matchTok, Option.some.injEq, Prod.mk.injEq] at hp
    rw [← hp.1]
    simp only [reachPS, slice_self_length h1 h2]; omega
  | pendLit i =>
    rw [hq] at hps hp
    obtain ⟨n, a, tg', f, hld, h1, h2⟩ := hps
    rw [hld] at hp
    simp only [parseNext, litTok, Option.some.injEq, Prod.mk.injEq] at hp
    rw [← hp.1]
    simp only [reachPS, hld]; omega
  | stop => rw [hq] at hp; simp [parseNext] at hp

theorem floor_le_reach {lang : Lang α L A ρ} {t : List α} {s : LState L ρ} (hok : StOK lang t s) :
    s.ps.floor t ≤ reach lang t s := by
  unfold reach
  cases hs : s.stack with
  | nil => exact Nat.le_refl _
  | cons top rest => exact floor_le_reachPS (hok top rest hs)

/-- A step is the same in a text that is the same up to `k` characters further on. -/
theorem step_local {lang : Lang α L A ρ} {t t' : List α} {q k : Nat} {s s' : LState L ρ}
    {ev : List (Event α L A)} (hl : ∀ l, LexOK (lang.ld l)) (ha : ∀ l, Ahead k (lang.ld l)) (hk : 1 ≤ k)
    (htq : t.take q = t'.take q) (hq : q ≤ t.length) (hq' : q ≤ t'.length) (hok : StOK lang t s)
    (h : lexStep lang t s = some (s', ev)) (hr : reach lang t s' + k ≤ q) :
    lexStep lang t' s = some (s', ev) := by
  obtain ⟨hok', top, rest, tok, ps', hs, hp, htok, hlx, hfl, hc⟩ := lexStep_pos hl hok h
  have hfr := floor_le_reach hok'
  have hp' : parseNext lang.noAct (lang.ld top) t' s.ps = some (tok, ps') := by
    refine parse_local (hl top) (ha top) hk (hok top rest hs) htq hq hq' hp (by omega) ?_
    intro hn
    rcases hc with ⟨h1, h2, _⟩ | ⟨_, _, _, h1⟩ | ⟨_, _, h1⟩ | ⟨_, _, tg, h1, _⟩
    · simp only [reach, h2, hs, h1] at hr; exact hr
    · exact absurd hn h1
    · exact absurd hn h1
    · rw [h1] at hn; cases hn
  have h1 : tok.pos < t.length := by omega
  have h2 : tok.pos < t'.length := by omega
  simp only [lexStep, hs, hp, h1, and_true] at h
  simp only [lexStep, hs, hp', h2, and_true]
  exact h

theorem run_local {lang : Lang α L A ρ} {t t' : List α} {q k : Nat} (hl : ∀ l, LexOK (lang.ld l))
    (ha : ∀ l, Ahead k (lang.ld l)) (hk : 1 ≤ k) (htq : t.take q = t'.take q) (hq : q ≤ t.length)
    (hq' : q ≤ t'.length) : ∀ (n : Nat) (s s' : LState L ρ) (E : List (Event α L A)), StOK lang t s →
    lexRun lang t n s = (E, some s') → reach lang t s' + k ≤ q →
    lexRun lang t' n s = (E, some s') ∧ reach lang t s ≤ reach lang t s' := by
  intro n
  induction n with
  | zero => intro s s' E _ h _; simp only [lexRun, Prod.mk.injEq, Option.some.injEq] at h ⊢; exact ⟨h, by rw [h.2]; omega⟩
  | succ n ih =>
    intro s s' E hok h hr
    rw [lexRun] at h ⊢
    cases hs : lexStep lang t s with
    | none => rw [hs] at h; simp at h
    | some r =>
      obtain ⟨s1, ev⟩ := r
      rw [hs] at h
      simp only [Prod.mk.injEq] at h
      have hok1 := (lexStep_pos hl hok hs).1
      obtain ⟨h1, h2⟩ := ih s1 s' (lexRun lang t n s1).1 hok1 (by rw [← h.2]) hr
      have h3 := reach_le_floor hl hok hs
      have h4 := floor_le_reach hok1
      rw [step_local hl ha hk htq hq hq' hok hs (by omega)]
      simp only [h1]
      exact ⟨by rw [h.1], by omega⟩

/-! ### A text of which the beginning is different -/

def PS.move (a : Nat) : PS ρ → PS ρ
  | .at p b => .at (p + a) b
  | .pend m => .pend (Mtch.move a m)
  | .pendLit i => .pendLit (i + a)
  | .stop => .stop

def LState.move (a : Nat) (s : LState L ρ) : LState L ρ :=
  ⟨s.stack, s.fac, s.circ.map (fun c => (c.1 + a, c.2)), PS.move a s.ps⟩

def Event.move (a : Nat) (e : Event α L A) : Event α L A := ⟨e.target, e.lexemes.map (Lexeme.move a)⟩

theorem slice_move {t : List α} {a x y : Nat} : slice t (x + a) (y + a) = slice (t.drop a) x y := by
  unfold slice
  rw [List.take_drop, List.drop_drop, Nat.add_comm a y, Nat.add_comm x a]

theorem findSub_move {needle t : List α} {a p : Nat} (hne : needle ≠ []) (ha : a ≤ t.length) :
    findSub needle t (p + a) = (findSub needle (t.drop a) p).map (· + a) := by
  cases h : findSub needle (t.drop a) p with
  | some i =>
    unfold findSub at h ⊢
    rw [List.find?_range_eq_some] at h
    simp only [Option.map_some]
    rw [List.find?_range_eq_some]
    obtain ⟨h1, h2, h3⟩ := h
    simp only [List.length_drop, List.mem_range] at h2
    refine ⟨?_, by simp only [List.mem_range]; omega, fun j hj => ?_⟩
    · simp only [Bool.and_eq_true, decide_eq_true_eq, beq_iff_eq] at h1 ⊢
      refine ⟨by omega, ?_⟩
      rw [show i + a + needle.length = i + needle.length + a by omega, slice_move]
      exact h1.2
    · by_cases hj2 : j < p + a
      · simp [show ¬ (p + a ≤ j) by omega]
      · have := h3 (j - a) (by omega)
        have hs : slice t j (j + needle.length) = slice (t.drop a) (j - a) (j - a + needle.length) := by
          rw [← slice_move (a := a)]
          congr 1 <;> omega
        rw [hs]
        simp only [show decide (p ≤ j - a) = true by simp; omega, Bool.true_and] at this
        simp only [show decide (p + a ≤ j) = true by simp; omega, Bool.true_and]
        exact this
  | none =>
    simp only [Option.map_none]
    unfold findSub at h ⊢
    rw [List.find?_eq_none] at h ⊢
    intro j hj hj2
    simp only [Bool.and_eq_true, decide_eq_true_eq, beq_iff_eq] at hj2
    obtain ⟨h4, h5⟩ := hj2
    have hs : slice t j (j + needle.length) = slice (t.drop a) (j - a) (j - a + needle.length) := by
      rw [← slice_move (a := a)]
      congr 1 <;> omega
    rw [hs] at h5
    simp only [List.mem_range] at hj
    refine h (j - a) ?_ ?_
    · simp only [List.mem_range, List.length_drop]; omega
    · simp only [Bool.and_eq_true, decide_eq_true_eq, beq_iff_eq]
      exact ⟨by omega, h5⟩

theorem moveM_add (a p : Nat) (m : Mtch ρ) : Mtch.move a (Mtch.move p m) = Mtch.move (p + a) m := by
  simp only [Mtch.move, Mtch.mk.injEq, and_true]; omega

theorem NoLookbehind.behind {ld : LexDef α L A ρ} (h : NoLookbehind ld) : Behind 0 ld := by
  cases ld with
  | empty d => trivial
  | literal n c tg d => trivial
  | regex search matchAt rule d =>
    obtain ⟨hb1, hb2, hb3⟩ := h
    refine ⟨fun t a p must _ hpa => ?_, fun t a p _ hpa => ?_, fun t a m _ ha => hb3 t a m ha⟩
    · rw [hb1 t (p + a) must hpa, hb1 (t.drop a) p must (by simp only [List.length_drop]; omega), List.drop_drop,
        Nat.add_comm a p, Option.map_map]
      congr 1
      funext m; simp [moveM_add]
    · rw [hb2 t (p + a) hpa, hb2 (t.drop a) p (by simp only [List.length_drop]; omega), List.drop_drop,
        Nat.add_comm a p, Option.map_map]
      congr 1
      funext m; simp [moveM_add]

theorem parse_move {noAct : A} {ld : LexDef α L A ρ} {t : List α} {a j : Nat} {ps : PS ρ} (hld : LexOK ld)
    (hb : Behind j ld) (ha : a ≤ t.length) (hps : PSOK (t.drop a) ld ps) (hj : j ≤ ps.floor (t.drop a)) :
    parseNext noAct ld t (PS.move a ps) =
      (parseNext noAct ld (t.drop a) ps).map (fun r => (Tok.move a r.1, PS.move a r.2)) := by
  have htail : ∀ (d : Dflt α L A) (p : Nat), tailTok (ρ := ρ) noAct d t (p + a) =
      (tailTok (ρ := ρ) noAct d (t.drop a) p).map (fun r => (Tok.move a r.1, PS.move a r.2)) := by
    intro d p
    unfold tailTok
    have hd : t.drop (p + a) = (t.drop a).drop p := by rw [List.drop_drop, Nat.add_comm]
    by_cases hlt : p + a < t.length
    · rw [if_pos hlt, if_pos (by simp only [List.length_drop]; omega)]
      cases d with
      | skip => rfl
      | action f => simp only [hd, Option.map_some, Tok.move, PS.move, Option.map_none]
      | target tg => simp only [Option.map_some, Tok.move, PS.move, Option.map_none]
    · rw [if_neg hlt, if_neg (by simp only [List.length_drop]; omega)]
      rfl
  have hlit : ∀ (n : List α) (c : A) (tg : Option (Target L)) (i : Nat),
      (litTok n c tg (i + a) : Tok α L A ρ × PS ρ) =
      (Tok.move a (litTok (ρ := ρ) n c tg i).1, PS.move a (litTok (L := L) n c tg i).2) := by
    intro n c tg i
    simp only [litTok, Tok.move, PS.move, Option.map_none]
    congr 2; omega
  have hmatch : ∀ (rule : List α → Mtch ρ → A × Option (Target L)) (m : Mtch ρ),
      rule t (Mtch.move a m) = rule (t.drop a) m →
      matchTok rule t (Mtch.move a m) =
      (Tok.move a (matchTok rule (t.drop a) m).1, PS.move a (matchTok rule (t.drop a) m).2) := by
    intro rule m hr
    have h1 : (Mtch.move a m).start = m.start + a := rfl
    have h2 : (Mtch.move a m).stop = m.stop + a := rfl
    have h3 : (m.start + a == m.stop + a) = (m.start == m.stop) := by
      rw [Bool.eq_iff_iff]; simp
    simp only [matchTok, hr, h1, h2, h3, slice_move, Tok.move, PS.move, Option.map_some]
  cases ps with
  | stop => rfl
  | pend m =>
    obtain ⟨h1, h2, s, ma, r, f, rfl, hfm⟩ := hps
    show parseNext noAct _ t (.pend (Mtch.move a m)) = _
    simp only [parseNext, Option.map_some]
    rw [hmatch r m (hb.2.2 t a m hj ha)]
  | pendLit i =>
    obtain ⟨n, c, tg', f, rfl, h1, h2⟩ := hps
    show parseNext noAct _ t (.pendLit (i + a)) = _
    simp only [parseNext, Option.map_some]
    rw [hlit]
  | «at» p must =>
    have hp : p ≤ (t.drop a).length := hps
    have hpa : p + a ≤ t.length := by simp only [List.length_drop] at hp; omega
    show parseNext noAct _ t (.at (p + a) must) = _
    simp only [parseNext]
    cases ld with
    | empty d => exact htail d p
    | literal n c tg' d =>
      have hne : n ≠ [] := hld
      cases d with
      | skip =>
        simp only [findSub_move hne ha]
        cases findSub n (t.drop a) p with
        | none => rfl
        | some i => simp only [Option.map_some, hlit]
      | target tg =>
        simp only
        rw [show p + a + n.length = p + n.length + a by omega, slice_move]
        split
        · simp only [Option.map_some, hlit]
        · exact htail _ p
      | action f =>
        simp only [findSub_move hne ha]
        cases findSub n (t.drop a) p with
        | none => exact htail _ p
        | some i =>
          simp only [Option.map_some]
          by_cases hlt : i > p
          · rw [if_pos (by omega), if_pos hlt]
            simp only [Option.map_some, slice_move, Tok.move, PS.move, Option.map_none]
          · rw [if_neg (by omega), if_neg hlt]
            simp only [Option.map_some, hlit]
    | regex search matchAt rule d =>
      obtain ⟨hb1, hb2, hb3⟩ := hb
      have hj' : j ≤ p := hj
      have hsr : search t (p + a) must = (search (t.drop a) p must).map (Mtch.move a) := hb1 t a p must hj' hpa
      have hma : matchAt t (p + a) = (matchAt (t.drop a) p).map (Mtch.move a) := hb2 t a p hj' hpa
      have hru : ∀ m, j ≤ m.start → rule t (Mtch.move a m) = rule (t.drop a) m := fun m hm => hb3 t a m hm ha
      cases d with
      | skip =>
        simp only [hsr]
        cases hf : search (t.drop a) p must with
        | none => rfl
        | some m =>
          have := (hld.1 _ _ _ _ hf).1
          simp only [Option.map_some, hmatch rule m (hru m (by omega))]
      | action f =>
        simp only [hsr]
        cases hf : search (t.drop a) p must with
        | none => exact htail _ p
        | some m =>
          have h1 : (Mtch.move a m).start = m.start + a := rfl
          have := (hld.1 _ _ _ _ hf).1
          simp only [Option.map_some]
          by_cases hlt : m.start > p
          · rw [if_pos (by rw [h1]; omega), if_pos hlt]
            simp only [Option.map_some, h1, slice_move, Tok.move, PS.move, Option.map_none]
          · rw [if_neg (by rw [h1]; omega), if_neg hlt]
            simp only [Option.map_some, hmatch rule m (hru m (by omega))]
      | target tg =>
        simp only [hma]
        cases hf : matchAt (t.drop a) p with
        | none => exact htail _ p
        | some m =>
          have := (hld.2 _ _ _ hf).1
          simp only [Option.map_some, hmatch rule m (hru m (by omega))]

theorem emit_move {lang : Lang α L A ρ} (hx : ExpandsMoved lang) (f : Factory L) (tok : Tok α L A ρ) (a : Nat) :
    emit lang f (Tok.move a tok) = ((emit lang f tok).1, (emit lang f tok).2.map (Event.move a)) := by
  rcases emit_cases lang f tok with ⟨h, h1⟩ | ⟨h, h1⟩
  · rcases emit_cases lang f (Tok.move a tok) with ⟨h2, h3⟩ | ⟨h2, h3⟩
    · rw [h1, h3]; rfl
    · rw [hx, h] at h2; simp at h2
  · rcases emit_cases lang f (Tok.move a tok) with ⟨h2, h3⟩ | ⟨h2, h3⟩
    · rw [hx] at h2; simp at h2; exact absurd h2 h
    · rw [h1, h3, hx]; rfl

/-- The lexer does the same in a text of which the beginning is removed. -/
theorem step_move {lang : Lang α L A ρ} {t : List α} {a j : Nat} {s : LState L ρ}
    (hl : ∀ l, LexOK (lang.ld l)) (hb : ∀ l, Behind j (lang.ld l)) (hx : ExpandsMoved lang)
    (ha : a ≤ t.length) (hok : StOK lang (t.drop a) s) (hj : j ≤ s.ps.floor (t.drop a)) :
    lexStep lang t (LState.move a s) =
      (lexStep lang (t.drop a) s).map (fun r => (LState.move a r.1, r.2.map (Event.move a))) := by
  cases hs : s.stack with
  | nil =>
    have hs' : (LState.move a s).stack = [] := hs
    simp only [lexStep, hs, hs', Option.map_none]
  | cons top rest =>
    have hs' : (LState.move a s).stack = top :: rest := hs
    have hp : parseNext lang.noAct (lang.ld top) t (LState.move a s).ps = _ :=
      parse_move (noAct := lang.noAct) (hl top) (hb top) ha (hok top rest hs) hj
    simp only [lexStep, hs, hs', hp]
    cases hq : parseNext lang.noAct (lang.ld top) (t.drop a) s.ps with
    | none => rfl
    | some r =>
      obtain ⟨tok, ps'⟩ := r
      simp only [Option.map_some]
      have h1 : (Tok.move a tok).tgt = tok.tgt := rfl
      have h2 : (Tok.move a tok).text = tok.text := rfl
      have h3 : (Tok.move a tok).pos = tok.pos + a := rfl
      have h4 : (LState.move a s).fac = s.fac := rfl
      have h5 : (LState.move a s).circ = s.circ.map (fun c => (c.1 + a, c.2)) := rfl
      have hfun : ∀ x : Nat × Nat × Nat,
          ((x.1 + a, x.2) ∈ s.circ.map (fun c => (c.1 + a, c.2)) ↔ x ∈ s.circ) := by
        intro x
        simp only [List.mem_map, Prod.mk.injEq]
        constructor
        · rintro ⟨y, hy, h6, h7⟩
          have : y = x := Prod.ext (by omega) h7
          rw [← this]; exact hy
        · intro hx; exact ⟨x, hx, rfl, rfl⟩
      cases htg : tok.tgt with
      | none =>
        by_cases hte : tok.text ≠ []
        · simp only [h1, h2, h4, h5, htg, if_pos hte, emit_move hx, Option.map_some, LState.move, hs]
        · simp only [h1, h2, h4, h5, htg, if_neg hte, Option.map_some, LState.move, hs, List.map_nil]
      | some tg0 =>
        by_cases hte : tok.text ≠ []
        · have hpm : PS.at (ρ := ρ) (tok.pos + a + tok.text.length) false =
              PS.move a (PS.at (tok.pos + tok.text.length) false) := by
            simp only [PS.move, PS.at.injEq, and_true]; omega
          simp only [h1, h2, h3, h4, htg, if_pos hte, emit_move hx, hpm]
          split <;> simp only [Option.map_some, LState.move, List.map_nil]
        · simp only [h1, h2, h3, h4, h5, htg, if_neg hte]
          have hm := hfun (tok.pos, (top :: rest).length - (clampPop (top :: rest) tg0).pop, (clampPop (top :: rest) tg0).push.length)
          simp only at hm
          by_cases hc : (tok.pos, (top :: rest).length - (clampPop (top :: rest) tg0).pop, (clampPop (top :: rest) tg0).push.length) ∈ s.circ
          · rw [if_pos hc, if_pos (hm.2 hc)]
            simp only [Option.map_some, LState.move, List.map_nil, PS.move, List.length_drop]
            by_cases hcc : (clampPop (top :: rest) tg0).push ≠ [] ∧ tok.pos + a < t.length
            · rw [if_pos hcc, if_pos ⟨hcc.1, by omega⟩]
              simp only [show tok.pos + a + 1 = tok.pos + 1 + a by omega]
            · rw [if_neg hcc, if_neg (by intro h6; exact hcc ⟨h6.1, by omega⟩)]
          · rw [if_neg hc, if_neg (fun h => hc (hm.1 h))]
            simp only [Option.map_some, LState.move, List.map_nil, PS.move, List.map_cons]

theorem ends_move {lang : Lang α L A ρ} {t : List α} {a j : Nat} (hl : ∀ l, LexOK (lang.ld l))
    (hb : ∀ l, Behind j (lang.ld l)) (hx : ExpandsMoved lang) (ha : a ≤ t.length) :
    ∀ (n : Nat) (s : LState L ρ) (E : List (Event α L A)), StOK lang (t.drop a) s → j ≤ s.ps.floor (t.drop a) →
    Ends lang t n (LState.move a s) E →
    ∃ F, Ends lang (t.drop a) n s F ∧ E = F.map (Event.move a) := by
  intro n
  induction n with
  | zero => intro s E _ _ h; simp [Ends, lexRun] at h
  | succ n ih =>
    intro s E hok hj h
    unfold Ends at h
    rw [lexRun, step_move hl hb hx ha hok hj] at h
    cases hs : lexStep lang (t.drop a) s with
    | none =>
      rw [hs] at h
      simp only [Option.map_none, Prod.mk.injEq, and_true] at h
      exact ⟨[], by simp [Ends, lexRun, hs], by rw [← h]; rfl⟩
    | some r =>
      obtain ⟨s1, ev⟩ := r
      rw [hs] at h
      simp only [Option.map_some, Prod.mk.injEq] at h
      have hj1 : j ≤ s1.ps.floor (t.drop a) := by
        have h1 := reach_le_floor hl hok hs
        have h2 := floor_le_reach hok
        omega
      obtain ⟨F, h1, h2⟩ := ih s1 (lexRun lang t n (LState.move a s1)).1 (lexStep_pos hl hok hs).1 hj1 (by unfold Ends; rw [← h.2])
      exact ⟨ev ++ F, h1.step hs, by rw [← h.1, h2, List.map_append]⟩

/-- Two texts with the same end: from `p` characters after its start on, the events are the same, moved. -/
theorem ends_shift {lang : Lang α L A ρ} {t t' : List α} {a a' n n' j p : Nat} {stack : List L} {fac : Factory L}
    {E E' : List (Event α L A)} (hl : ∀ l, LexOK (lang.ld l))
    (hb : ∀ l, Behind j (lang.ld l)) (hx : ExpandsMoved lang) (hj : j ≤ p) (ha : p + a ≤ t.length) (ha' : p + a' ≤ t'.length)
    (hd : t.drop a = t'.drop a')
    (h : Ends lang t n ⟨stack, fac, [], .at (p + a) false⟩ E) (h' : Ends lang t' n' ⟨stack, fac, [], .at (p + a') false⟩ E') :
    ∃ F : List (Event α L A), E = F.map (Event.move a) ∧ E' = F.map (Event.move a') := by
  have hm : ∀ b, (⟨stack, fac, [], .at (p + b) false⟩ : LState L ρ) = LState.move b ⟨stack, fac, [], .at p false⟩ := by
    intro b; simp [LState.move, PS.move]
  have hok : ∀ u : List α, p ≤ u.length → StOK lang u ⟨stack, fac, [], .at p false⟩ := fun u hu top rest _ => hu
  rw [hm] at h h'
  obtain ⟨F, h1, h2⟩ := ends_move hl hb hx (by omega) n _ E (hok _ (by rw [List.length_drop]; omega)) hj h
  obtain ⟨F', h3, h4⟩ := ends_move hl hb hx (by omega) n' _ E' (hok _ (by rw [List.length_drop]; omega)) hj h'
  rw [← hd] at h3
  have := h1.unique h3
  subst this
  exact ⟨F, h2, h4⟩

end Parce.RB

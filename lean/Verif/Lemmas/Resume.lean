import Verif.Lemmas.Lexer
set_option linter.unusedSectionVars false
namespace Parce
variable {α L A ρ : Type}

/-! ### Composition of factories -/

def Factory.comp (f0 f : Factory L) : Factory L := f0.add ⟨f.fpop, f.fpush⟩

theorem comp_init (f0 : Factory L) : f0.comp Factory.init = f0 := by
  simp [Factory.comp, Factory.init, Factory.add]

theorem comp_eff (f0 f : Factory L) (s : List L) : (f0.comp f).eff s = f.eff (f0.eff s) := by
  rw [Factory.comp, eff_add]; rfl

theorem add_eq (f : Factory L) (t : Target L) : f.add t =
    ⟨f.fpop + (t.pop - f.fpush.length), f.fpush.take (f.fpush.length - t.pop) ++ t.push⟩ := by
  unfold Factory.add
  split
  · rename_i h; simp [h]
  · split
    · rename_i h; simp [Nat.sub_eq_zero_of_le h]
    · rename_i h; simp [Nat.sub_eq_zero_of_le (Nat.le_of_not_le h)]

theorem comp_add (f0 f : Factory L) (t : Target L) : (f0.comp f).add t = f0.comp (f.add t) := by
  simp only [Factory.comp, add_eq, List.length_append, List.length_take, Factory.mk.injEq]
  constructor
  · omega
  · rw [List.take_append, List.length_take, List.append_assoc, List.take_take]
    congr 1
    · congr 1; omega
    · congr 2; omega

variable [DecidableEq α]

theorem findSub_none {needle t : List α} {pos : Nat} (hne : needle ≠ []) (h : t.length ≤ pos) :
    findSub needle t pos = none := by
  cases hf : findSub needle t pos with
  | none => rfl
  | some i =>
    obtain ⟨h1, _, h3⟩ := findSub_some hne hf
    have := List.length_pos_iff.2 hne
    omega

theorem find?_range_first (p q : Nat → Bool) : ∀ (n i : Nat), (List.range n).find? p = some i → q i = true →
    (∀ j, q j = true → p j = true) → (List.range n).find? q = some i := by
  intro n i h hq hpq
  rw [List.find?_range_eq_some] at h ⊢
  obtain ⟨h1, h2, h3⟩ := h
  refine ⟨hq, h2, fun j hj => ?_⟩
  have := h3 j hj
  cases hqj : q j with
  | false => rfl
  | true => simp [hpq j hqj] at this

theorem findSub_again {needle t : List α} {p i : Nat} (h : findSub needle t p = some i) :
    findSub needle t i = some i := by
  unfold findSub at *
  have h1 := List.find?_some h
  simp only [Bool.and_eq_true, decide_eq_true_eq, beq_iff_eq] at h1
  refine find?_range_first _ _ _ _ h ?_ ?_
  · simp [h1.2]
  · intro j hj
    simp only [Bool.and_eq_true, decide_eq_true_eq, beq_iff_eq] at hj ⊢
    exact ⟨by omega, hj.2⟩

/-- After a tuple with text, a fresh generator at the position reached goes on in the same
    way. -/
theorem parseNext_fresh {noAct : A} {ld : LexDef α L A ρ} {t : List α} {ps ps' : PS ρ}
    {tok : Tok α L A ρ} (hld : LexOK ld) (hps : PSOK t ld ps) (hlm : Leftmost ld)
    (h : parseNext noAct ld t ps = some (tok, ps')) (ht : tok.text ≠ []) :
    parseNext noAct ld t ps' = parseNext noAct ld t (.at (ps'.floor t) false) := by
  have hmatch : ∀ (rule : List α → Mtch ρ → A × Option (Target L)) (m : Mtch ρ),
      m.start ≤ m.stop → m.stop ≤ t.length → matchTok rule t m = (tok, ps') →
      ps' = .at m.stop false := by
    intro rule m h2 h3 h'
    simp only [matchTok, Prod.mk.injEq] at h'
    obtain ⟨rfl, rfl⟩ := h'
    have hl : (slice t m.start m.stop).length = m.stop - m.start := slice_self_length h2 h3
    simp only at ht
    have := List.length_pos_iff.2 ht
    have hne : m.start ≠ m.stop := by omega
    simp [hne]
  have hlit : ∀ (n : List α) (a : A) (tg : Option (Target L)) (i : Nat),
      (litTok n a tg i : Tok α L A ρ × PS ρ) = (tok, ps') → ps' = .at (i + n.length) false := by
    intro n a tg i h'
    simp only [litTok, Prod.mk.injEq] at h'
    exact h'.2.symm
  have hstop : ∀ (d : Dflt α L A) (p : Nat), tailTok (ρ := ρ) noAct d t p = some (tok, ps') →
      p < t.length ∧ ps' = .stop ∧ ∃ f, d = .action f := by
    intro d p h'
    unfold tailTok at h'
    split at h'
    · rename_i hlt
      split at h'
      · simp at h'
      · simp only [Option.some.injEq, Prod.mk.injEq] at h'
        exact ⟨hlt, h'.2.symm, _, rfl⟩
      · simp only [Option.some.injEq, Prod.mk.injEq] at h'
        obtain ⟨rfl, rfl⟩ := h'
        simp at ht
    · simp at h'
  have htailEnd : ∀ (d : Dflt α L A), tailTok (ρ := ρ) noAct d t t.length = none := by
    intro d; unfold tailTok; simp
  cases ps with
  | stop => simp [parseNext] at h
  | pend m =>
    obtain ⟨h1, h2, s, ma, r, f, rfl, hfm⟩ := hps
    simp only [parseNext, Option.some.injEq] at h
    rw [hmatch r m h1 h2 h]; rfl
  | pendLit i =>
    obtain ⟨n, a, tg', f, rfl, h1, h2⟩ := hps
    simp only [parseNext, Option.some.injEq] at h
    rw [hlit n a tg' i h]; rfl
  | «at» p must =>
    simp only [parseNext] at h
    cases ld with
    | empty d =>
      obtain ⟨_, rfl, f, rfl⟩ := hstop _ p h
      simp only [parseNext, PS.floor, htailEnd]
    | literal n a tg' d =>
      have hn : n ≠ [] := hld
      cases d with
      | skip =>
        simp only at h
        cases hf : findSub n t p with
        | none => rw [hf] at h; simp at h
        | some i => rw [hf] at h; simp only [Option.some.injEq] at h; rw [hlit n a tg' i h]; rfl
      | target tg =>
        simp only at h
        split at h
        · simp only [Option.some.injEq] at h; rw [hlit n a tg' p h]; rfl
        · obtain ⟨_, _, f, hf⟩ := hstop _ p h
          cases hf
      | action f =>
        simp only at h
        cases hf : findSub n t p with
        | none =>
          rw [hf] at h
          obtain ⟨_, rfl, _⟩ := hstop _ p h
          simp only [parseNext, PS.floor, htailEnd, findSub_none hn (Nat.le_refl _)]
        | some i =>
          rw [hf] at h
          simp only at h
          split at h
          · simp only [Option.some.injEq, Prod.mk.injEq] at h
            obtain ⟨rfl, rfl⟩ := h
            simp only [parseNext, PS.floor, findSub_again hf]
            simp
          · simp only [Option.some.injEq] at h; rw [hlit n a tg' i h]; rfl
    | regex search matchAt rule d =>
      obtain ⟨hs, hm⟩ := hld
      obtain ⟨hl1, hl2⟩ := hlm
      cases d with
      | skip =>
        simp only at h
        cases hf : search t p must with
        | none => rw [hf] at h; simp at h
        | some m =>
          rw [hf] at h
          simp only [Option.some.injEq] at h
          obtain ⟨h1, h2, h3, _⟩ := hs t p must m hf
          rw [hmatch rule m h2 h3 h]; rfl
      | action f =>
        simp only at h
        cases hf : search t p must with
        | none =>
          rw [hf] at h
          obtain ⟨hlt, rfl, _⟩ := hstop _ p h
          simp only [parseNext, PS.floor, htailEnd, hl2 t p must t.length hf hlt (Nat.le_refl _)]
        | some m =>
          rw [hf] at h
          obtain ⟨h1, h2, h3, _⟩ := hs t p must m hf
          simp only at h
          split at h
          · rename_i hlt
            simp only [Option.some.injEq, Prod.mk.injEq] at h
            obtain ⟨rfl, rfl⟩ := h
            simp only [parseNext, PS.floor, hl1 t p must m hf hlt]
            simp
          · simp only [Option.some.injEq] at h
            rw [hmatch rule m h2 h3 h]; rfl
      | target tg =>
        simp only at h
        cases hf : matchAt t p with
        | none =>
          rw [hf] at h
          obtain ⟨_, _, f, hf⟩ := hstop _ p h
          cases hf
        | some m =>
          rw [hf] at h
          obtain ⟨h1, h2, h3⟩ := hm t p m hf
          simp only [Option.some.injEq] at h
          rw [hmatch rule m (by omega) h3 h]; rfl

/-! ### Simulation -/

/-- Same stack and generator, and the same circular states from the current position on. -/
structure Sim (t : List α) (s s' : LState L ρ) : Prop where
  stack : s.stack = s'.stack
  ps : s.ps = s'.ps
  circ : ∀ st : Nat × Nat × Nat, s.ps.floor t ≤ st.1 → (st ∈ s.circ ↔ st ∈ s'.circ)

/-- How the pending targets and the events of two simulating steps are related. -/
def FacRel (f f' f1 f1' : Factory L) (ev ev' : List (Event α L A)) : Prop :=
  (f = f' → f1 = f1' ∧ ev = ev') ∧
  ∀ f0 : Factory L, f = f0.comp f' →
    (ev = [] ∧ ev' = [] ∧ f1 = f0.comp f1') ∨
    (∃ lx g', ev = [⟨(f0.comp g').get.1, lx⟩] ∧ ev' = [⟨g'.get.1, lx⟩] ∧ f1 = f1')

theorem emit_rel (lang : Lang α L A ρ) (f f' : Factory L) (tok : Tok α L A ρ) :
    FacRel f f' (emit lang f tok).1 (emit lang f' tok).1 (emit lang f tok).2 (emit lang f' tok).2 := by
  refine ⟨fun h => by subst h; exact ⟨rfl, rfl⟩, fun f0 h => ?_⟩
  rcases emit_cases lang f tok with ⟨h1, h2⟩ | ⟨h1, h2⟩
  · rcases emit_cases lang f' tok with ⟨_, h4⟩ | ⟨h3, _⟩
    · rw [h2, h4]; exact Or.inl ⟨rfl, rfl, h⟩
    · exact absurd h1 h3
  · rcases emit_cases lang f' tok with ⟨h3, _⟩ | ⟨_, h4⟩
    · exact absurd h3 h1
    · rw [h2, h4]; exact Or.inr ⟨_, f', by rw [h], rfl, rfl⟩

theorem FacRel.add {f f' f1 f1' : Factory L} {ev ev' : List (Event α L A)} (h : FacRel f f' f1 f1' ev ev')
    (t : Target L) : FacRel f f' (f1.add t) (f1'.add t) ev ev' := by
  refine ⟨fun h1 => ⟨by rw [(h.1 h1).1], (h.1 h1).2⟩, fun f0 h1 => ?_⟩
  rcases h.2 f0 h1 with ⟨h2, h3, h4⟩ | ⟨lx, g', h2, h3, h4⟩
  · exact Or.inl ⟨h2, h3, by rw [h4, comp_add]⟩
  · exact Or.inr ⟨lx, g', h2, h3, by rw [h4]⟩

theorem FacRel.of_add {f f' f1 f1' : Factory L} {ev ev' : List (Event α L A)} (t : Target L)
    (h : FacRel (f.add t) (f'.add t) f1 f1' ev ev') : FacRel f f' f1 f1' ev ev' := by
  refine ⟨fun h1 => h.1 (by rw [h1]), fun f0 h1 => h.2 f0 (by rw [h1, comp_add])⟩

theorem FacRel.same (f f' : Factory L) : FacRel (α := α) (A := A) f f' f f' [] [] :=
  ⟨fun h => ⟨h, rfl⟩, fun _ h => Or.inl ⟨rfl, rfl, h⟩⟩

theorem lexStep_sim {lang : Lang α L A ρ} {t : List α} {s s' : LState L ρ} (hl : ∀ l, LexOK (lang.ld l))
    (hok : StOK lang t s) (h : Sim t s s') :
    (lexStep lang t s = none ∧ lexStep lang t s' = none) ∨
    ∃ s1 ev s1' ev', lexStep lang t s = some (s1, ev) ∧ lexStep lang t s' = some (s1', ev') ∧
      Sim t s1 s1' ∧ FacRel s.fac s'.fac s1.fac s1'.fac ev ev' := by
  obtain ⟨h1, h2, h3⟩ := h
  cases hst : s.stack with
  | nil => left; constructor <;> simp [lexStep, hst, ← h1]
  | cons top rest =>
    have hst' : s'.stack = top :: rest := by rw [← h1, hst]
    cases hp : parseNext lang.noAct (lang.ld top) t s.ps with
    | none => left; constructor <;> simp [lexStep, hst, hst', ← h2, hp]
    | some r =>
      obtain ⟨tok, ps'⟩ := r
      obtain ⟨hk, hps'⟩ := parseNext_ok (hl top) (hok top rest hst) hp
      have hge := hk.ge
      have hnx := hk.next
      right
      cases htg : tok.tgt with
      | none =>
        by_cases hte : tok.text ≠ []
        · refine ⟨{ s with fac := (emit lang s.fac tok).1, ps := ps' }, (emit lang s.fac tok).2,
            { s' with fac := (emit lang s'.fac tok).1, ps := ps' }, (emit lang s'.fac tok).2, ?_, ?_, ?_, ?_⟩
          · simp [lexStep, hst, hp, htg, hte]
          · simp [lexStep, hst', ← h2, hp, htg, hte]
          · exact ⟨h1, rfl, fun st hs => h3 st (by simp only at hs; omega)⟩
          · exact emit_rel lang _ _ tok
        · refine ⟨{ s with ps := ps' }, [], { s' with ps := ps' }, [], ?_, ?_, ?_, ?_⟩
          · simp only [ne_eq, Decidable.not_not] at hte; simp [lexStep, hst, hp, htg, hte]
          · simp only [ne_eq, Decidable.not_not] at hte; simp [lexStep, hst', ← h2, hp, htg, hte]
          · exact ⟨h1, rfl, fun st hs => h3 st (by simp only at hs; omega)⟩
          · exact FacRel.same _ _
      | some tg0 =>
        by_cases hte : tok.text ≠ []
        · by_cases hc : ((clampPop s.stack tg0).push.getLast?.map lang.consume).getD false = true
          · refine ⟨⟨(clampPop s.stack tg0).apply s.stack, (emit lang (s.fac.add (clampPop s.stack tg0)) tok).1,
                [], .at (tok.pos + tok.text.length) false⟩, (emit lang (s.fac.add (clampPop s.stack tg0)) tok).2,
              ⟨(clampPop s.stack tg0).apply s.stack, (emit lang (s'.fac.add (clampPop s.stack tg0)) tok).1,
                [], .at (tok.pos + tok.text.length) false⟩, (emit lang (s'.fac.add (clampPop s.stack tg0)) tok).2,
              ?_, ?_, ?_, ?_⟩
            · simp only [hst] at hc ⊢
              simp [lexStep, hst, hp, htg, hte, hc]
            · simp only [hst] at hc ⊢
              simp [lexStep, hst', ← h2, hp, htg, hte, hc]
            · exact ⟨rfl, rfl, fun _ _ => Iff.rfl⟩
            · exact FacRel.of_add _ (emit_rel lang _ _ tok)
          · refine ⟨⟨(clampPop s.stack tg0).apply s.stack, (emit lang s.fac tok).1.add (clampPop s.stack tg0),
                [], .at (tok.pos + tok.text.length) false⟩, (emit lang s.fac tok).2,
              ⟨(clampPop s.stack tg0).apply s.stack, (emit lang s'.fac tok).1.add (clampPop s.stack tg0),
                [], .at (tok.pos + tok.text.length) false⟩, (emit lang s'.fac tok).2,
              ?_, ?_, ?_, ?_⟩
            · simp only [hst] at hc ⊢
              simp [lexStep, hst, hp, htg, hte, hc]
            · simp only [hst] at hc ⊢
              simp [lexStep, hst', ← h2, hp, htg, hte, hc]
            · exact ⟨rfl, rfl, fun _ _ => Iff.rfl⟩
            · exact (emit_rel lang _ _ tok).add _
        · have hte' : tok.text = [] := by simpa using hte
          let st := (tok.pos, s.stack.length - (clampPop s.stack tg0).pop, (clampPop s.stack tg0).push.length)
          have hmem : st ∈ s.circ ↔ st ∈ s'.circ := h3 st hge
          by_cases hc : st ∈ s.circ
          · have hc' := hmem.1 hc
            refine ⟨⟨(clampPop s.stack tg0).apply s.stack, s.fac.add (clampPop s.stack tg0), [],
                .at (if (clampPop s.stack tg0).push ≠ [] ∧ tok.pos < t.length then tok.pos + 1 else tok.pos) false⟩, [],
              ⟨(clampPop s.stack tg0).apply s.stack, s'.fac.add (clampPop s.stack tg0), [],
                .at (if (clampPop s.stack tg0).push ≠ [] ∧ tok.pos < t.length then tok.pos + 1 else tok.pos) false⟩, [],
              ?_, ?_, ?_, ?_⟩
            · simp only [st, hst] at hc ⊢
              simp only [lexStep, hst, hp, htg, hte', ne_eq, not_true_eq_false, if_false]
              rw [if_pos hc]
            · simp only [st, hst] at hc' ⊢
              simp only [lexStep, hst', ← h2, hp, htg, hte', ne_eq, not_true_eq_false, if_false]
              rw [if_pos hc']
            · exact ⟨rfl, rfl, fun _ _ => Iff.rfl⟩
            · exact (FacRel.same _ _).add _
          · have hc' : st ∉ s'.circ := fun h => hc (hmem.2 h)
            refine ⟨⟨(clampPop s.stack tg0).apply s.stack, s.fac.add (clampPop s.stack tg0), st :: s.circ,
                .at tok.pos false⟩, [],
              ⟨(clampPop s.stack tg0).apply s.stack, s'.fac.add (clampPop s.stack tg0), st :: s'.circ,
                .at tok.pos false⟩, [],
              ?_, ?_, ?_, ?_⟩
            · simp only [st, hst] at hc ⊢
              simp only [lexStep, hst, hp, htg, hte', ne_eq, not_true_eq_false, if_false]
              rw [if_neg hc]
            · simp only [st, hst] at hc' ⊢
              simp only [lexStep, hst', ← h2, hp, htg, hte', ne_eq, not_true_eq_false, if_false]
              rw [if_neg hc']
            · refine ⟨rfl, rfl, fun x hx => ?_⟩
              have : PS.floor t (PS.at (ρ := ρ) tok.pos false) = tok.pos := rfl
              simp only [this] at hx
              simp only [List.mem_cons, h3 x (by omega)]
            · exact (FacRel.same _ _).add _

theorem lexRun_sim (lang : Lang α L A ρ) (t : List α) (hl : ∀ l, LexOK (lang.ld l)) :
    ∀ (n : Nat) (s s' : LState L ρ), StOK lang t s → Sim t s s' → s.fac = s'.fac →
    (lexRun lang t n s).1 = (lexRun lang t n s').1 ∧
    (lexRun lang t n s).2.isNone = (lexRun lang t n s').2.isNone := by
  intro n
  induction n with
  | zero => intro s s' _ _ _; exact ⟨rfl, rfl⟩
  | succ n ih =>
    intro s s' hok h hf
    rcases lexStep_sim hl hok h with ⟨h1, h2⟩ | ⟨s1, ev, s1', ev', h1, h2, h3, h4⟩
    · simp [lexRun, h1, h2]
    · obtain ⟨h5, h6⟩ := h4.1 hf
      obtain ⟨h7, h8⟩ := ih s1 s1' (lexStep_pos hl hok h1).1 h3 h5
      simp [lexRun, h1, h2, h6, h7, h8]

theorem lexRun_sim_comp (lang : Lang α L A ρ) (t : List α) (hl : ∀ l, LexOK (lang.ld l)) (base : List L)
    (f0 : Factory L) : ∀ (n : Nat) (s s' : LState L ρ), StOK lang t s → Sim t s s' →
    s.fac = f0.comp s'.fac →
    SameFrom base (f0.eff base) (lexRun lang t n s).1 (lexRun lang t n s').1 ∧
    (lexRun lang t n s).2.isNone = (lexRun lang t n s').2.isNone := by
  intro n
  induction n with
  | zero => intro s s' _ _ _; exact ⟨trivial, rfl⟩
  | succ n ih =>
    intro s s' hok h hf
    rcases lexStep_sim hl hok h with ⟨h1, h2⟩ | ⟨s1, ev, s1', ev', h1, h2, h3, h4⟩
    · simp [lexRun, h1, h2, SameFrom]
    · have hok1 := (lexStep_pos hl hok h1).1
      rcases h4.2 f0 hf with ⟨h5, h6, h7⟩ | ⟨lx, g', h5, h6, h7⟩
      · obtain ⟨h8, h9⟩ := ih s1 s1' hok1 h3 h7
        simp only [lexRun, h1, h2, h5, h6, List.nil_append]
        exact ⟨h8, h9⟩
      · obtain ⟨h8, h9⟩ := lexRun_sim lang t hl n s1 s1' hok1 h3 h7
        simp only [lexRun, h1, h2, h5, h6, List.singleton_append, SameFrom]
        refine ⟨⟨trivial, ?_, h8⟩, h9⟩
        rw [get_eff, get_eff, comp_eff]

/-- States of the circular set lie at or before the current position. -/
def CircOK (t : List α) (s : LState L ρ) : Prop := ∀ st ∈ s.circ, st.1 ≤ s.ps.floor t

theorem lexStep_circ {lang : Lang α L A ρ} {t : List α} {s s' : LState L ρ} {ev : List (Event α L A)}
    (hl : ∀ l, LexOK (lang.ld l)) (hok : StOK lang t s) (hc : CircOK t s)
    (h : lexStep lang t s = some (s', ev)) : CircOK t s' ∧
    (ev ≠ [] → ∀ st ∈ s'.circ, st.1 < s'.ps.floor t) := by
  obtain ⟨top, rest, tok, ps', hs, hp, hcs⟩ := lexStep_cases h
  obtain ⟨h1, h2⟩ := parseNext_ok (hl top) (hok top rest hs) hp
  have hge := h1.ge
  have hnx := h1.next
  rcases hcs with ⟨_, hte, rfl, rfl⟩ | ⟨_, _, rfl, rfl⟩ | ⟨tg0, tg, _, _, _, ⟨rfl, rfl⟩ | ⟨rfl, rfl⟩⟩ |
    ⟨tg0, tg, _, _, _, rfl, ⟨_, rfl⟩ | ⟨_, rfl⟩⟩
  · have hpos := List.length_pos_iff.2 hte
    constructor
    · intro st hst; have := hc st hst; simp only; omega
    · intro _ st hst; have := hc st hst; simp only; omega
  · refine ⟨fun st hst => ?_, fun h => absurd rfl h⟩
    have := hc st hst; simp only; omega
  · exact ⟨by simp [CircOK], by simp⟩
  · exact ⟨by simp [CircOK], by simp⟩
  · exact ⟨by simp [CircOK], by simp⟩
  · refine ⟨?_, fun h => absurd rfl h⟩
    intro st hst
    rcases List.mem_cons.1 hst with rfl | hst
    · exact Nat.le_refl _
    · have := hc st hst
      show st.1 ≤ tok.pos
      omega

theorem lexRun_ok (lang : Lang α L A ρ) (t : List α) (hl : ∀ l, LexOK (lang.ld l)) :
    ∀ (n : Nat) (s s' : LState L ρ), StOK lang t s → CircOK t s → s.stack ≠ [] →
    (lexRun lang t n s).2 = some s' → StOK lang t s' ∧ CircOK t s' ∧ s'.stack ≠ [] := by
  intro n
  induction n with
  | zero => intro s s' h1 h2 h3 h; simp only [lexRun, Option.some.injEq] at h; subst h; exact ⟨h1, h2, h3⟩
  | succ n ih =>
    intro s s' h1 h2 h3 h
    simp only [lexRun] at h
    cases hs : lexStep lang t s with
    | none => rw [hs] at h; simp at h
    | some r =>
      obtain ⟨s1, ev⟩ := r
      rw [hs] at h
      exact ih s1 s' (lexStep_pos hl h1 hs).1 (lexStep_circ hl h1 h2 hs).1 (lexStep_ne_nil hs) h

end Parce

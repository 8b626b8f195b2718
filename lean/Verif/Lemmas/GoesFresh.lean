import Verif.Lemmas.GoesGroup
/-!
# Steps of the lexer, where contexts are left that were entered without a token

As `Verif.Lemmas.Goes`, but the situation also tells how many of the open contexts are only in the pending target, and
which default targets were followed since the last one with text.
-/
namespace Parce
variable {α L A ρ : Type}

/-- A position in the text, the tree with the pending target applied, the number of contexts in the pending target, and
    the default targets that were followed. -/
structure FSit (α L A : Type) where
  pos : Nat
  tree : BState α L A
  fresh : Nat
  circ : List (Nat × Nat × Nat)

structure FAt [DecidableEq α] (lang : Lang α L A ρ) (t : List α) (x : FSit α L A) (s : LState L ρ) (b : BState α L A) : Prop where
  stack : s.stack = x.tree.stack
  parse : parseNext lang.noAct (lang.ld x.tree.cur.lex) t s.ps = parseNext lang.noAct (lang.ld x.tree.cur.lex) t (.at x.pos false)
  circ : s.circ = x.circ
  tree : b.target s.fac.get.1 = x.tree
  fresh : s.fac.fpush.length = x.fresh

def FGoes [DecidableEq α] (lang : Lang α L A ρ) (t : List α) (x y : FSit α L A) : Prop :=
  ∀ s b, FAt lang t x s b → ∃ k s', (lexRun lang t k s).2 = some s' ∧ FAt lang t y s' ((lexRun lang t k s).1.foldl BState.event b)

variable [DecidableEq α] {lang : Lang α L A ρ} {t : List α}

theorem FGoes.refl (x : FSit α L A) : FGoes lang t x x := fun s b h => ⟨0, s, rfl, h⟩

theorem FGoes.trans {x y z : FSit α L A} (h1 : FGoes lang t x y) (h2 : FGoes lang t y z) : FGoes lang t x z := by
  intro s b h
  obtain ⟨k, s', h3, h4⟩ := h1 s b h
  obtain ⟨k', s'', h5, h6⟩ := h2 s' _ h4
  refine ⟨k + k', s'', ?_, ?_⟩
  · rw [lexRun_add lang t k k' s s' h3]; exact h5
  · rw [lexRun_add lang t k k' s s' h3, List.foldl_append]; exact h6

/-- Add tokens to the current context. -/
def BState.putToks (b : BState α L A) (ls : List (Lexeme α A)) : BState α L A :=
  { b with cur := { b.cur with kids := b.cur.kids ++ (makeTokens ls).map .tok } }

/-- A token with text that is left out, without a target. -/
theorem fgoes_skip {p n : Nat} {B : BState α L A} {c : List (Nat × Nat × Nat)} {tok : Tok α L A ρ} {ps' : PS ρ}
    (h : parseNext lang.noAct (lang.ld B.cur.lex) t (.at p false) = some (tok, ps')) (ht : tok.text ≠ []) (hg : tok.tgt = none)
    (he : lang.expand tok = [])
    (hf : parseNext lang.noAct (lang.ld B.cur.lex) t ps' =
      parseNext lang.noAct (lang.ld B.cur.lex) t (.at (tok.pos + tok.text.length) false)) :
    FGoes lang t ⟨p, B, n, c⟩ ⟨tok.pos + tok.text.length, B, n, c⟩ := by
  intro s b hat
  obtain ⟨h1, h2, h3, h4, h5⟩ := hat
  have hstep : lexStep lang t s = some ({ s with ps := ps' }, []) := by
    unfold lexStep
    rw [h1]
    simp only [BState.stack]
    simp only at h2
    rw [h2, h]
    simp [hg, ht, emit, he]
  refine ⟨1, _, by rw [lexRun_one hstep], ?_⟩
  rw [lexRun_one hstep]
  exact ⟨h1, hf, h3, h4, h5⟩

/-- A token with text, without a target. -/
theorem fgoes_tok {p n : Nat} {B : BState α L A} {c : List (Nat × Nat × Nat)} {tok : Tok α L A ρ} {ps' : PS ρ} {a : A}
    (h : parseNext lang.noAct (lang.ld B.cur.lex) t (.at p false) = some (tok, ps')) (ht : tok.text ≠ []) (hg : tok.tgt = none)
    (he : lang.expand tok = [⟨tok.pos, tok.text, a⟩])
    (hf : parseNext lang.noAct (lang.ld B.cur.lex) t ps' =
      parseNext lang.noAct (lang.ld B.cur.lex) t (.at (tok.pos + tok.text.length) false)) :
    FGoes lang t ⟨p, B, n, c⟩ ⟨tok.pos + tok.text.length, B.addTok tok.pos tok.text a, 0, c⟩ := by
  intro s b hat
  obtain ⟨h1, h2, h3, h4, h5⟩ := hat
  have hstep : lexStep lang t s = some ({ s with fac := s.fac.get.2, ps := ps' }, [⟨s.fac.get.1, [⟨tok.pos, tok.text, a⟩]⟩]) := by
    unfold lexStep
    rw [h1]
    simp only [BState.stack]
    simp only at h2
    rw [h2, h]
    simp [hg, ht, emit, he]
  refine ⟨1, _, by rw [lexRun_one hstep], ?_⟩
  rw [lexRun_one hstep]
  refine ⟨h1, hf, h3, ?_, by rw [get_snd]; rfl⟩
  simp only [get_snd, init_get, List.foldl_cons, List.foldl_nil, BState.event, BState.addTok]
  simp only at h4
  rw [h4]
  rfl

omit [DecidableEq α] in
theorem init_add_push (tg : Target L) : (Factory.init.add tg).fpush = tg.push := by
  obtain ⟨pop, push⟩ := tg
  unfold Factory.add Factory.init
  by_cases h : pop = 0
  · simp [h]
  · have : ¬ pop ≤ 0 := by omega
    simp [h, this]

/-- A match with text and a target. -/
theorem fgoes_target {p n : Nat} {B : BState α L A} {c : List (Nat × Nat × Nat)} {tok : Tok α L A ρ} {ps' : PS ρ} {tg : Target L}
    (h : parseNext lang.noAct (lang.ld B.cur.lex) t (.at p false) = some (tok, ps')) (ht : tok.text ≠ []) (hg : tok.tgt = some tg)
    (he : lang.expand tok ≠ []) (hpop : tg.pop ≤ B.up.length)
    (hc : (tg.push.getLast?.map lang.consume).getD false = false) :
    FGoes lang t ⟨p, B, n, c⟩
      ⟨tok.pos + tok.text.length, (B.putToks (lang.expand tok)).target (some tg), tg.push.length, []⟩ := by
  intro s b hat
  obtain ⟨h1, h2, h3, h4, h5⟩ := hat
  obtain ⟨l, ls, hl⟩ := List.exists_cons_of_ne_nil he
  have hstep : lexStep lang t s = some (⟨tg.apply B.stack, Factory.init.add tg, [], .at (tok.pos + tok.text.length) false⟩,
      [⟨s.fac.get.1, lang.expand tok⟩]) := by
    unfold lexStep
    rw [h1]
    have hcl := clamp_same hpop
    simp only [BState.stack] at hcl ⊢
    simp only at h2
    rw [h2, h]
    simp only [hg, ne_eq, ht, not_false_eq_true, if_true, hcl, hc, Bool.false_eq_true, if_false, emit, hl, get_snd]
  refine ⟨1, _, by rw [lexRun_one hstep], ?_⟩
  rw [lexRun_one hstep]
  refine ⟨(target_stack (b := B.putToks (lang.expand tok)) hpop).symm, rfl, rfl, ?_, by rw [init_add_push]⟩
  simp only [List.foldl_cons, List.foldl_nil]
  rw [init_add_get]
  congr 1
  simp only [BState.event]
  simp only at h4
  rw [h4]
  rfl

/-- The default targets that were followed, after another one. -/
def circNext (e : Nat × Nat × Nat) (c : List (Nat × Nat × Nat)) : List (Nat × Nat × Nat) := if e ∈ c then [] else e :: c

/-- A default target that enters lexicons, for the first time. -/
theorem fgoes_push {p n : Nat} {B : BState α L A} {c : List (Nat × Nat × Nat)} {tok : Tok α L A ρ} {ps' : PS ρ} {ls : List L}
    (h : parseNext lang.noAct (lang.ld B.cur.lex) t (.at p false) = some (tok, ps')) (ht : tok.text = []) (hg : tok.tgt = some ⟨0, ls⟩)
    (hp : tok.pos = p) (hn : (p, B.stack.length, ls.length) ∉ c) :
    FGoes lang t ⟨p, B, n, c⟩ ⟨p, B.target (some ⟨0, ls⟩), n + ls.length, (p, B.stack.length, ls.length) :: c⟩ := by
  intro s b hat
  obtain ⟨h1, h2, h3, h4, h5⟩ := hat
  subst hp
  simp only at h1 h2 h3 h4 h5
  have hcl := clamp_same (b := B) (tg := ⟨0, ls⟩) (Nat.zero_le _)
  have hstep : lexStep lang t s = some (⟨(⟨0, ls⟩ : Target L).apply B.stack, s.fac.add ⟨0, ls⟩,
      (tok.pos, B.stack.length, ls.length) :: s.circ, .at tok.pos false⟩, []) := by
    unfold lexStep
    rw [h1]
    simp only [BState.stack] at hcl hn ⊢
    rw [h2, h]
    simp only [hg, ht, ne_eq, not_true_eq_false, if_false, hcl, Nat.sub_zero]
    rw [h3, if_neg hn]
  refine ⟨1, _, by rw [lexRun_one hstep], ?_⟩
  rw [lexRun_one hstep]
  refine ⟨(target_stack (b := B) (tg := ⟨0, ls⟩) (Nat.zero_le _)).symm, rfl, by rw [h3], ?_, ?_⟩
  · simp only [List.foldl_nil]
    rw [add_push_get, h4]
  · simp only [Factory.add, if_true, List.length_append, h5]

/-- The same default target once more: one character is skipped. -/
theorem fgoes_push_again {p n : Nat} {B : BState α L A} {c : List (Nat × Nat × Nat)} {tok : Tok α L A ρ} {ps' : PS ρ} {ls : List L}
    (h : parseNext lang.noAct (lang.ld B.cur.lex) t (.at p false) = some (tok, ps')) (ht : tok.text = []) (hg : tok.tgt = some ⟨0, ls⟩)
    (hp : tok.pos = p) (hlt : p < t.length) (hls : ls ≠ []) (hn : (p, B.stack.length, ls.length) ∈ c) :
    FGoes lang t ⟨p, B, n, c⟩ ⟨p + 1, B.target (some ⟨0, ls⟩), n + ls.length, []⟩ := by
  intro s b hat
  obtain ⟨h1, h2, h3, h4, h5⟩ := hat
  subst hp
  simp only at h1 h2 h3 h4 h5
  have hcl := clamp_same (b := B) (tg := ⟨0, ls⟩) (Nat.zero_le _)
  have hstep : lexStep lang t s = some (⟨(⟨0, ls⟩ : Target L).apply B.stack, s.fac.add ⟨0, ls⟩, [], .at (tok.pos + 1) false⟩, []) := by
    unfold lexStep
    rw [h1]
    simp only [BState.stack] at hcl hn ⊢
    rw [h2, h]
    simp only [hg, ht, ne_eq, not_true_eq_false, if_false, hcl, Nat.sub_zero]
    rw [h3, if_pos hn, if_pos ⟨hls, hlt⟩]
  refine ⟨1, _, by rw [lexRun_one hstep], ?_⟩
  rw [lexRun_one hstep]
  refine ⟨(target_stack (b := B) (tg := ⟨0, ls⟩) (Nat.zero_le _)).symm, rfl, rfl, ?_, ?_⟩
  · simp only [List.foldl_nil]
    rw [add_push_get, h4]
  · simp only [Factory.add, if_true, List.length_append, h5]

/-- The step of a default target that leaves the lexicon. -/
theorem pop_step {s : LState L ρ} {B : BState α L A} {tok : Tok α L A ρ} {ps' : PS ρ} {p : Nat}
    (h1 : s.stack = B.stack) (h2 : parseNext lang.noAct (lang.ld B.cur.lex) t s.ps = some (tok, ps')) (ht : tok.text = [])
    (hg : tok.tgt = some ⟨1, []⟩) (hp : tok.pos = p) (hpop : 1 ≤ B.up.length) :
    lexStep lang t s = some (⟨(⟨1, []⟩ : Target L).apply B.stack, s.fac.add ⟨1, []⟩, circNext (p, B.up.length, 0) s.circ, .at p false⟩, []) := by
  have hcl := clamp_same (b := B) (tg := ⟨1, []⟩) hpop
  subst hp
  unfold lexStep
  rw [h1]
  simp only [BState.stack] at hcl ⊢
  rw [h2]
  simp only [hg, ht, ne_eq, not_true_eq_false, if_false, hcl, false_and]
  have he : (tok.pos, (B.cur.lex :: B.up.map (·.lex)).length - 1, ([] : List L).length) = (tok.pos, B.up.length, 0) := by simp
  rw [he]
  unfold circNext
  by_cases hm : (tok.pos, B.up.length, 0) ∈ s.circ
  · rw [if_pos hm, if_pos hm]
  · rw [if_neg hm, if_neg hm]

/-- A default target that leaves a context that is not in the pending target. -/
theorem fgoes_pop {p : Nat} {B : BState α L A} {c : List (Nat × Nat × Nat)} {tok : Tok α L A ρ} {ps' : PS ρ}
    (h : parseNext lang.noAct (lang.ld B.cur.lex) t (.at p false) = some (tok, ps')) (ht : tok.text = []) (hg : tok.tgt = some ⟨1, []⟩)
    (hp : tok.pos = p) (hpop : 1 ≤ B.up.length) :
    FGoes lang t ⟨p, B, 0, c⟩ ⟨p, B.leave, 0, circNext (p, B.up.length, 0) c⟩ := by
  intro s b hat
  obtain ⟨h1, h2, h3, h4, h5⟩ := hat
  simp only at h1 h2 h3 h4 h5
  have hstep := pop_step (lang := lang) (t := t) h1 (h2.trans h) ht hg hp hpop
  refine ⟨1, _, by rw [lexRun_one hstep], ?_⟩
  rw [lexRun_one hstep]
  have hfs : s.fac.fpush = [] := List.length_eq_zero_iff.1 h5
  refine ⟨(target_stack (b := B) (tg := ⟨1, []⟩) hpop).symm, rfl, by rw [h3], ?_, ?_⟩
  · simp only [List.foldl_nil]
    generalize s.fac = fac at *
    obtain ⟨fp, fs⟩ := fac
    simp only at hfs
    subst hfs
    have hb : b.leaves fp = B := by
      rw [← h4]
      unfold Factory.get
      by_cases hfp : fp = 0
      · subst hfp; rfl
      · simp [hfp, BState.target]
    have : ((Factory.mk fp []).add (⟨1, []⟩ : Target L)).get.1 = some ⟨fp + 1, []⟩ := by
      simp [Factory.add, Factory.get]
    rw [this]
    show b.leaves (fp + 1) = B.leave
    rw [leaves_succ, hb]
  · generalize s.fac = fac at *
    obtain ⟨fp, fs⟩ := fac
    simp only at hfs
    subst hfs
    simp [Factory.add]

/-- A default target that leaves a context that is in the pending target. -/
theorem fgoes_pop_fresh {p n : Nat} {l : L} {f : Frame α L A} {up : List (Frame α L A)} {k : List (Node α L A)}
    {c : List (Nat × Nat × Nat)} {tok : Tok α L A ρ} {ps' : PS ρ}
    (h : parseNext lang.noAct (lang.ld l) t (.at p false) = some (tok, ps')) (ht : tok.text = []) (hg : tok.tgt = some ⟨1, []⟩)
    (hp : tok.pos = p) :
    FGoes lang t ⟨p, ⟨⟨l, k⟩, f :: up⟩, n + 1, c⟩ ⟨p, ⟨f, up⟩, n, circNext (p, up.length + 1, 0) c⟩ := by
  intro s b hat
  obtain ⟨h1, h2, h3, h4, h5⟩ := hat
  simp only at h1 h2 h3 h4 h5
  have hstep := pop_step (lang := lang) (t := t) h1 (h2.trans h) ht hg hp (by simp)
  refine ⟨1, _, by rw [lexRun_one hstep], ?_⟩
  rw [lexRun_one hstep]
  have hfs : s.fac.fpush ≠ [] := List.ne_nil_of_length_eq_add_one h5
  obtain ⟨xs, x, hx⟩ : ∃ xs x, s.fac.fpush = xs ++ [x] := ⟨_, _, (List.dropLast_concat_getLast hfs).symm⟩
  refine ⟨rfl, rfl, by rw [h3]; rfl, ?_, ?_⟩
  · simp only [List.foldl_nil]
    generalize s.fac = fac at *
    obtain ⟨fp, fs⟩ := fac
    simp only at hx
    subst hx
    have hb : (xs ++ [x]).foldl BState.enter (b.leaves fp) = ⟨⟨l, k⟩, f :: up⟩ := by
      rw [← h4]
      simp [Factory.get, BState.target]
    rw [List.foldl_append] at hb
    simp only [List.foldl_cons, List.foldl_nil, BState.enter, BState.mk.injEq, List.cons.injEq] at hb
    have hb' : xs.foldl BState.enter (b.leaves fp) = ⟨f, up⟩ := by
      rw [← hb.2.1, ← hb.2.2]
    have : ((Factory.mk fp (xs ++ [x])).add (⟨1, []⟩ : Target L)) = Factory.mk fp xs := by
      simp [Factory.add]
    rw [this, ← hb']
    unfold Factory.get
    split
    · rfl
    · next hne =>
      simp only [not_or, ne_eq, Decidable.not_not] at hne
      obtain ⟨rfl, rfl⟩ := hne
      rfl
  · rw [hx] at h5
    generalize s.fac = fac at *
    obtain ⟨fp, fs⟩ := fac
    simp only at hx
    subst hx
    simp only [List.length_append, List.length_cons, List.length_nil] at h5
    simp [Factory.add]
    omega

/-! ### The end -/

omit [DecidableEq α] in
theorem enters_drop (ls : List L) : ∀ b : BState α L A, (ls.foldl BState.enter b).up.length = b.up.length + ls.length := by
  induction ls with
  | nil => intro b; rfl
  | cons l ls ih => intro b; simp only [List.foldl_cons, ih, BState.enter, List.length_cons]; omega

/-- The frames of a state, the current one first. -/
def BState.frames (b : BState α L A) : List (Frame α L A) := b.cur :: b.up

omit [DecidableEq α] in
theorem enters_frames (ls : List L) : ∀ b : BState α L A, (ls.foldl BState.enter b).frames.drop ls.length = b.frames := by
  induction ls with
  | nil => intro b; rfl
  | cons l ls ih =>
    intro b
    have := ih (b.enter l)
    simp only [List.foldl_cons, List.length_cons]
    rw [← List.drop_drop, this]
    rfl

/-- A lexer that comes to the end, with contexts `b'` that were really entered. -/
theorem fgoes_finish {root : L} {x : FSit α L A} {b' : BState α L A}
    (h : FGoes lang t ⟨0, ⟨⟨root, []⟩, []⟩, 0, []⟩ x) (hx : x.tree.frames.drop x.fresh = b'.frames)
    (he : ∀ s b, FAt lang t x s b → lexStep lang t s = none) :
    ∃ k evs, lexRun lang t k (LState.start [root] 0) = (evs, none) ∧ buildEvents root evs = b'.close := by
  obtain ⟨k, s', h1, h2⟩ := h (LState.start [root] 0) ⟨⟨root, []⟩, []⟩ ⟨rfl, rfl, rfl, rfl, rfl⟩
  refine ⟨k + 1, (lexRun lang t k (LState.start [root] 0)).1, ?_, ?_⟩
  · rw [lexRun_add lang t k 1 _ s' h1]
    simp [lexRun, he s' _ h2]
  · unfold buildEvents
    generalize hb : List.foldl BState.event ⟨⟨root, []⟩, []⟩ (lexRun lang t k (LState.start [root] 0)).1 = b at *
    have h3 := h2.tree
    have h4 := h2.fresh
    generalize s'.fac = fac at *
    obtain ⟨fp, fs⟩ := fac
    simp only at h4
    have h5 : fs.foldl BState.enter (b.leaves fp) = x.tree := by
      rw [← h3]
      unfold Factory.get
      split
      · rfl
      · next hne =>
        simp only [not_or, ne_eq, Decidable.not_not] at hne
        obtain ⟨rfl, rfl⟩ := hne
        rfl
    have h6 := enters_frames fs (b.leaves fp)
    rw [h5, h4, hx] at h6
    have h7 : b.leaves fp = b' := by
      have := h6
      simp only [BState.frames, List.cons.injEq] at this
      cases hb' : b'
      cases hb2 : b.leaves fp
      rw [hb', hb2] at this
      simp only at this
      rw [this.1, this.2]
    rw [← h7]
    clear h7 h6 h5 h3 h4 hx hb h2 h1
    induction fp generalizing b with
    | zero => rfl
    | succ n ih =>
      show b.close = (BState.leaves n b.leave).close
      rw [← ih]
      obtain ⟨c, up⟩ := b
      cases up with
      | nil => rfl
      | cons f fs => rfl

end Parce

import Verif.Lemmas.GoesFresh
import Verif.Lemmas.PatFirst
import Verif.Model.Bare
import Verif.Spec.Transform
/-!
# Steps of the lexer together with the items that a transform makes

As `Verif.Lemmas.GoesFresh`, but instead of the nodes of the tree, the items are kept that the methods of a transform get.
-/
namespace Parce
variable {α L A R ρ : Type}

abbrev Meths (α L A R : Type) := L → Option (List (BItm α A R L) → R)

/-- What a method gets for the children of a context. -/
def its (m : Meths α L A R) (cs : List (Node α L A)) : List (BItm α A R L) := (itmL (bareEnv m) false cs).filterMap TItm.bare

/-- What a context becomes. -/
def done (m : Meths α L A R) (l : L) (is : List (BItm α A R L)) : List (BItm α A R L) :=
  match m l with
  | some f => [.item l (f is)]
  | none => []

theorem bitmL_append (env : TrEnv α L A R Unit L) (b : Bool) (cs ds : List (Node α L A)) :
    itmL env b (cs ++ ds) = itmL env b cs ++ itmL env b ds := by
  induction cs with
  | nil => rfl
  | cons c cs ih => simp only [List.cons_append, itmL, ih, List.append_assoc]

theorem its_append (m : Meths α L A R) (cs ds : List (Node α L A)) : its m (cs ++ ds) = its m cs ++ its m ds := by
  simp only [its, bitmL_append, List.filterMap_append]

theorem its_ctx (m : Meths α L A R) (l : L) (cs : List (Node α L A)) : its m [.ctx l cs] = done m l (its m cs) := by
  simp only [its, itmL, Node.itm, TrEnv.meth, bareEnv, done]
  cases h : m l with
  | none => rfl
  | some f => rfl

/-- The items of the tokens of an event. -/
def toks (ls : List (Lexeme α A)) : List (BItm α A R L) := ls.map fun l => .tok l.text l.act

theorem its_toks (m : Meths α L A R) (ls : List (Lexeme α A)) : its m ((makeTokens ls).map .tok) = toks ls := by
  have key : ∀ ks : List (TokN α A), its m (ks.map .tok) = ks.map fun k => .tok k.text k.act := by
    intro ks
    induction ks with
    | nil => rfl
    | cons k ks ih =>
      have : its m ((k :: ks).map .tok) = .tok k.text k.act :: its m (ks.map .tok) := rfl
      rw [this, ih, List.map_cons]
  rw [key, toks]
  unfold makeTokens
  split
  · unfold makeGroup
    apply List.ext_getElem?
    intro i
    simp only [List.getElem?_mapIdx, List.getElem?_map, Option.map_map]
    rfl
  · rw [List.take_of_length_le (by omega)]
    simp [Function.comp_def]

/-- The open contexts, with their items. -/
def frs (m : Meths α L A R) (b : BState α L A) : List (L × List (BItm α A R L)) := b.frames.map fun f => (f.lex, its m f.kids)

/-- Leave the current context. -/
def closeF (m : Meths α L A R) : List (L × List (BItm α A R L)) → List (L × List (BItm α A R L))
  | (l, is) :: (l', is') :: fs => (l', is' ++ done m l is) :: fs
  | fs => fs

/-- Leave contexts. -/
def closeN (m : Meths α L A R) : Nat → List (L × List (BItm α A R L)) → List (L × List (BItm α A R L))
  | 0, fs => fs
  | n + 1, fs => closeN m n (closeF m fs)

theorem frs_leave (m : Meths α L A R) (b : BState α L A) : frs m b.leave = closeF m (frs m b) := by
  obtain ⟨⟨l, ks⟩, up⟩ := b
  cases up with
  | nil => rfl
  | cons f fs =>
    simp only [frs, BState.frames, BState.leave, List.map_cons, closeF, its_append, its_ctx]

theorem frs_leaves (m : Meths α L A R) (n : Nat) : ∀ b : BState α L A, frs m (b.leaves n) = closeN m n (frs m b) := by
  induction n with
  | zero => intro b; rfl
  | succ n ih => intro b; rw [BState.leaves, ih, frs_leave]; rfl

theorem frs_enters (m : Meths α L A R) (ls : List L) : ∀ b : BState α L A,
    frs m (ls.foldl BState.enter b) = ls.reverse.map (fun l => (l, [])) ++ frs m b := by
  induction ls with
  | nil => intro b; rfl
  | cons l ls ih =>
    intro b
    rw [List.foldl_cons, ih]
    simp only [List.reverse_cons, List.map_append, List.map_cons, List.map_nil, List.append_assoc]
    rfl

theorem frs_target (m : Meths α L A R) (b : BState α L A) (tg : Target L) :
    frs m (b.target (some tg)) = tg.push.reverse.map (fun l => (l, [])) ++ closeN m tg.pop (frs m b) := by
  simp only [BState.target, frs_enters, frs_leaves]

theorem frs_putToks (m : Meths α L A R) (b : BState α L A) (ls : List (Lexeme α A)) {l : L} {is : List (BItm α A R L)}
    {fs : List (L × List (BItm α A R L))} (h : frs m b = (l, is) :: fs) : frs m (b.putToks ls) = (l, is ++ toks ls) :: fs := by
  obtain ⟨⟨l', ks⟩, up⟩ := b
  simp only [frs, BState.frames, List.map_cons, List.cons.injEq, Prod.mk.injEq] at h
  obtain ⟨⟨rfl, rfl⟩, rfl⟩ := h
  simp only [frs, BState.frames, BState.putToks, List.map_cons, its_append, its_toks]

theorem addTok_put (b : BState α L A) (p : Nat) (w : List α) (a : A) : b.addTok p w a = b.putToks [⟨p, w, a⟩] := rfl

theorem frs_stack {m : Meths α L A R} {b : BState α L A} {fs : List (L × List (BItm α A R L))} (h : frs m b = fs) :
    b.stack.length = fs.length ∧ b.up.length + 1 = fs.length := by
  rw [← h]
  simp [frs, BState.frames, BState.stack]

theorem frs_cur {m : Meths α L A R} {b : BState α L A} {l : L} {is : List (BItm α A R L)} {fs : List (L × List (BItm α A R L))}
    (h : frs m b = (l, is) :: fs) : b.cur.lex = l := by
  simp only [frs, BState.frames, List.map_cons, List.cons.injEq, Prod.mk.injEq] at h
  exact h.1.1

/-- A position, the open contexts with their items, the number of them that are only in the pending target, and whether no
    default target was followed here that left a context. -/
structure ISit (α L A R : Type) where
  pos : Nat
  frames : List (L × List (BItm α A R L))
  fresh : Nat
  ok : Bool

/-- The default targets that were followed. -/
def COk (x : ISit α L A R) (c : List (Nat × Nat × Nat)) : Prop :=
  ∀ e ∈ c, e.1 ≤ x.pos ∧ (x.ok = true → e.1 = x.pos → e.2.1 < x.frames.length)

variable [DecidableEq α] {lang : Lang α L A ρ} {m : Meths α L A R} {t : List α}

def IGoes (lang : Lang α L A ρ) (m : Meths α L A R) (t : List α) (x y : ISit α L A R) : Prop :=
  ∀ B c, frs m B = x.frames → COk x c → ∃ B' c', frs m B' = y.frames ∧ COk y c' ∧ FGoes lang t ⟨x.pos, B, x.fresh, c⟩ ⟨y.pos, B', y.fresh, c'⟩

theorem IGoes.refl (x : ISit α L A R) : IGoes lang m t x x := fun B c h1 h2 => ⟨B, c, h1, h2, .refl _⟩

theorem IGoes.trans {x y z : ISit α L A R} (h1 : IGoes lang m t x y) (h2 : IGoes lang m t y z) : IGoes lang m t x z := by
  intro B c h3 h4
  obtain ⟨B', c', h5, h6, h7⟩ := h1 B c h3 h4
  obtain ⟨B'', c'', h8, h9, h10⟩ := h2 B' c' h5 h6
  exact ⟨B'', c'', h8, h9, h7.trans h10⟩

omit [DecidableEq α] in
theorem cok_later {x y : ISit α L A R} {c : List (Nat × Nat × Nat)} (h : COk x c) (hp : x.pos < y.pos) : COk y c :=
  fun e he => ⟨by have := (h e he).1; omega, fun _ h' => by have := (h e he).1; omega⟩

omit [DecidableEq α] in
theorem cok_nil (x : ISit α L A R) : COk x [] := fun e he => by cases he

/-- The flag does not matter. -/
theorem igoes_weaken {p n : Nat} {fs : List (L × List (BItm α A R L))} : IGoes lang m t ⟨p, fs, n, true⟩ ⟨p, fs, n, false⟩ :=
  fun B c h1 h2 => ⟨B, c, h1, fun e he => ⟨(h2 e he).1, fun h => by cases h⟩, .refl _⟩

/-- A token that is left out. -/
theorem i_skip {p n : Nat} {l : L} {is : List (BItm α A R L)} {fs : List (L × List (BItm α A R L))} {o : Bool} {tok : Tok α L A ρ} {ps' : PS ρ}
    (h : parseNext lang.noAct (lang.ld l) t (.at p false) = some (tok, ps')) (hp : tok.pos = p) (ht : tok.text ≠ []) (hg : tok.tgt = none)
    (he : lang.expand tok = [])
    (hf : parseNext lang.noAct (lang.ld l) t ps' = parseNext lang.noAct (lang.ld l) t (.at (p + tok.text.length) false)) :
    IGoes lang m t ⟨p, (l, is) :: fs, n, o⟩ ⟨p + tok.text.length, (l, is) :: fs, n, true⟩ := by
  intro B c h1 h2
  have hl := frs_cur h1
  subst hl hp
  have := List.length_pos_iff.2 ht
  exact ⟨B, c, h1, cok_later h2 (by simp only; omega), fgoes_skip h ht hg he hf⟩

/-- A token. -/
theorem i_tok {p n : Nat} {l : L} {is : List (BItm α A R L)} {fs : List (L × List (BItm α A R L))} {o : Bool} {tok : Tok α L A ρ} {ps' : PS ρ} {a : A}
    (h : parseNext lang.noAct (lang.ld l) t (.at p false) = some (tok, ps')) (hp : tok.pos = p) (ht : tok.text ≠ []) (hg : tok.tgt = none)
    (he : lang.expand tok = [⟨tok.pos, tok.text, a⟩])
    (hf : parseNext lang.noAct (lang.ld l) t ps' = parseNext lang.noAct (lang.ld l) t (.at (p + tok.text.length) false)) :
    IGoes lang m t ⟨p, (l, is) :: fs, n, o⟩ ⟨p + tok.text.length, (l, is ++ [.tok tok.text a]) :: fs, 0, true⟩ := by
  intro B c h1 h2
  have hl := frs_cur h1
  subst hl hp
  have := List.length_pos_iff.2 ht
  exact ⟨_, c, frs_putToks m B [⟨tok.pos, tok.text, a⟩] h1, cok_later h2 (by simp only; omega), fgoes_tok h ht hg he hf⟩

/-- A match with a target. -/
theorem i_target {p n : Nat} {l : L} {is : List (BItm α A R L)} {fs : List (L × List (BItm α A R L))} {o : Bool} {tok : Tok α L A ρ} {ps' : PS ρ}
    {tg : Target L} (h : parseNext lang.noAct (lang.ld l) t (.at p false) = some (tok, ps')) (hp : tok.pos = p) (ht : tok.text ≠ [])
    (hg : tok.tgt = some tg) (he : lang.expand tok ≠ []) (hpop : tg.pop ≤ fs.length)
    (hc : (tg.push.getLast?.map lang.consume).getD false = false) :
    IGoes lang m t ⟨p, (l, is) :: fs, n, o⟩
      ⟨p + tok.text.length, tg.push.reverse.map (fun l => (l, [])) ++ closeN m tg.pop ((l, is ++ toks (lang.expand tok)) :: fs), tg.push.length, true⟩ := by
  intro B c h1 h2
  have hl := frs_cur h1
  have hs := frs_stack h1
  subst hl hp
  exact ⟨_, [], by rw [frs_target, frs_putToks m B _ h1], cok_nil _,
    fgoes_target h ht hg he (by simp only [List.length_cons] at hs; omega) hc⟩

/-- A token with a target that enters lexicons, the last of which wants the token. -/
theorem fgoes_consume {p n : Nat} {B : BState α L A} {c : List (Nat × Nat × Nat)} {tok : Tok α L A ρ} {ps' : PS ρ} {ls : List L} {a : A}
    (h : parseNext lang.noAct (lang.ld B.cur.lex) t (.at p false) = some (tok, ps')) (ht : tok.text ≠ []) (hg : tok.tgt = some ⟨0, ls⟩)
    (he : lang.expand tok = [⟨tok.pos, tok.text, a⟩]) (hc : (ls.getLast?.map lang.consume).getD false = true) :
    FGoes lang t ⟨p, B, n, c⟩ ⟨tok.pos + tok.text.length, (B.target (some ⟨0, ls⟩)).addTok tok.pos tok.text a, 0, []⟩ := by
  intro s b hat
  obtain ⟨h1, h2, h3, h4, h5⟩ := hat
  have hcl := clamp_same (b := B) (tg := ⟨0, ls⟩) (Nat.zero_le _)
  have hstep : lexStep lang t s = some (⟨(⟨0, ls⟩ : Target L).apply B.stack, (s.fac.add ⟨0, ls⟩).get.2, [],
      .at (tok.pos + tok.text.length) false⟩, [⟨(s.fac.add ⟨0, ls⟩).get.1, [⟨tok.pos, tok.text, a⟩]⟩]) := by
    unfold lexStep
    rw [h1]
    simp only [BState.stack] at hcl ⊢
    simp only at h2
    rw [h2, h]
    simp only [hg, ne_eq, ht, not_false_eq_true, if_true, hcl, hc, emit, he]
  refine ⟨1, _, by rw [lexRun_one hstep], ?_⟩
  rw [lexRun_one hstep]
  have hs := (target_stack (b := B) (tg := ⟨0, ls⟩) (Nat.zero_le _))
  refine ⟨hs.symm, rfl, rfl, ?_, by rw [get_snd]; rfl⟩
  simp only [List.foldl_cons, List.foldl_nil]
  rw [get_snd, init_get]
  simp only at h4
  simp only [BState.event, BState.target, BState.addTok]
  have := add_push_get s.fac ls b
  rw [h4] at this
  simp only [BState.target] at this
  rw [this]
  rfl

theorem i_consume {p n : Nat} {l : L} {fs : List (L × List (BItm α A R L))} {is : List (BItm α A R L)} {o : Bool} {tok : Tok α L A ρ} {ps' : PS ρ}
    {ls : List L} {l' : L} {a : A} (h : parseNext lang.noAct (lang.ld l) t (.at p false) = some (tok, ps')) (hp : tok.pos = p) (ht : tok.text ≠ [])
    (hg : tok.tgt = some ⟨0, ls ++ [l']⟩) (he : lang.expand tok = [⟨tok.pos, tok.text, a⟩]) (hc : lang.consume l' = true) :
    IGoes lang m t ⟨p, (l, is) :: fs, n, o⟩
      ⟨p + tok.text.length, (l', [.tok tok.text a]) :: (ls.reverse.map (fun l => (l, [])) ++ (l, is) :: fs), 0, true⟩ := by
  intro B c h1 h2
  have hl := frs_cur h1
  subst hl hp
  refine ⟨_, [], ?_, cok_nil _, fgoes_consume h ht hg he (by simp [hc])⟩
  have h3 : frs m (B.target (some ⟨0, ls ++ [l']⟩)) = (l', []) :: (ls.reverse.map (fun l => (l, [])) ++ (B.cur.lex, is) :: fs) := by
    rw [frs_target]
    simp only [List.reverse_append, List.reverse_cons, List.reverse_nil, List.nil_append, List.cons_append, List.map_cons, closeN, h1]
  exact frs_putToks m _ [⟨tok.pos, tok.text, a⟩] h3

/-- A default target that enters a lexicon. -/
theorem i_push {p n : Nat} {l l' : L} {is : List (BItm α A R L)} {fs : List (L × List (BItm α A R L))} {tok : Tok α L A ρ} {ps' : PS ρ}
    (h : parseNext lang.noAct (lang.ld l) t (.at p false) = some (tok, ps')) (ht : tok.text = []) (hg : tok.tgt = some ⟨0, [l']⟩) (hp : tok.pos = p) :
    IGoes lang m t ⟨p, (l, is) :: fs, n, true⟩ ⟨p, (l', []) :: (l, is) :: fs, n + 1, true⟩ := by
  intro B c h1 h2
  have hl := frs_cur h1
  have hs := (frs_stack h1).1
  subst hl
  have hn : (p, B.stack.length, ([l'] : List L).length) ∉ c := by
    intro hm
    have := (h2 _ hm).2 rfl rfl
    simp only at this hs
    omega
  refine ⟨_, _, ?_, ?_, fgoes_push h ht hg hp hn⟩
  · rw [frs_target, h1]; rfl
  · intro e he
    simp only [List.mem_cons, List.length_cons] at he ⊢
    rcases he with rfl | he
    · refine ⟨Nat.le_refl _, fun _ _ => ?_⟩
      simp only [List.length_cons] at hs
      simp only
      omega
    · have h3 := h2 _ he
      exact ⟨h3.1, fun _ h4 => by have := h3.2 rfl h4; simp only [List.length_cons] at this; omega⟩

omit [DecidableEq α] in
theorem cok_pop {p n : Nat} {fs : List (L × List (BItm α A R L))} {e : Nat × Nat × Nat} {c : List (Nat × Nat × Nat)} (he : e.1 ≤ p)
    (h : ∀ x ∈ c, x.1 ≤ p) : COk ⟨p, fs, n, false⟩ (circNext e c) := by
  intro x hx
  refine ⟨?_, fun h => by cases h⟩
  unfold circNext at hx
  split at hx
  · cases hx
  · simp only [List.mem_cons] at hx
    rcases hx with rfl | hx
    · exact he
    · exact h x hx

/-- A default target that leaves a context. -/
theorem i_pop {p : Nat} {l : L} {is : List (BItm α A R L)} {f : L × List (BItm α A R L)} {fs : List (L × List (BItm α A R L))} {o : Bool}
    {tok : Tok α L A ρ} {ps' : PS ρ}
    (h : parseNext lang.noAct (lang.ld l) t (.at p false) = some (tok, ps')) (ht : tok.text = []) (hg : tok.tgt = some ⟨1, []⟩) (hp : tok.pos = p) :
    IGoes lang m t ⟨p, (l, is) :: f :: fs, 0, o⟩ ⟨p, (f.1, f.2 ++ done m l is) :: fs, 0, false⟩ := by
  intro B c h1 h2
  have hl := frs_cur h1
  have hs := (frs_stack h1).2
  subst hl
  simp only [List.length_cons] at hs
  exact ⟨_, _, by rw [frs_leave, h1]; rfl, cok_pop (Nat.le_refl _) (fun x hx => (h2 x hx).1), fgoes_pop h ht hg hp (by omega)⟩

/-- A default target that leaves a context that is in the pending target. -/
theorem i_pop_fresh {p n : Nat} {l : L} {is : List (BItm α A R L)} {f : L × List (BItm α A R L)} {fs : List (L × List (BItm α A R L))} {o : Bool}
    {tok : Tok α L A ρ} {ps' : PS ρ}
    (h : parseNext lang.noAct (lang.ld l) t (.at p false) = some (tok, ps')) (ht : tok.text = []) (hg : tok.tgt = some ⟨1, []⟩) (hp : tok.pos = p) :
    IGoes lang m t ⟨p, (l, is) :: f :: fs, n + 1, o⟩ ⟨p, f :: fs, n, false⟩ := by
  intro B c h1 h2
  have hl := frs_cur h1
  obtain ⟨⟨l', ks⟩, up⟩ := B
  simp only at hl
  subst hl
  cases up with
  | nil =>
    have := (frs_stack h1).2
    simp only [List.length_nil, List.length_cons] at this
    omega
  | cons f' up =>
    refine ⟨⟨f', up⟩, _, ?_, cok_pop (e := (p, up.length + 1, 0)) (Nat.le_refl _) (fun x hx => (h2 x hx).1), fgoes_pop_fresh h ht hg hp⟩
    simp only [frs, BState.frames, List.map_cons, List.cons.injEq] at h1 ⊢
    exact h1.2

/-- Text that is not parsed. -/
theorem i_gap {p q n : Nat} {l : L} {is : List (BItm α A R L)} {fs : List (L × List (BItm α A R L))} {o : Bool}
    (h : parseNext lang.noAct (lang.ld l) t (.at p false) = parseNext lang.noAct (lang.ld l) t (.at q false)) (hq : p < q) :
    IGoes lang m t ⟨p, (l, is) :: fs, n, o⟩ ⟨q, (l, is) :: fs, n, true⟩ := by
  intro B c h1 h2
  have hl := frs_cur h1
  subst hl
  refine ⟨B, c, h1, cok_later h2 hq, ?_⟩
  rintro s b ⟨a1, a2, a3, a4, a5⟩
  exact ⟨0, s, rfl, a1, a2.trans h, a3, a4, a5⟩

end Parce

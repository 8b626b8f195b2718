import Verif.Lemmas.Re
import Verif.Lemmas.Build
/-!
# Steps of the lexer together with the tree that is built

`Goes lang t a b`: from the situation `a` the lexer comes to `b`. A situation is a position, and the
tree built so far, with the next target already applied.
-/
namespace Parce
variable {α L A ρ : Type}

/-- A position in the text, and the tree; `ok`: no default target was just followed. -/
structure Sit (α L A : Type) where
  pos : Nat
  tree : BState α L A
  ok : Bool

/-- The lexicons of the open contexts. -/
def BState.stack (b : BState α L A) : List L := b.cur.lex :: b.up.map (·.lex)

/-- The state of the lexer and of the builder are in a situation. -/
structure At [DecidableEq α] (lang : Lang α L A ρ) (t : List α) (x : Sit α L A) (s : LState L ρ) (b : BState α L A) : Prop where
  stack : s.stack = x.tree.stack
  parse : parseNext lang.noAct (lang.ld x.tree.cur.lex) t s.ps = parseNext lang.noAct (lang.ld x.tree.cur.lex) t (.at x.pos false)
  circ : ∀ c ∈ s.circ, c.1 ≤ x.pos ∧ (x.ok = true → c.1 < x.pos)
  tree : b.target s.fac.get.1 = x.tree

def Goes [DecidableEq α] (lang : Lang α L A ρ) (t : List α) (x y : Sit α L A) : Prop :=
  ∀ s b, At lang t x s b → ∃ k s', (lexRun lang t k s).2 = some s' ∧ At lang t y s' ((lexRun lang t k s).1.foldl BState.event b)

variable [DecidableEq α] {lang : Lang α L A ρ} {t : List α}

theorem Goes.refl (x : Sit α L A) : Goes lang t x x := fun s b h => ⟨0, s, rfl, h⟩

theorem Goes.trans {x y z : Sit α L A} (h1 : Goes lang t x y) (h2 : Goes lang t y z) : Goes lang t x z := by
  intro s b h
  obtain ⟨k, s', h3, h4⟩ := h1 s b h
  obtain ⟨k', s'', h5, h6⟩ := h2 s' _ h4
  refine ⟨k + k', s'', ?_, ?_⟩
  · rw [lexRun_add lang t k k' s s' h3]; exact h5
  · rw [lexRun_add lang t k k' s s' h3, List.foldl_append]; exact h6

theorem lexRun_one {s s' : LState L ρ} {ev : List (Event α L A)} (h : lexStep lang t s = some (s', ev)) :
    lexRun lang t 1 s = (ev, some s') := by
  simp [lexRun, h]

/-- Add a token to the current context. -/
def BState.addTok (b : BState α L A) (p : Nat) (w : List α) (a : A) : BState α L A :=
  { b with cur := { b.cur with kids := b.cur.kids ++ [.tok ⟨p, w, a, none⟩] } }

theorem init_get : (Factory.init : Factory L).get.1 = none := rfl

theorem get_snd (f : Factory L) : f.get.2 = Factory.init := by
  unfold Factory.get
  split
  · rfl
  · next h =>
    cases f
    simp only [not_or, ne_eq, Decidable.not_not] at h
    simp_all [Factory.init]

theorem init_add_get (tg : Target L) (b : BState α L A) : b.target (Factory.init.add tg).get.1 = b.target (some tg) := by
  obtain ⟨pop, push⟩ := tg
  unfold Factory.add Factory.init Factory.get
  by_cases h : pop = 0
  · subst h
    simp only [if_true, List.nil_append]
    by_cases h2 : push = []
    · subst h2; rfl
    · simp [h2]
  · have : ¬ pop ≤ 0 := by omega
    simp [h, this]

theorem foldl_enter_append (b : BState α L A) (ls ls' : List L) :
    (ls ++ ls').foldl BState.enter b = ls'.foldl BState.enter (ls.foldl BState.enter b) := by
  rw [List.foldl_append]

theorem add_push_get (fac : Factory L) (ls : List L) (b : BState α L A) :
    b.target (fac.add ⟨0, ls⟩).get.1 = (b.target fac.get.1).target (some ⟨0, ls⟩) := by
  obtain ⟨fp, fs⟩ := fac
  unfold Factory.add Factory.get
  simp only [if_true]
  by_cases h : fp ≠ 0 ∨ fs ≠ []
  · rw [if_pos h, if_pos (by rcases h with h | h; exact Or.inl h; exact Or.inr (by simp [h]))]
    simp [BState.target, BState.leaves]
  · rw [if_neg h]
    simp only [not_or, ne_eq, Decidable.not_not] at h
    obtain ⟨rfl, rfl⟩ := h
    by_cases h2 : ls = []
    · subst h2; rfl
    · simp [h2, BState.target, BState.leaves]

/-- A token with text, without a target. -/
theorem goes_tok {p : Nat} {B : BState α L A} {o : Bool} {tok : Tok α L A ρ} {ps' : PS ρ} {a : A}
    (h : parseNext lang.noAct (lang.ld B.cur.lex) t (.at p false) = some (tok, ps')) (ht : tok.text ≠ []) (hg : tok.tgt = none)
    (he : lang.expand tok = [⟨tok.pos, tok.text, a⟩]) (hp : p ≤ tok.pos)
    (hf : parseNext lang.noAct (lang.ld B.cur.lex) t ps' =
      parseNext lang.noAct (lang.ld B.cur.lex) t (.at (tok.pos + tok.text.length) false)) :
    Goes lang t ⟨p, B, o⟩ ⟨tok.pos + tok.text.length, B.addTok tok.pos tok.text a, true⟩ := by
  intro s b hat
  obtain ⟨h1, h2, h3, h4⟩ := hat
  have hl : 0 < tok.text.length := List.length_pos_iff.2 ht
  have hstep : lexStep lang t s = some ({ s with fac := s.fac.get.2, ps := ps' }, [⟨s.fac.get.1, [⟨tok.pos, tok.text, a⟩]⟩]) := by
    unfold lexStep
    rw [h1]
    simp only [BState.stack]
    simp only at h2
    rw [h2, h]
    simp [hg, ht, emit, he]
  refine ⟨1, _, by rw [lexRun_one hstep], ?_⟩
  rw [lexRun_one hstep]
  refine ⟨h1, hf, fun c hc => ?_, ?_⟩
  · have := (h3 c hc).1
    simp only at this ⊢
    exact ⟨by omega, fun _ => by omega⟩
  · simp only [get_snd, init_get, List.foldl_cons, List.foldl_nil, BState.event, BState.addTok]
    simp only at h4
    rw [h4]
    rfl

/-- A token with text that is left out, without a target. -/
theorem goes_skip {p : Nat} {B : BState α L A} {o : Bool} {tok : Tok α L A ρ} {ps' : PS ρ}
    (h : parseNext lang.noAct (lang.ld B.cur.lex) t (.at p false) = some (tok, ps')) (ht : tok.text ≠ []) (hg : tok.tgt = none)
    (he : lang.expand tok = []) (hp : p ≤ tok.pos)
    (hf : parseNext lang.noAct (lang.ld B.cur.lex) t ps' =
      parseNext lang.noAct (lang.ld B.cur.lex) t (.at (tok.pos + tok.text.length) false)) :
    Goes lang t ⟨p, B, o⟩ ⟨tok.pos + tok.text.length, B, true⟩ := by
  intro s b hat
  obtain ⟨h1, h2, h3, h4⟩ := hat
  have hl : 0 < tok.text.length := List.length_pos_iff.2 ht
  have hstep : lexStep lang t s = some ({ s with ps := ps' }, []) := by
    unfold lexStep
    rw [h1]
    simp only [BState.stack]
    simp only at h2
    rw [h2, h]
    simp [hg, ht, emit, he]
  refine ⟨1, _, by rw [lexRun_one hstep], ?_⟩
  rw [lexRun_one hstep]
  refine ⟨h1, hf, fun c hc => ?_, h4⟩
  have := (h3 c hc).1
  simp only at this ⊢
  exact ⟨by omega, fun _ => by omega⟩

theorem leaves_stack (n : Nat) : ∀ (b : BState α L A), n ≤ b.up.length → (b.leaves n).stack = b.stack.drop n := by
  induction n with
  | zero => intro b _; rfl
  | succ n ih =>
    intro b h
    obtain ⟨c, up⟩ := b
    cases up with
    | nil => simp at h
    | cons f fs =>
      simp only [List.length_cons] at h
      simp only [BState.leaves, BState.leave]
      rw [ih _ (by simp only; omega)]
      rfl

theorem enters_stack (ls : List L) : ∀ (b : BState α L A), (ls.foldl BState.enter b).stack = ls.reverse ++ b.stack := by
  induction ls with
  | nil => intro b; rfl
  | cons l ls ih =>
    intro b
    simp only [List.foldl_cons, List.reverse_cons, List.append_assoc, ih]
    rfl

theorem target_stack {b : BState α L A} {tg : Target L} (h : tg.pop ≤ b.up.length) : (b.target (some tg)).stack = tg.apply b.stack := by
  simp only [BState.target, enters_stack, leaves_stack _ _ h, Target.apply]

theorem stack_length (b : BState α L A) : b.stack.length = b.up.length + 1 := by simp [BState.stack]

theorem clamp_same {b : BState α L A} {tg : Target L} (h : tg.pop ≤ b.up.length) : clampPop b.stack tg = tg := by
  unfold clampPop
  rw [if_neg]
  rw [stack_length]; omega

/-- A token with text and a target. -/
theorem goes_target {p : Nat} {B : BState α L A} {o : Bool} {tok : Tok α L A ρ} {ps' : PS ρ} {tg : Target L} {a : A}
    (h : parseNext lang.noAct (lang.ld B.cur.lex) t (.at p false) = some (tok, ps')) (ht : tok.text ≠ []) (hg : tok.tgt = some tg)
    (he : lang.expand tok = [⟨tok.pos, tok.text, a⟩]) (hpop : tg.pop ≤ B.up.length)
    (hc : (tg.push.getLast?.map lang.consume).getD false = false) :
    Goes lang t ⟨p, B, o⟩ ⟨tok.pos + tok.text.length, (B.addTok tok.pos tok.text a).target (some tg), true⟩ := by
  intro s b hat
  obtain ⟨h1, h2, h3, h4⟩ := hat
  have hstep : lexStep lang t s = some (⟨tg.apply B.stack, Factory.init.add tg, [], .at (tok.pos + tok.text.length) false⟩,
      [⟨s.fac.get.1, [⟨tok.pos, tok.text, a⟩]⟩]) := by
    unfold lexStep
    rw [h1]
    have hcl := clamp_same hpop
    simp only [BState.stack] at hcl ⊢
    simp only at h2
    rw [h2, h]
    simp only [hg, ne_eq, ht, not_false_eq_true, if_true, hcl, hc, Bool.false_eq_true, if_false, emit, he, get_snd]
  refine ⟨1, _, by rw [lexRun_one hstep], ?_⟩
  rw [lexRun_one hstep]
  refine ⟨(target_stack (b := B.addTok tok.pos tok.text a) hpop).symm, rfl, fun c hc => (by simp at hc), ?_⟩
  simp only [List.foldl_cons, List.foldl_nil]
  rw [init_add_get]
  congr 1
  simp only [BState.event]
  simp only at h4
  rw [h4]
  rfl

/-- A default target that enters lexicons. -/
theorem goes_default {p : Nat} {B : BState α L A} {tok : Tok α L A ρ} {ps' : PS ρ} {ls : List L}
    (h : parseNext lang.noAct (lang.ld B.cur.lex) t (.at p false) = some (tok, ps')) (ht : tok.text = []) (hg : tok.tgt = some ⟨0, ls⟩)
    (hp : tok.pos = p) :
    Goes lang t ⟨p, B, true⟩ ⟨p, B.target (some ⟨0, ls⟩), false⟩ := by
  intro s b hat
  obtain ⟨h1, h2, h3, h4⟩ := hat
  have hcl := clamp_same (b := B) (tg := ⟨0, ls⟩) (Nat.zero_le _)
  have hn : (tok.pos, B.stack.length - 0, ls.length) ∉ s.circ := by
    intro hm
    have := (h3 _ hm).2 rfl
    simp only at this
    omega
  have hstep : lexStep lang t s = some (⟨(⟨0, ls⟩ : Target L).apply B.stack, s.fac.add ⟨0, ls⟩,
      (tok.pos, B.stack.length - 0, ls.length) :: s.circ, .at tok.pos false⟩, []) := by
    unfold lexStep
    rw [h1]
    simp only [BState.stack] at hcl hn ⊢
    simp only at h2
    rw [h2, h]
    simp only [hg, ht, ne_eq, not_true_eq_false, if_false, hcl]
    rw [if_neg hn]
  refine ⟨1, _, by rw [lexRun_one hstep], ?_⟩
  rw [lexRun_one hstep]
  refine ⟨(target_stack (b := B) (tg := ⟨0, ls⟩) (Nat.zero_le _)).symm, by rw [hp], fun c hc => ⟨?_, fun hh => by cases hh⟩, ?_⟩
  · simp only [List.mem_cons] at hc
    rcases hc with rfl | hc
    · simp only; omega
    · exact (h3 c hc).1
  · simp only [List.foldl_nil]
    rw [add_push_get, h4]

/-! ### Compiled lexicons -/

/-- The search of a compiled lexicon: the first match. -/
theorem search_first {pats : List (Pat α)} {p q : Nat} {m : Mtch RM} (hpq : p ≤ q)
    (hn : ∀ i, p ≤ i → i < q → ¬ Starts pats t i) (hm : rxMatch pats t q = some m) : rxSearch pats t p false = some m := by
  simp only [rxSearch, Bool.false_eq_true, if_false]
  have hq := rxMatch_some hm
  obtain ⟨d, rfl⟩ : ∃ d, q = p + d := ⟨q - p, by omega⟩
  clear hpq
  have hq : p + d ≤ t.length := by omega
  induction d generalizing p with
  | zero => exact rxScan_start hm
  | succ d ih =>
    rw [show t.length + 1 - p = (t.length + 1 - (p + 1)) + 1 by omega, rxScan]
    have : rxMatch pats t p = none := (rxMatch_none (by omega)).2 (hn p (by omega) (by omega))
    rw [this]
    refine ih (p := p + 1) (fun i h1 h2 => hn i (by omega) (by omega)) ?_ ?_ (by omega)
    · rw [← hm]; congr 1; omega
    · have := rxMatch_some hm
      obtain ⟨h1, h2, h3⟩ := this
      exact ⟨by omega, by omega, h3⟩

/-- Starting over where the match begins. -/
theorem search_here {pats : List (Pat α)} {q : Nat} {m : Mtch RM} (hm : rxMatch pats t q = some m) : rxSearch pats t q false = some m :=
  search_first (Nat.le_refl _) (fun i h1 h2 => by omega) hm

omit [DecidableEq α] in
theorem slice_here {p : Nat} {w post : List α} (h : t.drop p = w ++ post) : slice t p (p + w.length) = w := by
  unfold slice
  rw [List.drop_take, h, Nat.add_sub_cancel_left, List.take_left]

omit [DecidableEq α] in
theorem drop_le {p : Nat} {w post : List α} (h : t.drop p = w ++ post) (hw : w ≠ []) : p + w.length ≤ t.length := by
  have := congrArg List.length h
  simp only [List.length_drop, List.length_append] at this
  have := List.length_pos_iff.2 hw
  omega

omit [DecidableEq α] in
theorem drop_add {p : Nat} {w post : List α} (h : t.drop p = w ++ post) : t.drop (p + w.length) = post := by
  rw [← List.drop_drop, h, List.drop_left]

omit [DecidableEq α] in
theorem drop_get {p : Nat} {c : α} {post : List α} (h : t.drop p = c :: post) : t[p]? = some c := by
  have := congrArg (fun x => x[0]?) h
  simpa using this

omit [DecidableEq α] in
theorem drop_head {p : Nat} {w : List α} (h : t.drop p = w) : t[p]? = w.head? := by
  rw [← h, List.head?_drop]

variable {noAct : A} {skip : A → Bool} {consume : L → Bool} {rules : L → List (PRule α L A)} {d : L → Dflt α L A}

/-- The facts about the match of a rule at `q`, found from `p`. -/
structure Hit (t : List α) (rules : List (PRule α L A)) (d : Dflt α L A) (p q : Nat) (w : List α) (a : A) (tg : Option (Target L)) :
    Prop where
  le : p ≤ q
  text : ∃ post, t.drop q = w ++ post
  ne : w ≠ []
  before : q ≠ p → d = .skip ∧ ∀ i, p ≤ i → i < q → ¬ Starts (rules.map (·.pat)) t i
  hit : ∃ i c r, rxMatch (rules.map (·.pat)) t q = some ⟨q, q + w.length, ⟨i, c⟩⟩ ∧ rules[i]? = some r ∧ ∀ gs, r.out w gs = (a, tg)

omit [DecidableEq α] in
theorem compile_cons (noAct : A) (rules : List (PRule α L A)) (d : Dflt α L A) (h : rules ≠ []) :
    compile noAct rules d = .regex (rxSearch (rules.map (·.pat))) (rxMatch (rules.map (·.pat))) (ruleOut noAct rules) d := by
  cases rules with
  | nil => exact absurd rfl h
  | cons r rs => rfl

theorem hit_parse {rs : List (PRule α L A)} {dl : Dflt α L A} {p q : Nat} {w : List α} {a : A} {tg : Option (Target L)}
    (h : Hit t rs dl p q w a tg) : ∃ m, parseNext noAct (compile noAct rs dl) t (.at p false) =
      some (⟨q, w, m, a, tg⟩, .at (q + w.length) false) := by
  obtain ⟨h1, ⟨post, h2⟩, h3, h4, i, c, r, h5, h6, h7⟩ := h
  have hne : rs ≠ [] := by rintro rfl; cases h6
  rw [compile_cons _ _ _ hne]
  have hl : 0 < w.length := List.length_pos_iff.2 h3
  have htok : matchTok (ruleOut noAct rs) t ⟨q, q + w.length, ⟨i, c⟩⟩ =
      (⟨q, w, some ⟨q, q + w.length, ⟨i, c⟩⟩, a, tg⟩, .at (q + w.length) false) := by
    have hb : (q == q + w.length) = false := by simp; omega
    simp only [matchTok, ruleOut, h6, slice_here h2, h7, hb]
  refine ⟨some ⟨q, q + w.length, ⟨i, c⟩⟩, ?_⟩
  by_cases hq : q = p
  · subst hq
    cases dl with
    | target _ => simp only [parseNext, h5, htok]
    | action f => simp only [parseNext, search_here h5, htok, gt_iff_lt, Nat.lt_irrefl, if_false]
    | skip => simp only [parseNext, search_here h5, htok]
  · obtain ⟨h8, h9⟩ := h4 hq
    subst h8
    simp only [parseNext, search_first h1 h9 h5, htok]

theorem goes_hit {p q : Nat} {w : List α} {a : A} {B : BState α L A} {o : Bool}
    (h : Hit t (rules B.cur.lex) (d B.cur.lex) p q w a none) (ha : skip a = false) :
    Goes (patLang noAct skip consume rules d) t ⟨p, B, o⟩ ⟨q + w.length, B.addTok q w a, true⟩ := by
  obtain ⟨m, hm⟩ := hit_parse (noAct := noAct) h
  exact goes_tok (lang := patLang noAct skip consume rules d) hm h.ne rfl (by simp [patLang, ha]) h.le rfl

theorem goes_hit_skip {p q : Nat} {w : List α} {a : A} {B : BState α L A} {o : Bool}
    (h : Hit t (rules B.cur.lex) (d B.cur.lex) p q w a none) (ha : skip a = true) :
    Goes (patLang noAct skip consume rules d) t ⟨p, B, o⟩ ⟨q + w.length, B, true⟩ := by
  obtain ⟨m, hm⟩ := hit_parse (noAct := noAct) h
  exact goes_skip (lang := patLang noAct skip consume rules d) hm h.ne rfl (by simp [patLang, ha]) h.le rfl

theorem goes_hit_target {p q : Nat} {w : List α} {a : A} {B : BState α L A} {o : Bool} {tg : Target L}
    (h : Hit t (rules B.cur.lex) (d B.cur.lex) p q w a (some tg)) (ha : skip a = false) (hpop : tg.pop ≤ B.up.length)
    (hc : (tg.push.getLast?.map consume).getD false = false) :
    Goes (patLang noAct skip consume rules d) t ⟨p, B, o⟩ ⟨q + w.length, (B.addTok q w a).target (some tg), true⟩ := by
  obtain ⟨m, hm⟩ := hit_parse (noAct := noAct) h
  exact goes_target (lang := patLang noAct skip consume rules d) hm h.ne rfl (by simp [patLang, ha]) hpop hc

/-- The text before the next match, with the default action. -/
theorem goes_gap {p : Nat} {w post : List α} {f : List α → A} {B : BState α L A} {o : Bool} {m : Mtch RM}
    (ht : t.drop p = w ++ post) (hw : w ≠ []) (hd : d B.cur.lex = .action f) (ha : skip (f w) = false)
    (hn : ∀ i, p ≤ i → i < p + w.length → ¬ Starts ((rules B.cur.lex).map (·.pat)) t i)
    (hm : rxMatch ((rules B.cur.lex).map (·.pat)) t (p + w.length) = some m) :
    Goes (patLang noAct skip consume rules d) t ⟨p, B, o⟩ ⟨p + w.length, B.addTok p w (f w), true⟩ := by
  have hne : rules B.cur.lex ≠ [] := by
    intro h; rw [h] at hm
    simp [rxMatch, allAt] at hm
  have hl : 0 < w.length := List.length_pos_iff.2 hw
  have hst := (rxMatch_some hm).1
  have hld : (patLang noAct skip consume rules d).ld B.cur.lex =
      .regex (rxSearch ((rules B.cur.lex).map (·.pat))) (rxMatch ((rules B.cur.lex).map (·.pat))) (ruleOut noAct (rules B.cur.lex))
        (.action f) := by
    show compile noAct _ _ = _
    rw [compile_cons _ _ _ hne, hd]
  refine goes_tok (lang := patLang noAct skip consume rules d) (tok := ⟨p, w, none, f w, none⟩) (ps' := .pend m) ?_ hw rfl
    (by simp [patLang, ha]) (Nat.le_refl _) ?_
  · rw [hld]
    simp only [parseNext, search_first (Nat.le_add_right _ _) hn hm, hst]
    rw [if_pos (by omega), slice_here ht]
  · rw [hld]
    simp only [parseNext, search_here hm, hst]
    rw [if_neg (by omega)]

/-- The default target. -/
theorem goes_to {p : Nat} {B : BState α L A} {ls : List L} (hd : d B.cur.lex = .target ⟨0, ls⟩)
    (hp : p < t.length) (hn : ¬ Starts ((rules B.cur.lex).map (·.pat)) t p) :
    Goes (patLang noAct skip consume rules d) t ⟨p, B, true⟩ ⟨p, B.target (some ⟨0, ls⟩), false⟩ := by
  refine goes_default (lang := patLang noAct skip consume rules d) (tok := ⟨p, [], none, noAct, some ⟨0, ls⟩⟩) (ps' := .stop) ?_ rfl rfl rfl
  show parseNext noAct (compile noAct _ _) _ _ = _
  cases hr : rules B.cur.lex with
  | nil => simp only [compile, hd, parseNext, tailTok, hp, if_true]
  | cons r rs =>
    rw [← hr, compile_cons _ _ _ (by rw [hr]; simp), hd]
    simp only [parseNext, (rxMatch_none (by omega)).2 hn, tailTok, hp, if_true]

/-- The end: nothing more is found. -/
theorem at_end {p : Nat} {B : BState α L A} {o : Bool} {s : LState L RM} {b : BState α L A}
    (h : At (patLang noAct skip consume rules d) t ⟨p, B, o⟩ s b) (hd : d B.cur.lex = .skip)
    (hn : ∀ i, p ≤ i → i ≤ t.length → ¬ Starts ((rules B.cur.lex).map (·.pat)) t i) (hr : rules B.cur.lex ≠ []) :
    lexStep (patLang noAct skip consume rules d) t s = none := by
  obtain ⟨h1, h2, _, _⟩ := h
  unfold lexStep
  rw [h1]
  simp only [BState.stack] at h2 ⊢
  rw [h2]
  have : (patLang noAct skip consume rules d).ld B.cur.lex = compile noAct (rules B.cur.lex) (d B.cur.lex) := rfl
  rw [this, compile_cons _ _ _ hr, hd]
  have hs : rxSearch ((rules B.cur.lex).map (·.pat)) t p false = none := by
    simp only [rxSearch, Bool.false_eq_true, if_false, rxScan_none]
    intro i h1 h2
    exact (rxMatch_none (by omega)).2 (hn i h1 (by omega))
  simp only [parseNext, hs]

end Parce

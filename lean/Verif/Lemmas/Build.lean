import Verif.Spec.Tree
import Verif.Lemmas.Lexer
/-!
# Lemmas about building trees
-/
namespace Parce
variable {α L A ρ : Type}

theorem stacksL_append (up : List L) (a b : List (Node α L A)) :
    stacksL up (a ++ b) = stacksL up a ++ stacksL up b := by
  induction a with
  | nil => simp [stacksL]
  | cons x xs ih => simp [stacksL, ih]

theorem toksL_append (a b : List (Node α L A)) : toksL (a ++ b) = toksL a ++ toksL b := by
  induction a with
  | nil => simp [toksL]
  | cons x xs ih => simp [toksL, ih]

theorem FullL_append (a b : List (Node α L A)) : FullL (a ++ b) ↔ FullL a ∧ FullL b := by
  induction a with
  | nil => simp [FullL]
  | cons x xs ih => simp [FullL, ih, and_assoc]

theorem ctxsL_append (a b : List (Node α L A)) : ctxsL (a ++ b) = ctxsL a ++ ctxsL b := by
  induction a with
  | nil => simp [ctxsL]
  | cons x xs ih => simp [ctxsL, ih]

theorem stacksL_toks (up : List L) (ts : List (TokN α A)) :
    stacksL up (ts.map Node.tok) = ts.map (fun t => (up, t)) := by
  induction ts with
  | nil => simp [stacksL]
  | cons x xs ih => simp [stacksL, Node.stacks, ih]

theorem toksL_toks (ts : List (TokN α A)) : toksL (ts.map (Node.tok (L := L))) = ts := by
  induction ts with
  | nil => simp [toksL]
  | cons x xs ih => simp [toksL, Node.toks, ih]

theorem FullL_toks (ts : List (TokN α A)) : FullL (ts.map (Node.tok (L := L))) := by
  induction ts with
  | nil => trivial
  | cons x xs ih => exact ⟨trivial, ih⟩

mutual
theorem stacks_toks : (n : Node α L A) → (up : List L) → (n.stacks up).map (·.2) = n.toks
  | .tok t, up => by simp [Node.stacks, Node.toks]
  | .ctx l cs, up => by simp only [Node.stacks, Node.toks]; exact stacksL_toks' cs _
theorem stacksL_toks' : (ns : List (Node α L A)) → (up : List L) → (stacksL up ns).map (·.2) = toksL ns
  | [], up => by simp [stacksL, toksL]
  | n :: ns, up => by simp [stacksL, toksL, stacks_toks n up, stacksL_toks' ns up]
end

theorem makeTokens_lexeme (lxs : List (Lexeme α A)) : (makeTokens lxs).map TokN.lexeme = lxs := by
  unfold makeTokens
  split
  · apply List.ext_getElem?
    intro i
    simp only [makeGroup, List.getElem?_map, List.getElem?_mapIdx]
    cases lxs[i]? <;> simp [TokN.lexeme]
  · match lxs with
    | [] => rfl
    | [l] => rfl
    | _ :: _ :: _ => simp at *

theorem makeTokens_length (lxs : List (Lexeme α A)) : (makeTokens lxs).length = lxs.length := by
  have := congrArg List.length (makeTokens_lexeme lxs)
  simpa using this

/-- The lexicons of the open contexts. -/
def BState.lexs (b : BState α L A) : List L := b.cur.lex :: b.up.map (·.lex)

/-- Tokens added so far with their lexicon stacks. -/
def doneUp : List (Frame α L A) → List (List L × TokN α A)
  | [] => []
  | f :: fs => doneUp fs ++ stacksL (f.lex :: fs.map (·.lex)) f.kids

def BState.done (b : BState α L A) : List (List L × TokN α A) := doneUp (b.cur :: b.up)

theorem leave_lexs (b : BState α L A) (h : 1 < b.lexs.length) :
    b.leave.lexs = b.lexs.drop 1 ∧ b.leave.done = b.done := by
  obtain ⟨cur, up⟩ := b
  cases up with
  | nil => simp [BState.lexs] at h
  | cons f fs =>
    refine ⟨rfl, ?_⟩
    simp [BState.leave, BState.done, doneUp, stacksL_append, stacksL, Node.stacks]

theorem leaves_lexs (n : Nat) (b : BState α L A) (h : n < b.lexs.length) :
    (b.leaves n).lexs = b.lexs.drop n ∧ (b.leaves n).done = b.done := by
  induction n generalizing b with
  | zero => exact ⟨rfl, rfl⟩
  | succ n ih =>
    obtain ⟨h1, h2⟩ := leave_lexs b (by omega)
    obtain ⟨h3, h4⟩ := ih b.leave (by rw [h1, List.length_drop]; omega)
    refine ⟨?_, ?_⟩
    · show (b.leave.leaves n).lexs = _
      rw [h3, h1, List.drop_drop, Nat.add_comm]
    · show (b.leave.leaves n).done = _
      rw [h4, h2]

theorem enters_lexs (ls : List L) (b : BState α L A) :
    (ls.foldl BState.enter b).lexs = ls.reverse ++ b.lexs ∧ (ls.foldl BState.enter b).done = b.done := by
  induction ls generalizing b with
  | nil => exact ⟨rfl, rfl⟩
  | cons l ls ih =>
    obtain ⟨h1, h2⟩ := ih (b.enter l)
    rw [List.foldl_cons]
    refine ⟨?_, ?_⟩
    · rw [h1]; simp [BState.enter, BState.lexs]
    · rw [h2]; simp [BState.enter, BState.done, doneUp, stacksL]

theorem target_lexs (tg : Option (Target L)) (b : BState α L A)
    (h : ∀ t, tg = some t → t.pop < b.lexs.length) :
    (b.target tg).lexs = applyOpt tg b.lexs ∧ (b.target tg).done = b.done := by
  cases tg with
  | none => exact ⟨rfl, rfl⟩
  | some t =>
    obtain ⟨h1, h2⟩ := leaves_lexs t.pop b (h t rfl)
    obtain ⟨h3, h4⟩ := enters_lexs t.push (b.leaves t.pop)
    refine ⟨?_, ?_⟩
    · show (t.push.foldl BState.enter (b.leaves t.pop)).lexs = _
      rw [h3, h1]; rfl
    · show (t.push.foldl BState.enter (b.leaves t.pop)).done = _
      rw [h4, h2]

theorem event_lexs (e : Event α L A) (b : BState α L A)
    (h : ∀ t, e.target = some t → t.pop < b.lexs.length) :
    (b.event e).lexs = applyOpt e.target b.lexs ∧
    (b.event e).done = b.done ++ (makeTokens e.lexemes).map (fun t => (applyOpt e.target b.lexs, t)) := by
  obtain ⟨h1, h2⟩ := target_lexs e.target b h
  refine ⟨by rw [← h1]; rfl, ?_⟩
  rw [← h1, ← h2]
  simp [BState.event, BState.done, doneUp, stacksL_append, stacksL_toks, BState.lexs]

theorem foldl_closeStacks (up : List (Frame α L A)) (n : Node α L A) :
    Node.stacks [] (up.foldl (fun n f => .ctx f.lex (f.kids ++ [n])) n) =
      doneUp up ++ n.stacks (up.map (·.lex)) := by
  induction up generalizing n with
  | nil => simp [doneUp]
  | cons f fs ih =>
    rw [List.foldl_cons, ih]
    simp [doneUp, Node.stacks, stacksL_append, stacksL]

theorem close_stacks (b : BState α L A) : Node.stacks [] b.close = b.done := by
  unfold BState.close
  rw [foldl_closeStacks]
  simp [BState.done, doneUp, Node.stacks]

theorem build_stacks (evs : List (Event α L A)) (b : BState α L A) (h : KeepsRoot b.lexs evs) :
    (evs.foldl BState.event b).done.map (fun q => (q.1, q.2.lexeme)) =
      b.done.map (fun q => (q.1, q.2.lexeme)) ++ eventStacks b.lexs evs := by
  induction evs generalizing b with
  | nil => simp [eventStacks]
  | cons e es ih =>
    obtain ⟨h1, h2⟩ := event_lexs e b h.1
    rw [List.foldl_cons, ih _ (by rw [h1]; exact h.2), h1, h2]
    simp only [eventStacks, List.map_append, List.map_map, List.append_assoc]
    congr 2
    have := congrArg (List.map (fun l => (applyOpt e.target b.lexs, l))) (makeTokens_lexeme e.lexemes)
    rw [List.map_map] at this
    exact this

/-! ### No empty contexts -/

/-- Children are full; the current context has children, unless it is the root. -/
structure BState.OK (b : BState α L A) : Prop where
  cur : FullL b.cur.kids
  up : ∀ f ∈ b.up, FullL f.kids
  ne : b.cur.kids ≠ [] ∨ b.up = []

theorem BState.OK.leave {b : BState α L A} (h : b.OK) : b.leave.OK := by
  obtain ⟨cur, up⟩ := b
  cases up with
  | nil => exact h
  | cons f fs =>
    obtain ⟨h1, h2, h3⟩ := h
    refine ⟨?_, fun g hg => h2 g (List.mem_cons_of_mem _ hg), Or.inl (by simp [BState.leave])⟩
    simp only [BState.leave, FullL_append]
    refine ⟨h2 f (List.mem_cons_self), ⟨?_, h1⟩, trivial⟩
    rcases h3 with h3 | h3
    · exact h3
    · simp at h3

theorem BState.OK.leaves {b : BState α L A} (n : Nat) (h : b.OK) : (b.leaves n).OK := by
  induction n generalizing b with
  | zero => exact h
  | succ n ih => exact ih h.leave

/-- Like `OK`, but the current context may be empty. -/
structure BState.OK' (b : BState α L A) : Prop where
  cur : FullL b.cur.kids
  up : ∀ f ∈ b.up, FullL f.kids

theorem BState.OK'.enters (ls : List L) {b : BState α L A} (h : b.OK') : (ls.foldl BState.enter b).OK' := by
  induction ls generalizing b with
  | nil => exact h
  | cons l ls ih =>
    refine ih ⟨trivial, ?_⟩
    intro f hf
    simp only [BState.enter, List.mem_cons] at hf
    rcases hf with rfl | hf
    · exact h.cur
    · exact h.up f hf

theorem BState.OK.event {b : BState α L A} (e : Event α L A) (he : e.lexemes ≠ []) (h : b.OK) : (b.event e).OK := by
  have h1 : (b.target e.target).OK' := by
    unfold BState.target
    split
    · exact ⟨h.cur, h.up⟩
    · exact BState.OK'.enters _ ⟨(h.leaves _).cur, (h.leaves _).up⟩
  refine ⟨?_, h1.up, Or.inl ?_⟩
  · simp only [BState.event, FullL_append]
    exact ⟨h1.cur, FullL_toks _⟩
  · simp only [BState.event, ne_eq, List.append_eq_nil_iff, List.map_eq_nil_iff, not_and]
    intro _ h2
    have := makeTokens_length e.lexemes
    rw [h2] at this
    exact he (List.eq_nil_of_length_eq_zero this.symm)

theorem BState.OK.events {evs : List (Event α L A)} (he : ∀ e ∈ evs, e.lexemes ≠ []) {b : BState α L A} (h : b.OK) :
    (evs.foldl BState.event b).OK := by
  induction evs generalizing b with
  | nil => exact h
  | cons e es ih =>
    exact ih (fun e' h' => he e' (List.mem_cons_of_mem _ h')) (h.event e (he e List.mem_cons_self))

theorem BState.OK.close {b : BState α L A} (h : b.OK) : FullL b.close.kids := by
  have key : ∀ (up : List (Frame α L A)) (n : Node α L A), (∀ f ∈ up, FullL f.kids) →
      FullL n.kids → (up ≠ [] → n.kids ≠ []) → n.isCtx = true →
      FullL (up.foldl (fun n f => .ctx f.lex (f.kids ++ [n])) n).kids := by
    intro up
    induction up with
    | nil => intro n _ h2 _ _; exact h2
    | cons f fs ih =>
      intro n h1 h2 h3 h4
      rw [List.foldl_cons]
      refine ih _ (fun g hg => h1 g (List.mem_cons_of_mem _ hg)) ?_ (by simp [Node.kids]) rfl
      simp only [Node.kids, FullL_append]
      refine ⟨h1 f List.mem_cons_self, ?_, trivial⟩
      cases n with
      | tok t => simp [Node.isCtx] at h4
      | ctx l cs => exact ⟨h3 (by simp), h2⟩
  unfold BState.close
  refine key b.up _ h.up h.cur ?_ rfl
  intro hne
  rcases h.ne with h1 | h1
  · exact h1
  · exact absurd h1 hne

theorem lexRun_lexemes_ne [DecidableEq α] (lang : Lang α L A ρ) (t : List α) (n : Nat) (s : LState L ρ) :
    ∀ e ∈ (lexRun lang t n s).1, e.lexemes ≠ [] := by
  have hem : ∀ (f : Factory L) (tok : Tok α L A ρ), ∀ e ∈ (emit lang f tok).2, e.lexemes ≠ [] := by
    intro f tok e he
    unfold emit at he
    split at he
    · simp at he
    · simp only [List.mem_singleton] at he
      subst he
      simp
  induction n generalizing s with
  | zero => simp [lexRun]
  | succ n ih =>
    intro e he
    simp only [lexRun] at he
    cases h : lexStep lang t s with
    | none => rw [h] at he; simp at he
    | some r =>
      rw [h] at he
      simp only [List.mem_append] at he
      rcases he with he | he
      · obtain ⟨s', ev⟩ := r
        obtain ⟨top, rest, tok, ps', hst, hpn, hc⟩ := lexStep_cases h
        rcases hc with ⟨_, hte, rfl, rfl⟩ | ⟨_, _, _, rfl⟩ | ⟨tg0, tg, _, _, hte, ⟨rfl, rfl⟩ | ⟨rfl, rfl⟩⟩ |
          ⟨tg0, tg, _, _, _, rfl, _⟩
        · exact hem _ _ e he
        · simp at he
        · exact hem _ _ e he
        · exact hem _ _ e he
        · simp at he
      · exact ih _ e he

/-! ### Every event's tokens stay together -/

/-- `ts` are consecutive children of some context, open or closed. -/
def HasRun (ts : List (TokN α A)) (lex : L) (b : BState α L A) : Prop :=
  (∃ f ∈ b.cur :: b.up, f.lex = lex ∧ ∃ pre post, f.kids = pre ++ ts.map Node.tok ++ post) ∨
  (∃ f ∈ b.cur :: b.up, ∃ c ∈ ctxsL f.kids, c.1 = lex ∧ ∃ pre post, c.2 = pre ++ ts.map Node.tok ++ post)

theorem HasRun.leave {ts : List (TokN α A)} {lex : L} {b : BState α L A} (h : HasRun ts lex b) :
    HasRun ts lex b.leave := by
  obtain ⟨cur, up⟩ := b
  cases up with
  | nil => exact h
  | cons f fs =>
    simp only [HasRun, BState.leave, List.mem_cons, exists_eq_or_imp, ctxsL_append, List.mem_append,
      ctxsL, Node.ctxs, List.append_nil] at h ⊢
    rcases h with (⟨h1, h2⟩ | ⟨h1, pre, post, h2⟩ | h) | (⟨c, h1, h2⟩ | ⟨c, h1, h2⟩ | h)
    · right; left; exact ⟨(cur.lex, cur.kids), Or.inr (Or.inl rfl), h1, h2⟩
    · left; left; exact ⟨h1, pre, post ++ [.ctx cur.lex cur.kids], by rw [h2]; simp⟩
    · left; right; exact h
    · right; left; exact ⟨c, Or.inr (Or.inr h1), h2⟩
    · right; left; exact ⟨c, Or.inl h1, h2⟩
    · right; right; exact h

theorem HasRun.leaves {ts : List (TokN α A)} {lex : L} (n : Nat) {b : BState α L A} (h : HasRun ts lex b) :
    HasRun ts lex (b.leaves n) := by
  induction n generalizing b with
  | zero => exact h
  | succ n ih => exact ih h.leave

theorem HasRun.enters {ts : List (TokN α A)} {lex : L} (ls : List L) {b : BState α L A} (h : HasRun ts lex b) :
    HasRun ts lex (ls.foldl BState.enter b) := by
  induction ls generalizing b with
  | nil => exact h
  | cons l ls ih =>
    refine ih ?_
    simp only [HasRun, BState.enter] at h ⊢
    rcases h with ⟨f, h1, h2⟩ | ⟨f, h1, h2⟩
    · exact Or.inl ⟨f, List.mem_cons_of_mem _ h1, h2⟩
    · exact Or.inr ⟨f, List.mem_cons_of_mem _ h1, h2⟩

theorem HasRun.target {ts : List (TokN α A)} {lex : L} (tg : Option (Target L)) {b : BState α L A}
    (h : HasRun ts lex b) : HasRun ts lex (b.target tg) := by
  unfold BState.target
  split
  · exact h
  · exact (h.leaves _).enters _

theorem HasRun.event {ts : List (TokN α A)} {lex : L} (e : Event α L A) {b : BState α L A}
    (h : HasRun ts lex b) : HasRun ts lex (b.event e) := by
  have h := h.target e.target
  generalize hb : b.target e.target = b' at h
  obtain ⟨cur, up⟩ := b'
  simp only [BState.event, hb]
  simp only [HasRun, List.mem_cons, exists_eq_or_imp, ctxsL_append, List.mem_append] at h ⊢
  rcases h with (⟨h1, pre, post, h2⟩ | h) | (⟨c, h1, h2⟩ | h)
  · left; left; exact ⟨h1, pre, post ++ (makeTokens e.lexemes).map .tok, by rw [h2]; simp⟩
  · left; right; exact h
  · right; left; exact ⟨c, Or.inl h1, h2⟩
  · right; right; exact h

theorem hasRun_new (e : Event α L A) (b : BState α L A) :
    HasRun (makeTokens e.lexemes) (b.event e).cur.lex (b.event e) :=
  Or.inl ⟨_, List.mem_cons_self, rfl, (b.target e.target).cur.kids, [], by simp [BState.event]⟩

theorem HasRun.events {ts : List (TokN α A)} {lex : L} (es : List (Event α L A)) {b : BState α L A}
    (h : HasRun ts lex b) : HasRun ts lex (es.foldl BState.event b) := by
  induction es generalizing b with
  | nil => exact h
  | cons e es ih => exact ih (h.event e)

theorem hasRun_leaveAll {ts : List (TokN α A)} {lex : L} (b : BState α L A) (h : HasRun ts lex b) :
    ∃ c ∈ b.close.ctxs, c.1 = lex ∧ ∃ pre post, c.2 = pre ++ ts.map Node.tok ++ post := by
  have hclose : ∀ b : BState α L A, b.leave.close = b.close := by
    intro b; obtain ⟨cur, up⟩ := b
    cases up with
    | nil => rfl
    | cons f fs => rfl
  obtain ⟨cur, up⟩ := b
  induction up generalizing cur with
  | nil =>
    simp only [HasRun, List.mem_singleton, exists_eq_left] at h
    simp only [BState.close, List.foldl_nil, Node.ctxs, List.mem_cons, exists_eq_or_imp]
    exact h
  | cons f fs ih =>
    exact ih ⟨f.lex, f.kids ++ [Node.ctx cur.lex cur.kids]⟩ h.leave

theorem events_runs (evs : List (Event α L A)) (b : BState α L A) :
    ∀ e ∈ evs, ∃ l, HasRun (makeTokens e.lexemes) l (evs.foldl BState.event b) := by
  induction evs generalizing b with
  | nil => simp
  | cons e es ih =>
    intro e' he'
    rcases List.mem_cons.1 he' with rfl | he'
    · exact ⟨_, (hasRun_new e' b).events es⟩
    · exact ih _ e' he'

/-! ### Pieces -/

theorem InPieces.snoc {cs : List (Node α L A)} (h : InPieces cs) (p : Piece α L A) : InPieces (cs ++ p.nodes) := by
  obtain ⟨ps, rfl⟩ := h
  exact ⟨ps ++ [p], by simp⟩

def BState.Pieces (b : BState α L A) : Prop :=
  ∀ f ∈ b.cur :: b.up, InPieces f.kids ∧ ∀ c ∈ ctxsL f.kids, InPieces c.2

theorem BState.Pieces.leave {b : BState α L A} (h : b.Pieces) : b.leave.Pieces := by
  obtain ⟨cur, up⟩ := b
  cases up with
  | nil => exact h
  | cons f fs =>
    have hc := h cur (by simp)
    have hf := h f (by simp)
    intro g hg
    simp only [BState.leave, List.mem_cons] at hg
    rcases hg with rfl | hg
    · refine ⟨hf.1.snoc (.context cur.lex cur.kids), ?_⟩
      intro c hc'
      simp only [ctxsL_append, ctxsL, Node.ctxs, List.mem_append, List.append_nil, List.mem_cons] at hc'
      rcases hc' with h1 | rfl | h1
      · exact hf.2 c h1
      · exact hc.1
      · exact hc.2 c h1
    · exact h g (by simp [hg])

theorem BState.Pieces.event {b : BState α L A} (h : b.Pieces) (e : Event α L A) : (b.event e).Pieces := by
  have hl : ∀ n (b : BState α L A), b.Pieces → (b.leaves n).Pieces := by
    intro n
    induction n with
    | zero => intro b h; exact h
    | succ n ih => intro b h; exact ih _ h.leave
  have he : ∀ (ls : List L) (b : BState α L A), b.Pieces → (ls.foldl BState.enter b).Pieces := by
    intro ls
    induction ls with
    | nil => intro b h; exact h
    | cons l ls ih =>
      intro b h
      refine ih _ ?_
      intro f hf
      simp only [BState.enter, List.mem_cons] at hf
      rcases hf with rfl | hf
      · exact ⟨⟨[], rfl⟩, by simp [ctxsL]⟩
      · exact h f (by simpa using hf)
  have ht : (b.target e.target).Pieces := by
    unfold BState.target
    split
    · exact h
    · exact he _ _ (hl _ _ h)
  intro f hf
  simp only [BState.event, List.mem_cons] at hf
  rcases hf with rfl | hf
  · have hc := ht (b.target e.target).cur (by simp)
    refine ⟨hc.1.snoc (.lexemes e.lexemes), ?_⟩
    intro c hc'
    rw [ctxsL_append, List.mem_append] at hc'
    rcases hc' with h1 | h1
    · exact hc.2 c h1
    · have : ctxsL ((makeTokens e.lexemes).map (Node.tok (L := L))) = [] := by
        generalize makeTokens e.lexemes = ts
        induction ts with
        | nil => rfl
        | cons t ts ih => simpa [ctxsL, Node.ctxs] using ih
      rw [this] at h1
      simp at h1
  · exact ht f (by simp [hf])

theorem build_pieces (root : L) (evs : List (Event α L A)) :
    ∀ c ∈ (buildEvents root evs).ctxs, InPieces c.2 := by
  have h : (evs.foldl BState.event (⟨⟨root, []⟩, []⟩ : BState α L A)).Pieces := by
    have key : ∀ (evs : List (Event α L A)) (b : BState α L A), b.Pieces → (evs.foldl BState.event b).Pieces := by
      intro evs
      induction evs with
      | nil => intro b h; exact h
      | cons e es ih => intro b h; exact ih _ (h.event e)
    refine key evs _ ?_
    intro f hf
    simp only [List.mem_cons, List.not_mem_nil, or_false] at hf
    subst hf
    exact ⟨⟨[], rfl⟩, by simp [ctxsL]⟩
  unfold buildEvents
  generalize evs.foldl BState.event (⟨⟨root, []⟩, []⟩ : BState α L A) = b at h
  have key : ∀ (n : Nat) (b : BState α L A), b.up.length = n → b.Pieces → ∀ c ∈ b.close.ctxs, InPieces c.2 := by
    intro n
    induction n with
    | zero =>
      intro b hn hb c hc
      obtain ⟨cur, up⟩ := b
      have : up = [] := List.length_eq_zero_iff.1 hn
      subst this
      simp only [BState.close, List.foldl_nil, Node.ctxs, List.mem_cons] at hc
      have := hb cur (by simp)
      rcases hc with rfl | hc
      · exact this.1
      · exact this.2 c hc
    | succ n ih =>
      intro b hn hb
      obtain ⟨cur, up⟩ := b
      cases up with
      | nil => simp at hn
      | cons f fs =>
        have := ih (BState.leave ⟨cur, f :: fs⟩) (by simpa [BState.leave] using hn) hb.leave
        exact this
  exact key _ b rfl h

end Parce

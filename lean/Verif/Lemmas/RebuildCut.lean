import Verif.Lemmas.RebuildEvents
import Verif.Lemmas.RebuildLex
/-!
# Tokens of a tree and the events they come from
-/
set_option linter.unusedSectionVars false
namespace Parce.RB
variable {α L A ρ : Type}

/-- The path of the current context. -/
def pathOf (fs : List (Frame α L A)) : List Nat := (fs.map (fun f => f.kids.length)).reverse

theorem anc_closeUp (fs : List (Frame α L A)) : ∀ (n : Node α L A) (R : List (List (Node α L A))),
    anc [] (closeUp n fs R) (pathOf fs) = some (n, fs) := by
  induction fs with
  | nil => intro n R; rfl
  | cons f fs ih =>
    intro n R
    have h : pathOf (f :: fs) = pathOf fs ++ [f.kids.length] := by simp [pathOf]
    rw [h, anc_append]
    simp only [closeUp, ih, Option.bind_some, anc]
    simp [anc]

theorem cut_closeR (b : BState α L A) (R : List (List (Node α L A))) :
    Cut (closeR b R) (pathOf b.up) b.cur.kids.length b := by
  refine ⟨b.cur.lex, b.cur.kids ++ R.headD [], b.up, anc_closeUp _ _ _, ?_⟩
  simp

theorem pull_append (es fs : List (Event α L A)) (R : List (List (Node α L A))) :
    pull (es ++ fs) R = pull es (pull fs R) := by
  simp [pull]

/-- The tree before any event. -/
def b00 (rl : L) : BState α L A := ⟨⟨rl, []⟩, []⟩

theorem closeUp_toks_nil (fs : List (Frame α L A)) : ∀ (n : Node α L A),
    (closeUp n fs []).toks = doneT fs ++ n.toks := by
  induction fs with
  | nil => intro n; rfl
  | cons f fs ih =>
    intro n
    simp only [closeUp, List.tail_nil, ih, doneT]
    simp [Node.toks, toksL_append, toksL]

theorem close_toks (b : BState α L A) : b.close.toks = toksB b := by
  rw [close_eq, closeR]
  simp only [List.tail_nil, closeUp_toks_nil, toksB, doneT]
  simp [Node.toks]

theorem toksB_events (es : List (Event α L A)) : ∀ (b : BState α L A),
    toksB (es.foldl BState.event b) = toksB b ++ es.flatMap (fun e => makeTokens e.lexemes) := by
  induction es with
  | nil => intro b; simp
  | cons e es ih => intro b; simp [ih, toksB_event]

/-- A tree built from events. -/
structure Built (rl : L) (E : List (Event α L A)) (cs : List (Node α L A)) : Prop where
  keeps : KeepsRoot [rl] E
  ne : ∀ e ∈ E, e.lexemes ≠ []
  tree : buildEvents rl E = .ctx rl cs
  wf : WF cs
  ord : Ordered (toksL cs)

theorem Built.toks {rl : L} {E : List (Event α L A)} {cs : List (Node α L A)} (h : Built rl E cs) :
    toksL cs = E.flatMap (fun e => makeTokens e.lexemes) := by
  have h1 : (buildEvents rl E).toks = toksB (E.foldl BState.event (b00 rl)) := close_toks _
  rw [h.tree, toksB_events] at h1
  simpa [Node.toks, toksB, doneT, b00, toksL] using h1

/-- The tree right before the tokens of an event. -/
def before (rl : L) (X : List (Event α L A)) (e : Event α L A) : BState α L A :=
  (X.foldl BState.event (b00 rl)).target e.target

theorem before_lexs {rl : L} {X : List (Event α L A)} {e : Event α L A} {Z : List (Event α L A)}
    (hk : KeepsRoot [rl] (X ++ e :: Z)) :
    (X.foldl BState.event (b00 (α := α) (A := A) rl)).lexs = replayStack [rl] X ∧
    (before rl X e).lexs = applyOpt e.target (replayStack [rl] X) := by
  rw [keepsRoot_append] at hk
  have h1 := events_lexs X (b00 (α := α) (A := A) rl) hk.1
  refine ⟨h1, ?_⟩
  rw [before, (target_lexs e.target _ (by rw [h1]; exact hk.2.1)).1, h1]
  rfl

theorem event_plain (b : BState α L A) (e : Event α L A) : b.event e = (b.target e.target).event ⟨none, e.lexemes⟩ := rfl

/-- Building the events is closing the tree before an event with what the remaining events
    contribute. -/
theorem build_split {rl : L} {X : List (Event α L A)} {e : Event α L A} {Z : List (Event α L A)}
    (hk : KeepsRoot [rl] (X ++ e :: Z)) :
    buildEvents rl (X ++ e :: Z) = closeR (before rl X e) (pull (⟨none, e.lexemes⟩ :: Z) []) := by
  have hk2 := (keepsRoot_append _ _ _).1 hk
  obtain ⟨h1, h2⟩ := before_lexs hk
  rw [← closeR_events (⟨none, e.lexemes⟩ :: Z) (before rl X e) (by rw [h2]; exact ⟨by simp, hk2.2.2⟩)]
  rw [← close_eq]
  unfold buildEvents
  rw [List.foldl_append]
  rfl

theorem Built.cut {rl : L} {E : List (Event α L A)} {cs : List (Node α L A)} (h : Built rl E cs)
    {X : List (Event α L A)} {e : Event α L A} {Z : List (Event α L A)} (hE : E = X ++ e :: Z) :
    Cut (.ctx rl cs) (pathOf (before rl X e).up) (before rl X e).cur.kids.length (before rl X e) ∧
    closeR (before rl X e) (pull (⟨none, e.lexemes⟩ :: Z) []) = .ctx rl cs ∧
    ∀ (k : Nat) (t : TokN α A), (makeTokens e.lexemes)[k]? = some t →
      (Node.ctx rl cs).at (pathOf (before rl X e).up ++ [(before rl X e).cur.kids.length + k]) = some (.tok t) := by
  have hk := h.keeps
  rw [hE] at hk
  have hb := build_split hk
  rw [← hE, h.tree] at hb
  have hc := cut_closeR (before rl X e) (pull (⟨none, e.lexemes⟩ :: Z) [])
  rw [← hb] at hc
  refine ⟨hc, hb.symm, fun k t ht => ?_⟩
  have h3 : anc [] (Node.ctx rl cs) (pathOf (before rl X e).up) = some (.ctx (before rl X e).cur.lex
      ((before rl X e).cur.kids ++ (pull (⟨none, e.lexemes⟩ :: Z) []).headD []), (before rl X e).up) := by
    rw [hb]
    exact anc_closeUp _ _ _
  have h4 := anc_at [] (Node.ctx rl cs) (pathOf (before rl X e).up)
  rw [h3] at h4
  rw [at_append, ← h4]
  simp only [Option.map_some, Option.bind_some, Node.at, Node.kids]
  rw [List.getElem?_append_right (by omega), Nat.add_sub_cancel_left]
  have h5 : (pull (⟨none, e.lexemes⟩ :: Z) []).headD [] =
      (makeTokens e.lexemes).map (Node.tok (L := L)) ++ (pull Z []).headD [] := rfl
  have hlt := getElem?_lt ht
  rw [h5, List.getElem?_append_left (by rw [List.length_map]; exact hlt), List.getElem?_map, ht]
  rfl

theorem leaf_unique {rl : L} {cs : List (Node α L A)} (hf : FullL cs) (ho : Ordered (toksL cs)) {q q' : List Nat}
    {t t' : TokN α A} (h : (Node.ctx rl cs).at q = some (.tok t)) (h' : (Node.ctx rl cs).at q' = some (.tok t'))
    (hp : t.pos = t'.pos) : q = q' ∧ t = t' := by
  have hq : q = q' := by
    obtain ⟨h1, h2, h3⟩ := splitCommon_spec q q'
    generalize splitCommon q q' = r at h1 h2 h3
    obtain ⟨p, r1, r2⟩ := r
    simp only at h1 h2 h3
    have hne := ho.1
    have hlen : ∀ {p : List Nat} {t : TokN α A}, (Node.ctx rl cs).at p = some (.tok t) → 0 < t.text.length := by
      intro p t h
      have := at_mem_toks h
      exact List.length_pos_iff.2 (hne t (by simpa [Node.toks] using this))
    rcases h3 with h3 | h3 | ⟨i, is, j, js, h4, h5, h6⟩
    · subst h3
      rw [List.append_nil] at h1
      have := tok_not_prefix (p := p) (h1 ▸ h) (h2 ▸ h')
      rw [h1, h2, this, List.append_nil]
    · subst h3
      rw [List.append_nil] at h2
      have := tok_not_prefix (p := p) (h2 ▸ h') (h1 ▸ h)
      rw [h1, h2, this, List.append_nil]
    · subst h4; subst h5
      exfalso
      have e1 := hlen h
      have e2 := hlen h'
      rcases Nat.lt_or_gt_of_ne h6 with h7 | h7
      · have := leaf_lt ho hf (h1 ▸ h) (h2 ▸ h') h7
        unfold TokN.stop at this; omega
      · have := leaf_lt ho hf (h2 ▸ h') (h1 ▸ h) h7
        unfold TokN.stop at this; omega
  subst hq
  rw [h] at h'
  exact ⟨rfl, by simpa using h'⟩

/-- A token that is the first of its group is the first token of an event. -/
theorem Built.leaf {rl : L} {E : List (Event α L A)} {cs : List (Node α L A)} (h : Built rl E cs) {q : List Nat}
    {t : TokN α A} (hq : (Node.ctx rl cs).at q = some (.tok t)) (hg : t.group = none ∨ t.group = some 0) :
    ∃ X e Z, E = X ++ e :: Z ∧ e.lexemes.head? = some t.lexeme ∧ (t.group = none → e.lexemes = [t.lexeme]) ∧
      q = pathOf (before rl X e).up ++ [(before rl X e).cur.kids.length] := by
  have h1 : t ∈ toksL cs := by simpa [Node.toks] using at_mem_toks hq
  rw [h.toks, List.mem_flatMap] at h1
  obtain ⟨e, he, ht⟩ := h1
  obtain ⟨X, Z, hE⟩ := List.append_of_mem he
  obtain ⟨k, hk⟩ := List.getElem?_of_mem ht
  obtain ⟨hlt, hgr⟩ := makeTokens_get hk
  have hk0 : k = 0 := by
    rw [hgr] at hg
    split at hg
    · omega
    · rename_i hl
      simp only [reduceCtorEq, Option.some.injEq, false_or] at hg
      split at hg <;> omega
  subst hk0
  have hlx : e.lexemes[0]? = some t.lexeme := by
    have := congrArg (fun l => l[0]?) (makeTokens_lexeme e.lexemes)
    simp only [List.getElem?_map, hk, Option.map_some] at this
    exact this.symm
  refine ⟨X, e, Z, hE, ?_, ?_, ?_⟩
  · rw [List.head?_eq_getElem?]; exact hlx
  · intro hn
    rw [hn] at hgr
    have h1 : e.lexemes.length = 1 := by
      by_cases h1 : e.lexemes.length = 1
      · exact h1
      · rw [if_neg h1] at hgr; simp at hgr
    match hx : e.lexemes with
    | [] => rw [hx] at h1; simp at h1
    | [l] => rw [hx] at hlx; simpa using hlx
    | _ :: _ :: _ => rw [hx] at h1; simp at h1
  · have := (h.cut hE).2.2 0 t hk
    exact (leaf_unique h.wf.1 h.ord hq this rfl).1

end Parce.RB

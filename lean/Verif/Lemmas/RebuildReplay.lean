import Verif.Lemmas.RebuildTree
import Verif.Lemmas.Range
/-!
# Lemmas about events_with_tokens: its events rebuild the part of the tree they are made from
-/
namespace Parce.RB
variable {α L A ρ : Type}

/-! ### Pieces of a list of children -/

theorem pieces_cases {ns : List (Node α L A)} (h : InPieces ns) :
    ns = [] ∨ (∃ l cs ns', ns = .ctx l cs :: ns' ∧ InPieces ns') ∨
    (∃ lxs ns', lxs ≠ [] ∧ ns = (makeTokens lxs).map .tok ++ ns' ∧ InPieces ns') := by
  obtain ⟨ps, rfl⟩ := h
  induction ps with
  | nil => exact Or.inl rfl
  | cons p ps ih =>
    cases p with
    | context l cs => exact Or.inr (Or.inl ⟨l, cs, _, by simp [Piece.nodes], ps, rfl⟩)
    | lexemes lxs =>
      by_cases hl : lxs = []
      · subst hl
        simpa [Piece.nodes, makeTokens] using ih
      · exact Or.inr (Or.inr ⟨lxs, _, hl, by simp [Piece.nodes], ps, rfl⟩)

/-- A node of the list lies in one of the pieces. -/
theorem pieces_find {cs : List (Node α L A)} (h : InPieces cs) {i : Nat} {n : Node α L A} (hi : cs[i]? = some n) :
    ∃ (pre post : List (Node α L A)) (P : Piece α L A) (k : Nat), InPieces pre ∧ InPieces post ∧
      cs = pre ++ P.nodes ++ post ∧ i = pre.length + k ∧ P.nodes[k]? = some n := by
  obtain ⟨ps, rfl⟩ := h
  induction ps generalizing i with
  | nil => simp at hi
  | cons p ps ih =>
    rw [List.flatMap_cons] at hi
    by_cases hlt : i < p.nodes.length
    · rw [List.getElem?_append_left hlt] at hi
      exact ⟨[], _, p, i, ⟨[], rfl⟩, ⟨ps, rfl⟩, by simp, by simp, hi⟩
    · rw [List.getElem?_append_right (by omega)] at hi
      obtain ⟨pre, post, P, k, ⟨qs, rfl⟩, h2, h3, h4, h5⟩ := ih hi
      refine ⟨p.nodes ++ qs.flatMap Piece.nodes, post, P, k, ⟨p :: qs, by simp⟩, h2, ?_, ?_, h5⟩
      · rw [List.flatMap_cons, h3]; simp
      · rw [List.length_append]; omega

theorem pieces_one (P : Piece α L A) : InPieces P.nodes := ⟨[P], by simp⟩

theorem pieces_append {a b : List (Node α L A)} (h : InPieces a) (h' : InPieces b) : InPieces (a ++ b) := by
  obtain ⟨ps, rfl⟩ := h
  obtain ⟨qs, rfl⟩ := h'
  exact ⟨ps ++ qs, by simp⟩

/-- A token of an event: its place in the group. -/
theorem makeTokens_get {lxs : List (Lexeme α A)} {k : Nat} {t : TokN α A} (h : (makeTokens lxs)[k]? = some t) :
    k < lxs.length ∧ t.group = if lxs.length = 1 then none else some (if k + 1 = lxs.length then -(k : Int) else (k : Int)) := by
  by_cases hl : 1 < lxs.length
  · rw [makeTokens_group hl] at h
    have := makeGroup_get h
    exact ⟨this.2, by rw [if_neg (by omega)]; exact this.1⟩
  · have hlt := getElem?_lt h
    rw [makeTokens_length] at hlt
    refine ⟨hlt, ?_⟩
    match lxs with
    | [l] =>
      have : k = 0 := by simpa using hlt
      subst this
      simp [makeTokens] at h
      subst h
      simp
    | [] => simp at hlt
    | _ :: _ :: _ => simp at hl

/-- A piece starts with every context and every first token of a group. -/
theorem pieces_border {cs : List (Node α L A)} (h : InPieces cs) {i : Nat} {n : Node α L A} (hi : cs[i]? = some n)
    (hn : ∀ t, n = .tok t → t.group = none ∨ t.group = some 0) : InPieces (cs.take i) ∧ InPieces (cs.drop i) := by
  obtain ⟨pre, post, P, k, h1, h2, rfl, rfl, h5⟩ := pieces_find h hi
  have hk : k = 0 := by
    cases P with
    | context l ds =>
      have := getElem?_lt h5
      simpa [Piece.nodes] using this
    | lexemes lxs =>
      simp only [Piece.nodes, List.getElem?_map, Option.map_eq_some_iff] at h5
      obtain ⟨t, h5, rfl⟩ := h5
      obtain ⟨h6, h7⟩ := makeTokens_get h5
      have h8 := hn t rfl
      rw [h7] at h8
      by_cases hl : lxs.length = 1
      · omega
      · rw [if_neg hl] at h8
        rcases h8 with h8 | h8
        · simp at h8
        · simp only [Option.some.injEq] at h8
          split at h8 <;> omega
  subst hk
  rw [List.append_assoc]
  simp only [Nat.add_zero, List.take_left', List.drop_left']
  exact ⟨h1, pieces_append (pieces_one P) h2⟩

/-- A piece ends after every context and every last token of a group. -/
theorem pieces_after {cs : List (Node α L A)} (h : InPieces cs) {i : Nat} {n : Node α L A} (hi : cs[i]? = some n)
    (hn : ∀ t, n = .tok t → t.group = none ∨ ∃ g, t.group = some g ∧ g < 0) :
    InPieces (cs.take (i + 1)) ∧ InPieces (cs.drop (i + 1)) := by
  obtain ⟨pre, post, P, k, h1, h2, rfl, rfl, h5⟩ := pieces_find h hi
  have hk : k + 1 = P.nodes.length := by
    cases P with
    | context l ds =>
      have := getElem?_lt h5
      simp [Piece.nodes] at this ⊢
      exact this
    | lexemes lxs =>
      simp only [Piece.nodes, List.getElem?_map, Option.map_eq_some_iff] at h5
      obtain ⟨t, h5, rfl⟩ := h5
      obtain ⟨h6, h7⟩ := makeTokens_get h5
      have h8 := hn t rfl
      rw [h7] at h8
      simp only [Piece.nodes, List.length_map, makeTokens_length]
      by_cases hl : lxs.length = 1
      · omega
      · rw [if_neg hl] at h8
        rcases h8 with h8 | ⟨g, h8, h9⟩
        · simp at h8
        · simp only [Option.some.injEq] at h8
          split at h8 <;> omega
  have hlen : pre.length + k + 1 = (pre ++ P.nodes).length := by simp; omega
  rw [hlen, List.take_left' rfl, List.drop_left' rfl]
  exact ⟨pieces_append h1 (pieces_one P), h2⟩

/-- All children are complete pieces, and no context is empty. -/
def WF (cs : List (Node α L A)) : Prop := FullL cs ∧ InPieces cs ∧ ∀ c ∈ ctxsL cs, InPieces c.2

theorem WF.ctx {cs : List (Node α L A)} (h : WF cs) {i : Nat} {l : L} {ds : List (Node α L A)}
    (hi : cs[i]? = some (.ctx l ds)) : ds ≠ [] ∧ WF ds := by
  have hf := FullL.get h.1 hi
  have hm : ∀ c ∈ (Node.ctx l ds).ctxs, c ∈ ctxsL cs := by
    intro c hc
    have := split_at hi
    rw [this, ctxsL_append]
    simp only [ctxsL, List.mem_append]
    exact Or.inr (Or.inl hc)
  refine ⟨hf.1, hf.2, h.2.2 (l, ds) (hm _ (by simp [Node.ctxs])), ?_⟩
  intro c hc
  exact h.2.2 c (hm c (by simp [Node.ctxs, hc]))

theorem WF.sub {cs a b c : List (Node α L A)} (h : WF cs) (he : cs = a ++ b ++ c) (hp : InPieces b) : WF b := by
  subst he
  obtain ⟨h1, h2, h3⟩ := h
  rw [FullL_append, FullL_append] at h1
  refine ⟨h1.1.2, hp, ?_⟩
  intro x hx
  refine h3 x ?_
  rw [ctxsL_append, ctxsL_append]
  simp [hx]

theorem WF.at {l : L} {cs : List (Node α L A)} (h : WF cs) {p : List Nat} {l' : L} {ds : List (Node α L A)}
    (hp : (Node.ctx l cs).at p = some (.ctx l' ds)) : WF ds ∧ (p ≠ [] → ds ≠ []) := by
  induction p generalizing l cs with
  | nil =>
    simp only [Node.at, Option.some.injEq, Node.ctx.injEq] at hp
    exact ⟨hp.2 ▸ h, fun hh => absurd rfl hh⟩
  | cons i p ih =>
    simp only [Node.at, Node.kids] at hp
    cases hi : cs[i]? with
    | none => simp [hi] at hp
    | some m =>
      rw [hi] at hp
      simp only [Option.bind_some] at hp
      cases m with
      | tok t =>
        cases p with
        | nil => simp [Node.at] at hp
        | cons j p => simp [Node.at, Node.kids] at hp
      | ctx l2 es =>
        have hw := WF.ctx h hi
        refine ⟨(ih hw.2 hp).1, fun _ => ?_⟩
        cases p with
        | nil =>
          simp only [Node.at, Option.some.injEq, Node.ctx.injEq] at hp
          exact hp.2 ▸ hw.1
        | cons j p => exact (ih hw.2 hp).2 (by simp)

/-! ### The group of a first token -/

theorem groupLoop_count (cs : List (Node α L A)) (z m : Nat) (hm : m ≤ z) (h1 : ∀ j < m, groupPos cs j = true)
    (h2 : groupPos cs m = false) : ∀ fuel k, k ≤ m → m - k ≤ fuel → groupLoop cs z fuel k = m := by
  intro fuel
  induction fuel with
  | zero => intro k hk hf; simp only [groupLoop]; omega
  | succ fuel ih =>
    intro k hk hf
    simp only [groupLoop]
    by_cases he : k = m
    · subst he; rw [if_neg (by simp [h2])]
    · rw [if_pos ⟨by omega, h1 k (by omega)⟩]
      exact ih (k + 1) (by omega) (by omega)

theorem toksOf_toks (ts : List (TokN α A)) : toksOf (ts.map (Node.tok (L := L))) = ts := by
  induction ts with
  | nil => rfl
  | cons t ts ih =>
    simp only [toksOf, List.map_cons, List.filterMap_cons] at ih ⊢
    rw [ih]

theorem groupSize_eq (lxs : List (Lexeme α A)) (ns : List (Node α L A)) (t : TokN α A) (ts : List (TokN α A))
    (h : makeTokens lxs = t :: ts) : groupSize t (ts.map .tok ++ ns) = lxs.length := by
  have hlen : lxs.length = ts.length + 1 := by rw [← makeTokens_length, h]; rfl
  have h0 := makeTokens_get (lxs := lxs) (k := 0) (t := t) (by rw [h]; rfl)
  unfold groupSize
  by_cases hl : lxs.length = 1
  · rw [if_pos hl] at h0
    rw [h0.2]; simp [hl]
  · rw [if_neg hl] at h0
    rw [h0.2]
    simp only
    have hts : ts.length = (ts.length - 1) + 1 := by omega
    have hgp : ∀ j < ts.length, groupPos (ts.map .tok ++ ns) j = decide (j + 1 < ts.length) := by
      intro j hj
      have hget : (ts.map Node.tok ++ ns)[j]? = some (.tok ts[j]) := by
        rw [List.getElem?_append_left (by simpa using hj)]
        simp [hj]
      have hg := (makeTokens_get (lxs := lxs) (k := j + 1) (t := ts[j]) (by rw [h]; simp [hj])).2
      rw [if_neg hl] at hg
      simp only [groupPos, hget, hg, Option.map_some, Option.getD_some, decide_eq_decide]
      split <;> omega
    rw [groupLoop_count _ _ (ts.length - 1) (by simp; omega)
      (fun j hj => by rw [hgp j (by omega)]; simp; omega)
      (by rw [hgp _ (by omega)]; simp; omega) _ 0 (by omega) (by simp; omega)]
    simp only [List.length_append, List.length_map]
    omega

/-! ### Pending targets -/

/-- The tree after the pending target. -/
def pend (b : BState α L A) (f : Factory L) : BState α L A := f.fpush.foldl BState.enter (b.leaves f.fpop)

theorem target_get (b : BState α L A) (f : Factory L) : b.target f.get.1 = pend b f := by
  obtain ⟨n, ls⟩ := f
  by_cases h : n ≠ 0 ∨ ls ≠ []
  · simp only [Factory.get, h, if_true]; rfl
  · simp only [Factory.get, h, if_false]
    simp only [ne_eq, not_or, Decidable.not_not] at h
    obtain ⟨rfl, rfl⟩ := h
    rfl

theorem get_snd (f : Factory L) : f.get.2 = Factory.init := by
  obtain ⟨n, ls⟩ := f
  by_cases h : n ≠ 0 ∨ ls ≠ []
  · simp only [Factory.get, h, if_true]; rfl
  · simp only [Factory.get, h, if_false]
    simp only [ne_eq, not_or, Decidable.not_not] at h
    obtain ⟨rfl, rfl⟩ := h
    rfl

theorem get_fst_none {f : Factory L} (h : f.get.1 = none) : f = Factory.init := by
  obtain ⟨n, ls⟩ := f
  by_cases hc : n ≠ 0 ∨ ls ≠ []
  · simp [Factory.get, hc] at h
  · simp only [ne_eq, not_or, Decidable.not_not] at hc
    obtain ⟨rfl, rfl⟩ := hc
    rfl

theorem pend_init (b : BState α L A) : pend b Factory.init = b := rfl

theorem pend_push (b : BState α L A) (f : Factory L) (l : L) : pend b (f.push [l]) = (pend b f).enter l := by
  simp [pend, Factory.push]

theorem leaves_succ (n : Nat) (b : BState α L A) : b.leaves (n + 1) = (b.leaves n).leave := by
  induction n generalizing b with
  | zero => rfl
  | succ n ih => exact ih b.leave

theorem pend_pop (b : BState α L A) (f : Factory L) (h : f.fpush = []) :
    pend b (f.pop 1) = (pend b f).leave ∧ (f.pop 1).fpush = [] := by
  obtain ⟨n, ls⟩ := f
  simp only at h
  subst h
  simp [pend, Factory.pop, leaves_succ]

/-! ### Replaying -/

def replay (b : BState α L A) (evs : List (EvT α L A)) : BState α L A := (evs.map (·.ev)).foldl BState.event b

theorem replay_append (b : BState α L A) (xs ys : List (EvT α L A)) : replay b (xs ++ ys) = replay (replay b xs) ys := by
  simp [replay]

/-- After this event the tree is the given one, up to and including the tokens of the event. -/
def Good (root : Node α L A) (x : EvT α L A) (b : BState α L A) : Prop :=
  ∃ p j, x.path = p ++ [j] ∧ Cut root p (j + x.toks.length) b ∧ x.toks ≠ [] ∧ x.ev.lexemes = x.toks.map TokN.lexeme ∧
    makeTokens x.ev.lexemes = x.toks ∧
    ∀ (k : Nat) (t : TokN α A), x.toks[k]? = some t → root.at (p ++ [j + k]) = some (.tok t)

def Replay (root : Node α L A) : BState α L A → List (EvT α L A) → Prop
  | _, [] => True
  | b, x :: xs => Good root x (b.event x.ev) ∧ Replay root (b.event x.ev) xs

theorem Replay.append {root : Node α L A} {b : BState α L A} {xs ys : List (EvT α L A)} (h : Replay root b xs)
    (h' : Replay root (replay b xs) ys) : Replay root b (xs ++ ys) := by
  induction xs generalizing b with
  | nil => exact h'
  | cons x xs ih => exact ⟨h.1, ih h.2 h'⟩

theorem Replay.split {root : Node α L A} {b : BState α L A} {xs ys : List (EvT α L A)} (h : Replay root b (xs ++ ys)) :
    Replay root b xs ∧ Replay root (replay b xs) ys := by
  induction xs generalizing b with
  | nil => exact ⟨trivial, h⟩
  | cons x xs ih => exact ⟨⟨h.1, (ih h.2).1⟩, (ih h.2).2⟩

theorem kidsAt_snoc {root : Node α L A} {p : List Nat} {i : Nat} {n : Node α L A} (hp : ∃ m, root.at p = some m)
    (h : (root.kidsAt p)[i]? = some n) : root.at (p ++ [i]) = some n := by
  obtain ⟨m, hm⟩ := hp
  rw [kidsAt_eq hm] at h
  rw [at_append, hm]
  simp [Node.at, h]

theorem evNodes_ok (root : Node α L A) : ∀ (fuel : Nat) (f : Factory L) (p : List Nat) (i : Nat) (ns : List (Node α L A))
    (b : BState α L A), sizeL ns < fuel → WF ns → (∃ post, (root.kidsAt p).drop i = ns ++ post) →
    Cut root p i (pend b f) →
    Cut root p (i + ns.length) (pend (replay b (evNodes fuel f p i ns).2) (evNodes fuel f p i ns).1) ∧
    (ns ≠ [] ∨ f.fpush = [] → (evNodes fuel f p i ns).1.fpush = []) ∧
    Replay root b (evNodes fuel f p i ns).2 := by
  intro fuel
  induction fuel with
  | zero => intro f p i ns b h; omega
  | succ fuel ih =>
    intro f p i ns b hsz hw hpost hcut
    obtain ⟨post, hpost⟩ := hpost
    have hget : ∀ k, k < ns.length → (root.kidsAt p)[i + k]? = ns[k]? := by
      intro k hk
      rw [← List.getElem?_drop, hpost, List.getElem?_append_left hk]
    have hat : ∃ m, root.at p = some m := by
      obtain ⟨l, h1, _⟩ := hcut.kids
      exact ⟨_, h1⟩
    rcases pieces_cases hw.2.1 with rfl | ⟨l, cs, ns', rfl, hip⟩ | ⟨lxs, ns', hl, rfl, hip⟩
    · refine ⟨hcut, ?_, trivial⟩
      intro h
      rcases h with h | h
      · exact absurd rfl h
      · exact h
    · have hi := hget 0 (by simp)
      simp only [Nat.add_zero, List.getElem?_cons_zero] at hi
      have hwc := WF.ctx (cs := .ctx l cs :: ns') (i := 0) hw List.getElem?_cons_zero
      have hk : root.kidsAt (p ++ [i]) = cs := by
        have := kidsAt_snoc hat hi
        rw [kidsAt_eq this]; rfl
      simp only [sizeL, Node.size] at hsz
      simp only [evNodes]
      generalize he1 : evNodes fuel (f.push [l]) (p ++ [i]) 0 cs = r1
      have ih1 := ih (f.push [l]) (p ++ [i]) 0 cs b (by omega) hwc.2 ⟨[], by rw [hk]; simp⟩
        (by rw [pend_push]; exact hcut.enter hi)
      rw [he1] at ih1
      obtain ⟨c1, f1, r1'⟩ := ih1
      have f1 := f1 (Or.inl hwc.1)
      have hpop := pend_pop (replay b r1.2) r1.1 f1
      have hcut2 : Cut root p (i + 1) (pend (replay b r1.2) (r1.1.pop 1)) := by
        rw [hpop.1]
        refine Cut.leave c1 ?_
        rw [hk]; simp
      generalize he2 : evNodes fuel (r1.1.pop 1) p (i + 1) ns' = r2
      have ih2 := ih (r1.1.pop 1) p (i + 1) ns' (replay b r1.2) (by omega)
        (WF.sub (a := [.ctx l cs]) (c := []) hw (by simp) hip)
        ⟨post, by rw [← List.drop_drop, hpost]; rfl⟩ hcut2
      rw [he2] at ih2
      obtain ⟨c2, f2, r2'⟩ := ih2
      refine ⟨?_, fun _ => f2 (Or.inr hpop.2), r1'.append r2'⟩
      rw [replay_append, List.length_cons, Nat.add_comm ns'.length 1, ← Nat.add_assoc]
      exact c2
    · obtain ⟨t, ts, hts⟩ : ∃ t ts, makeTokens lxs = t :: ts := by
        have := makeTokens_length lxs
        cases hm : makeTokens lxs with
        | nil => rw [hm] at this; exact absurd (List.length_eq_zero_iff.1 this.symm) hl
        | cons t ts => exact ⟨t, ts, rfl⟩
      have hlen : lxs.length = ts.length + 1 := by rw [← makeTokens_length, hts]; rfl
      rw [hts] at hget hpost hsz ⊢
      simp only [List.map_cons, List.cons_append] at hget hpost hsz ⊢
      simp only [sizeL, Node.size] at hsz
      have hgs := groupSize_eq lxs ns' t ts hts
      have hlxs : (t :: ts).map (fun t => (⟨t.pos, t.text, t.act⟩ : Lexeme α A)) = lxs := by
        have := makeTokens_lexeme lxs
        rw [hts] at this
        exact this
      simp only [evNodes, hgs]
      have htake : toksOf ((ts.map Node.tok ++ ns').take (lxs.length - 1)) = ts := by
        rw [List.take_left' (by simp; omega), toksOf_toks]
      have hdrop : (ts.map Node.tok ++ ns').drop (lxs.length - 1) = ns' := List.drop_left' (by simp; omega)
      rw [htake, hdrop, get_snd, hlxs]
      generalize he : evNodes fuel Factory.init p (i + lxs.length) ns' = r
      have hsz' : sizeL ns' < fuel := by
        have key : ∀ (a b : List (Node α L A)), sizeL (a ++ b) = sizeL a + sizeL b := by
          intro a b
          induction a with
          | nil => simp [sizeL]
          | cons x a ih => simp [sizeL, ih, Nat.add_assoc]
        rw [key] at hsz
        omega
      have hev : b.event ⟨f.get.1, lxs⟩ = addN (pend b f) ((t :: ts).map .tok) := by
        rw [event_eq, target_get, hts]
      have hcut2 : Cut root p (i + lxs.length) (b.event ⟨f.get.1, lxs⟩) := by
        rw [hev]
        have := hcut.add (k := lxs.length)
        rw [hpost] at this
        have h2 : (Node.tok t :: (ts.map Node.tok ++ ns' ++ post)).take lxs.length = (t :: ts).map Node.tok := by
          have : Node.tok t :: (ts.map Node.tok ++ ns' ++ post) = (t :: ts).map Node.tok ++ (ns' ++ post) := by simp
          rw [this]
          exact List.take_left' (by simp; omega)
        rwa [h2] at this
      have ih2 := ih Factory.init p (i + lxs.length) ns' (b.event ⟨f.get.1, lxs⟩) hsz'
        (WF.sub (a := (t :: ts).map .tok) (c := []) hw (by simp [hts]) hip)
        ⟨post, by
          rw [← List.drop_drop, hpost]
          have : Node.tok t :: (ts.map Node.tok ++ ns' ++ post) = (t :: ts).map Node.tok ++ (ns' ++ post) := by simp
          rw [this]
          exact List.drop_left' (by simp; omega)⟩ hcut2
      rw [he] at ih2
      obtain ⟨c2, f2, r2⟩ := ih2
      refine ⟨?_, fun _ => f2 (Or.inr rfl), ⟨p, i, rfl, ?_, by simp, ?_, hts, ?_⟩, r2⟩
      · have : i + (Node.tok t :: (ts.map (Node.tok (L := L)) ++ ns')).length = i + lxs.length + ns'.length := by
          simp; omega
        rw [this]
        exact c2
      · simp only [List.length_cons, ← hlen]
        exact hcut2
      · exact hlxs.symm
      · intro k u hu
        have hk : k < ts.length + 1 := by simpa using getElem?_lt hu
        refine kidsAt_snoc hat ?_
        rw [hget k (by simp; omega)]
        have : Node.tok t :: (ts.map Node.tok ++ ns') = (t :: ts).map Node.tok ++ ns' := by simp
        rw [this, List.getElem?_append_left (by simpa using hk), List.getElem?_map, hu]
        rfl

end Parce.RB

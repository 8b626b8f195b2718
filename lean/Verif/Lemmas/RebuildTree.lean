import Verif.Model.Rebuild
import Verif.Lemmas.Build
import Verif.Lemmas.Walk
/-!
# Lemmas about cutting and joining trees
-/
namespace Parce.RB
variable {α L A ρ : Type}

/-- Close the ancestors of a node, with the nodes right of it. -/
def closeUp (n : Node α L A) : List (Frame α L A) → List (List (Node α L A)) → Node α L A
  | [], _ => n
  | f :: fs, rs => closeUp (.ctx f.lex (f.kids ++ n :: rs.headD [])) fs rs.tail

/-- Close a tree under construction with the nodes that are still to come, for every open context,
    innermost first. -/
def closeR (b : BState α L A) (R : List (List (Node α L A))) : Node α L A :=
  closeUp (.ctx b.cur.lex (b.cur.kids ++ R.headD [])) b.up R.tail

theorem closeUp_nil (n : Node α L A) (fs : List (Frame α L A)) :
    closeUp n fs [] = fs.foldl (fun n f => .ctx f.lex (f.kids ++ [n])) n := by
  induction fs generalizing n with
  | nil => rfl
  | cons f fs ih => simp [closeUp, ih]

theorem close_eq (b : BState α L A) : b.close = closeR b [] := by
  simp [closeR, BState.close, closeUp_nil]

theorem closeR_leave (b : BState α L A) (h : b.up ≠ []) (R : List (List (Node α L A))) :
    closeR b.leave R = closeR b ([] :: R) := by
  obtain ⟨cur, up⟩ := b
  cases up with
  | nil => exact absurd rfl h
  | cons f fs => simp [closeR, BState.leave, closeUp]

/-- What a context entered contributes to its parent. -/
def pullEnter (l : L) (R : List (List (Node α L A))) : List (List (Node α L A)) :=
  (.ctx l (R.headD []) :: R.tail.headD []) :: R.tail.tail

theorem closeR_enter (b : BState α L A) (l : L) (R : List (List (Node α L A))) :
    closeR (b.enter l) R = closeR b (pullEnter l R) := by
  simp [closeR, BState.enter, closeUp, pullEnter]

/-- Add nodes to the current context. -/
def addN (b : BState α L A) (X : List (Node α L A)) : BState α L A :=
  { b with cur := { b.cur with kids := b.cur.kids ++ X } }

theorem closeR_add (b : BState α L A) (X : List (Node α L A)) (R : List (List (Node α L A))) :
    closeR (addN b X) R = closeR b ((X ++ R.headD []) :: R.tail) := by
  simp [closeR, addN]

theorem event_eq (b : BState α L A) (e : Event α L A) :
    b.event e = addN (b.target e.target) ((makeTokens e.lexemes).map .tok) := rfl

theorem closeR_leaves (n : Nat) (b : BState α L A) (h : n < b.lexs.length) (R : List (List (Node α L A))) :
    closeR (b.leaves n) R = closeR b (List.replicate n [] ++ R) := by
  induction n generalizing b with
  | zero => rfl
  | succ n ih =>
    have h1 : b.up ≠ [] := by
      intro e
      simp [BState.lexs, e] at h
    have h2 := (leave_lexs b (by omega)).1
    show closeR (b.leave.leaves n) R = _
    rw [ih _ (by rw [h2, List.length_drop]; omega), closeR_leave b h1]
    rfl

theorem closeR_enters (ls : List L) (b : BState α L A) (R : List (List (Node α L A))) :
    closeR (ls.foldl BState.enter b) R = closeR b (ls.foldr pullEnter R) := by
  induction ls generalizing b with
  | nil => rfl
  | cons l ls ih => rw [List.foldl_cons, ih, closeR_enter]; rfl

def pullTarget (tg : Option (Target L)) (R : List (List (Node α L A))) : List (List (Node α L A)) :=
  match tg with
  | none => R
  | some t => List.replicate t.pop [] ++ t.push.foldr pullEnter R

theorem closeR_target (tg : Option (Target L)) (b : BState α L A) (h : ∀ t, tg = some t → t.pop < b.lexs.length)
    (R : List (List (Node α L A))) : closeR (b.target tg) R = closeR b (pullTarget tg R) := by
  cases tg with
  | none => rfl
  | some t =>
    show closeR (t.push.foldl BState.enter (b.leaves t.pop)) R = _
    rw [closeR_enters, closeR_leaves _ _ (h t rfl)]
    rfl

/-- What an event contributes to the open contexts. -/
def pullEvent (e : Event α L A) (R : List (List (Node α L A))) : List (List (Node α L A)) :=
  pullTarget e.target (((makeTokens e.lexemes).map .tok ++ R.headD []) :: R.tail)

theorem closeR_event (e : Event α L A) (b : BState α L A) (h : ∀ t, e.target = some t → t.pop < b.lexs.length)
    (R : List (List (Node α L A))) : closeR (b.event e) R = closeR b (pullEvent e R) := by
  rw [event_eq, closeR_add, closeR_target _ _ h]; rfl

def pull (es : List (Event α L A)) (R : List (List (Node α L A))) : List (List (Node α L A)) :=
  es.foldr pullEvent R

theorem closeR_events (es : List (Event α L A)) (b : BState α L A) (h : KeepsRoot b.lexs es)
    (R : List (List (Node α L A))) : closeR (es.foldl BState.event b) R = closeR b (pull es R) := by
  induction es generalizing b with
  | nil => rfl
  | cons e es ih =>
    rw [List.foldl_cons, ih _ (by rw [(event_lexs e b h.1).1]; exact h.2), closeR_event e b h.1]
    rfl

theorem events_lexs (es : List (Event α L A)) (b : BState α L A) (h : KeepsRoot b.lexs es) :
    (es.foldl BState.event b).lexs = replayStack b.lexs es := by
  induction es generalizing b with
  | nil => rfl
  | cons e es ih =>
    have h1 := (event_lexs e b h.1).1
    rw [List.foldl_cons, ih _ (by rw [h1]; exact h.2), h1]
    rfl

/-! ### Shifting -/

def shiftE (d : Int) (e : Event α L A) : Event α L A :=
  ⟨e.target, e.lexemes.map (fun l => { l with pos := ((l.pos : Int) + d).toNat })⟩

theorem shiftL_map (d : Int) (ns : List (Node α L A)) : shiftL d ns = ns.map (shiftN d) := by
  induction ns with
  | nil => simp [shiftL]
  | cons n ns ih => simp [shiftL, ih]

theorem shiftL_append (d : Int) (a b : List (Node α L A)) : shiftL d (a ++ b) = shiftL d a ++ shiftL d b := by
  simp [shiftL_map]

theorem makeTokens_shift (d : Int) (e : Event α L A) :
    makeTokens (shiftE d e).lexemes = (makeTokens e.lexemes).map (TokN.shift d) := by
  simp only [shiftE, makeTokens, List.length_map]
  split
  · simp only [makeGroup, List.length_map]
    apply List.ext_getElem?
    intro i
    simp only [List.getElem?_mapIdx, List.getElem?_map]
    cases e.lexemes[i]? <;> simp [TokN.shift]
  · rw [List.map_take, List.map_take, List.map_map, List.map_take, List.map_map]
    rfl

def shiftR (d : Int) (R : List (List (Node α L A))) : List (List (Node α L A)) := R.map (shiftL d)

theorem shiftR_head (d : Int) (R : List (List (Node α L A))) : (shiftR d R).headD [] = shiftL d (R.headD []) := by
  cases R <;> simp [shiftR, shiftL]

theorem shiftR_tail (d : Int) (R : List (List (Node α L A))) : (shiftR d R).tail = shiftR d R.tail := by
  cases R <;> simp [shiftR]

theorem shiftL_toks (d : Int) (ts : List (TokN α A)) :
    shiftL d (ts.map (Node.tok (L := L))) = (ts.map (TokN.shift d)).map .tok := by
  induction ts with
  | nil => simp [shiftL]
  | cons t ts ih => simp [shiftL, shiftN, ih]

theorem pullEnter_shift (d : Int) (l : L) (R : List (List (Node α L A))) :
    pullEnter l (shiftR d R) = shiftR d (pullEnter l R) := by
  simp only [pullEnter, shiftR_head, shiftR_tail]
  simp [shiftR, shiftL, shiftN]

theorem pullEvent_shift (d : Int) (e : Event α L A) (R : List (List (Node α L A))) :
    pullEvent (shiftE d e) (shiftR d R) = shiftR d (pullEvent e R) := by
  have h1 : ∀ (ls : List L) (R : List (List (Node α L A))),
      ls.foldr pullEnter (shiftR d R) = shiftR d (ls.foldr pullEnter R) := by
    intro ls
    induction ls with
    | nil => intro R; rfl
    | cons l ls ih => intro R; simp only [List.foldr_cons, ih, pullEnter_shift]
  have h2 : ∀ (tg : Option (Target L)) (R : List (List (Node α L A))),
      pullTarget tg (shiftR d R) = shiftR d (pullTarget tg R) := by
    intro tg R
    cases tg with
    | none => rfl
    | some t =>
      simp only [pullTarget, h1]
      simp [shiftR, shiftL]
  have h3 : (((makeTokens (shiftE d e).lexemes).map Node.tok ++ (shiftR d R).headD []) :: (shiftR d R).tail) =
      shiftR d (((makeTokens e.lexemes).map Node.tok ++ R.headD []) :: R.tail) := by
    rw [makeTokens_shift, shiftR_head, shiftR_tail, ← shiftL_toks, ← shiftL_append]
    rfl
  show pullTarget e.target _ = _
  rw [h3, h2]
  rfl

theorem pull_shift (d : Int) (es : List (Event α L A)) (R : List (List (Node α L A))) :
    pull (es.map (shiftE d)) (shiftR d R) = shiftR d (pull es R) := by
  induction es with
  | nil => rfl
  | cons e es ih =>
    show pullEvent (shiftE d e) (pull (es.map (shiftE d)) (shiftR d R)) = shiftR d (pullEvent e (pull es R))
    rw [ih, pullEvent_shift]

/-! ### Only the part for the open contexts matters -/

/-- Equal for the open contexts. -/
def SameR (k : Nat) (R R' : List (List (Node α L A))) : Prop := ∀ i < k, R.getD i [] = R'.getD i []

theorem SameR.tail {k : Nat} {R R' : List (List (Node α L A))} (h : SameR (k + 1) R R') : SameR k R.tail R'.tail := by
  intro i hi
  have := h (i + 1) (by omega)
  cases R <;> cases R' <;> simpa using this

theorem SameR.head {k : Nat} {R R' : List (List (Node α L A))} (h : SameR (k + 1) R R') : R.headD [] = R'.headD [] := by
  have := h 0 (by omega)
  cases R <;> cases R' <;> simpa using this

theorem closeUp_same (n : Node α L A) (fs : List (Frame α L A)) (R R' : List (List (Node α L A)))
    (h : SameR fs.length R R') : closeUp n fs R = closeUp n fs R' := by
  induction fs generalizing n R R' with
  | nil => rfl
  | cons f fs ih => simp only [closeUp]; rw [SameR.head h, ih _ _ _ (SameR.tail h)]

theorem closeR_same (b : BState α L A) (R R' : List (List (Node α L A))) (h : SameR b.lexs.length R R') :
    closeR b R = closeR b R' := by
  have h : SameR (b.up.length + 1) R R' := by simpa [BState.lexs] using h
  simp only [closeR, SameR.head h]
  exact closeUp_same _ _ _ _ (SameR.tail h)

theorem closeUp_inj (n n' : Node α L A) (fs : List (Frame α L A)) (R R' : List (List (Node α L A)))
    (h : closeUp n fs R = closeUp n' fs R') : n = n' ∧ SameR fs.length R R' := by
  induction fs generalizing n n' R R' with
  | nil => exact ⟨h, fun i hi => by simp at hi⟩
  | cons f fs ih =>
    simp only [closeUp] at h
    obtain ⟨h1, h2⟩ := ih _ _ _ _ h
    simp only [Node.ctx.injEq, List.append_cancel_left_eq, List.cons.injEq, true_and] at h1
    refine ⟨h1.1, ?_⟩
    intro i hi
    cases i with
    | zero => have := h1.2; cases R <;> cases R' <;> simpa using this
    | succ i =>
      have := h2 i (by simpa using hi)
      cases R <;> cases R' <;> simpa using this

theorem closeR_inj (b : BState α L A) (R R' : List (List (Node α L A))) (h : closeR b R = closeR b R') :
    SameR b.lexs.length R R' := by
  obtain ⟨h1, h2⟩ := closeUp_inj _ _ _ _ _ h
  simp only [Node.ctx.injEq, List.append_cancel_left_eq, true_and] at h1
  intro i hi
  cases i with
  | zero => cases R <;> cases R' <;> simpa using h1
  | succ i =>
    have := h2 i (by simpa [BState.lexs] using hi)
    cases R <;> cases R' <;> simpa using this

theorem SameR.shift {k : Nat} {R R' : List (List (Node α L A))} (d : Int) (h : SameR k R R') :
    SameR k (shiftR d R) (shiftR d R') := by
  have key : ∀ (R : List (List (Node α L A))) (i : Nat), (shiftR d R).getD i [] = shiftL d (R.getD i []) := by
    intro R i
    simp only [shiftR, List.getD_eq_getElem?_getD, List.getElem?_map]
    cases R[i]? <;> simp [shiftL]
  intro i hi
  rw [key, key, h i hi]

/-! ### Cutting a tree -/

/-- The node at a path, and what is left of the path in the ancestors (innermost first). -/
def anc (up : List (Frame α L A)) : Node α L A → List Nat → Option (Node α L A × List (Frame α L A))
  | n, [] => some (n, up)
  | .tok _, _ :: _ => none
  | .ctx l cs, i :: p => cs[i]?.bind (fun m => anc (⟨l, cs.take i⟩ :: up) m p)
termination_by structural _ p => p

theorem anc_append (up : List (Frame α L A)) (n : Node α L A) (p q : List Nat) :
    anc up n (p ++ q) = (anc up n p).bind (fun r => anc r.2 r.1 q) := by
  induction p generalizing up n with
  | nil => rfl
  | cons i p ih =>
    cases n with
    | tok t => rfl
    | ctx l cs =>
      simp only [List.cons_append, anc]
      cases cs[i]? with
      | none => rfl
      | some m => simp only [Option.bind_some, ih]

theorem anc_at (up : List (Frame α L A)) (n : Node α L A) (p : List Nat) :
    (anc up n p).map (·.1) = n.at p := by
  induction p generalizing up n with
  | nil => rfl
  | cons i p ih =>
    cases n with
    | tok t => simp [anc, Node.at, Node.kids]
    | ctx l cs =>
      simp only [anc, Node.at, Node.kids]
      cases cs[i]? with
      | none => rfl
      | some m => simp only [Option.bind_some, ih]

theorem anc_lexs (up : List (Frame α L A)) (n : Node α L A) (p : List Nat) (l : L) (cs : List (Node α L A))
    (up' : List (Frame α L A)) (h : anc up n p = some (.ctx l cs, up')) :
    lexsAt n p ++ up.map (·.lex) = l :: up'.map (·.lex) := by
  induction p generalizing up n with
  | nil =>
    simp only [anc, Option.some.injEq, Prod.mk.injEq] at h
    obtain ⟨rfl, rfl⟩ := h
    simp [lexsAt]
  | cons i p ih =>
    cases n with
    | tok t => simp [anc] at h
    | ctx l' ds =>
      simp only [anc] at h
      cases hi : ds[i]? with
      | none => simp [hi] at h
      | some m =>
        rw [hi] at h
        have := ih _ _ h
        simp only [List.map_cons] at this
        simp only [lexsAt, hi, List.append_assoc, List.singleton_append]
        exact this

/-- `b` is the tree up to the child `i` of the context at path `p`. -/
def Cut (root : Node α L A) (p : List Nat) (i : Nat) (b : BState α L A) : Prop :=
  ∃ l cs up, anc [] root p = some (.ctx l cs, up) ∧ b = ⟨⟨l, cs.take i⟩, up⟩

theorem Cut.unique {root : Node α L A} {p : List Nat} {i : Nat} {b b' : BState α L A} (h : Cut root p i b)
    (h' : Cut root p i b') : b = b' := by
  obtain ⟨l, cs, up, h1, rfl⟩ := h
  obtain ⟨l', cs', up', h2, rfl⟩ := h'
  rw [h1] at h2
  simp only [Option.some.injEq, Prod.mk.injEq, Node.ctx.injEq] at h2
  obtain ⟨⟨rfl, rfl⟩, rfl⟩ := h2
  rfl

theorem Cut.lexs {root : Node α L A} {p : List Nat} {i : Nat} {b : BState α L A} (h : Cut root p i b) :
    b.lexs = lexsAt root p := by
  obtain ⟨l, cs, up, h1, rfl⟩ := h
  have := anc_lexs _ _ _ _ _ _ h1
  simp only [List.map_nil, List.append_nil] at this
  rw [this]; rfl

theorem Cut.kids {root : Node α L A} {p : List Nat} {i : Nat} {b : BState α L A} (h : Cut root p i b) :
    ∃ l, root.at p = some (.ctx l (root.kidsAt p)) ∧ b.cur = ⟨l, (root.kidsAt p).take i⟩ := by
  obtain ⟨l, cs, up, h1, rfl⟩ := h
  have h2 := anc_at [] root p
  rw [h1] at h2
  simp only [Option.map_some] at h2
  have h3 : root.kidsAt p = cs := by simp [Node.kidsAt, ← h2, Node.kids]
  exact ⟨l, by rw [← h2, h3], by rw [h3]⟩

theorem Cut.enter {root : Node α L A} {p : List Nat} {i : Nat} {b : BState α L A} (h : Cut root p i b) {l : L}
    {ds : List (Node α L A)} (hi : (root.kidsAt p)[i]? = some (.ctx l ds)) : Cut root (p ++ [i]) 0 (b.enter l) := by
  obtain ⟨l', hk, _⟩ := h.kids
  obtain ⟨l0, cs, up, h1, rfl⟩ := h
  have h2 := anc_at [] root p
  rw [h1, hk] at h2
  simp only [Option.map_some, Option.some.injEq, Node.ctx.injEq] at h2
  obtain ⟨rfl, h3⟩ := h2
  rw [← h3] at hi
  refine ⟨l, ds, ⟨l0, cs.take i⟩ :: up, ?_, rfl⟩
  rw [anc_append, h1]
  simp [anc, hi]

theorem Cut.add {root : Node α L A} {p : List Nat} {i k : Nat} {b : BState α L A} (h : Cut root p i b) :
    Cut root p (i + k) (addN b (((root.kidsAt p).drop i).take k)) := by
  obtain ⟨l', hk, hcur⟩ := h.kids
  obtain ⟨l0, cs, up, h1, rfl⟩ := h
  refine ⟨l0, cs, up, h1, ?_⟩
  simp only [Frame.mk.injEq] at hcur
  have h2 := anc_at [] root p
  rw [h1, hk] at h2
  simp only [Option.map_some, Option.some.injEq, Node.ctx.injEq] at h2
  rw [← h2.2]
  simp only [addN, BState.mk.injEq, Frame.mk.injEq, true_and, and_true]
  rw [List.take_add]

theorem Cut.leave {root : Node α L A} {p : List Nat} {i k : Nat} {b : BState α L A} (h : Cut root (p ++ [i]) k b)
    (hk : (root.kidsAt (p ++ [i])).length ≤ k) : Cut root p (i + 1) b.leave := by
  obtain ⟨l, cs, up, h1, rfl⟩ := h
  have h2 := anc_at [] root (p ++ [i])
  rw [h1] at h2
  simp only [Option.map_some] at h2
  have h3 : root.kidsAt (p ++ [i]) = cs := by simp [Node.kidsAt, ← h2, Node.kids]
  rw [h3] at hk
  rw [anc_append] at h1
  cases ha : anc [] root p with
  | none => simp [ha] at h1
  | some r =>
    obtain ⟨n, up0⟩ := r
    rw [ha] at h1
    cases n with
    | tok t => simp [anc] at h1
    | ctx l0 ds =>
      simp only [Option.bind_some, anc] at h1
      cases hi : ds[i]? with
      | none => simp [hi] at h1
      | some m =>
        rw [hi] at h1
        simp only [Option.bind_some, Option.some.injEq, Prod.mk.injEq] at h1
        obtain ⟨rfl, rfl⟩ := h1
        refine ⟨l0, ds, up0, ha, ?_⟩
        have hlt := getElem?_lt hi
        simp only [BState.leave, BState.mk.injEq, Frame.mk.injEq, true_and, and_true]
        rw [List.take_of_length_le hk, List.take_add_one, hi]
        rfl

/-- What is right of a path: for the context at path `p` from child `i` on, for its ancestors after
    the child that is on the path; innermost first. -/
def rightsAt (rs : List (List (Node α L A))) : Node α L A → List Nat → Nat → List (List (Node α L A))
  | .tok _, _, _ => rs
  | .ctx _ cs, [], i => cs.drop i :: rs
  | .ctx _ cs, j :: p, i =>
    match cs[j]? with
    | none => rs
    | some m => rightsAt (cs.drop (j + 1) :: rs) m p i
termination_by structural _ p => p

theorem closeR_rights (up : List (Frame α L A)) (rs : List (List (Node α L A))) (n : Node α L A) (p : List Nat) (i : Nat)
    (l : L) (cs : List (Node α L A)) (up' : List (Frame α L A)) (h : anc up n p = some (.ctx l cs, up')) :
    closeR ⟨⟨l, cs.take i⟩, up'⟩ (rightsAt rs n p i) = closeUp n up rs := by
  induction p generalizing up rs n with
  | nil =>
    simp only [anc, Option.some.injEq, Prod.mk.injEq] at h
    obtain ⟨rfl, rfl⟩ := h
    simp [rightsAt, closeR]
  | cons j p ih =>
    cases n with
    | tok t => simp [anc] at h
    | ctx l' ds =>
      simp only [anc] at h
      cases hi : ds[j]? with
      | none => simp [hi] at h
      | some m =>
        rw [hi] at h
        simp only [rightsAt, hi]
        rw [ih _ _ _ h]
        simp only [closeUp, List.headD_cons, List.tail_cons]
        congr 2
        exact (split_at hi).symm

theorem Cut.rights {root : Node α L A} {p : List Nat} {i : Nat} {b : BState α L A} (h : Cut root p i b) :
    closeR b (rightsAt [] root p i) = root := by
  obtain ⟨l, cs, up, h1, rfl⟩ := h
  rw [closeR_rights [] [] root p i l cs up h1]
  rfl

end Parce.RB

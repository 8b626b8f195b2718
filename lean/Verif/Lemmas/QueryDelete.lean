import Verif.Lemmas.QueryCut
/-!
# Lemmas for deleting: the tree
-/
namespace Parce
variable {α L A : Type}

/-! ## Removing nodes without removing contexts that become empty -/

mutual
def Node.plain (T : List Nat → Bool) (p : List Nat) : Node α L A → Node α L A
  | .tok t => .tok t
  | .ctx l cs => .ctx l (plainL T p 0 cs)
def plainL (T : List Nat → Bool) (p : List Nat) (i : Nat) : List (Node α L A) → List (Node α L A)
  | [] => []
  | n :: ns => if T (p ++ [i]) then plainL T p (i + 1) ns else n.plain T (p ++ [i]) :: plainL T p (i + 1) ns
end

/-- What the slices delete. -/
def Tdels (dels : List (List Nat × List (Nat × Nat))) (q : List Nat) : Bool :=
  !q.isEmpty && inSlices (cutsAt dels q.dropLast) (q.getLast?.getD 0)

theorem Tdels_concat (dels : List (List Nat × List (Nat × Nat))) (p : List Nat) (j : Nat) :
    Tdels dels (p ++ [j]) = inSlices (cutsAt dels p) j := by
  simp [Tdels]

theorem delL_length (dels : List (List Nat × List (Nat × Nat))) (p : List Nat) : (cs : List (Node α L A)) → (i : Nat) →
    (delL dels p i cs).length = cs.length
  | [], _ => rfl
  | n :: cs, i => by simp [delL, delL_length dels p cs (i + 1)]

mutual
theorem delAt_plain (root : Node α L A) (dels : List (List Nat × List (Nat × Nat)))
    (h : ∀ p l cs, root.at p = some (.ctx l cs) → DescS cs.length (cutsAt dels p)) : (n : Node α L A) → (p : List Nat) →
    root.at p = some n → n.delAt dels p = n.plain (Tdels dels) p
  | .tok t, _, _ => rfl
  | .ctx l cs, p, hp => by
    rw [Node.delAt, Node.plain, cutAll_eq _ _ (by rw [delL_length]; exact h p l cs hp),
      delL_plain root dels h cs p 0 (fun j n hn => by rw [at_append, hp]; simp [Node.at, Node.kids, hn])]
theorem delL_plain (root : Node α L A) (dels : List (List Nat × List (Nat × Nat)))
    (h : ∀ p l cs, root.at p = some (.ctx l cs) → DescS cs.length (cutsAt dels p)) : (cs : List (Node α L A)) → (p : List Nat) →
    (i : Nat) → (∀ j n, cs[j]? = some n → root.at (p ++ [i + j]) = some n) →
    keepIdx (inSlices (cutsAt dels p)) i (delL dels p i cs) = plainL (Tdels dels) p i cs
  | [], _, _, _ => rfl
  | n :: cs, p, i, hat => by
    rw [delL, keepIdx, plainL, Tdels_concat, delAt_plain root dels h n (p ++ [i]) (hat 0 n rfl),
      delL_plain root dels h cs p (i + 1) (fun j m hm => by
        have := hat (j + 1) m (by simpa using hm)
        rwa [show i + (j + 1) = i + 1 + j from by omega] at this)]
end

mutual
theorem toks_plain (T : List Nat → Bool) : (n : Node α L A) → (p : List Nat) → (n.plain T p).toks.Sublist n.toks
  | .tok t, _ => List.Sublist.refl _
  | .ctx l cs, p => toksL_plain T cs p 0
theorem toksL_plain (T : List Nat → Bool) : (cs : List (Node α L A)) → (p : List Nat) → (i : Nat) →
    (toksL (plainL T p i cs)).Sublist (toksL cs)
  | [], _, _ => List.Sublist.refl _
  | n :: cs, p, i => by
    rw [plainL]
    split
    · exact (toksL_plain T cs p (i + 1)).trans (List.sublist_append_right _ _)
    · exact (toks_plain T n _).append (toksL_plain T cs p (i + 1))
end

theorem Ordered.sublist {a b : List (TokN α A)} (h : Ordered b) (hs : a.Sublist b) : Ordered a :=
  ⟨fun t ht => h.1 t (hs.subset ht), h.2.sublist hs⟩

theorem plainL_ne (T : List Nat → Bool) : (cs : List (Node α L A)) → (p : List Nat) → (i j : Nat) → j < cs.length →
    T (p ++ [i + j]) = false → plainL T p i cs ≠ []
  | [], _, _, _, h, _ => absurd h (by simp)
  | n :: cs, p, i, 0, _, h => by
    rw [plainL, show i + 0 = i from rfl] at *
    rw [h]; simp
  | n :: cs, p, i, j + 1, hl, h => by
    rw [plainL]
    split
    · exact plainL_ne T cs p (i + 1) j (by simpa using hl) (by rwa [show i + (j + 1) = i + 1 + j from by omega] at h)
    · simp

/-- In every context (but the root) a child remains. -/
def Remains (root : Node α L A) (T : List Nat → Bool) : Prop :=
  ∀ q l cs, q ≠ [] → root.at q = some (.ctx l cs) → ∃ i, i < cs.length ∧ T (q ++ [i]) = false

mutual
theorem full_plain {root : Node α L A} {T : List Nat → Bool} (h : Remains root T) : (n : Node α L A) → (p : List Nat) → p ≠ [] →
    root.at p = some n → (n.plain T p).Full
  | .tok t, _, _, _ => trivial
  | .ctx l cs, p, hp, hat => by
    obtain ⟨i, hi, hT⟩ := h p l cs hp hat
    exact ⟨plainL_ne T cs p 0 i hi (by simpa using hT),
      fullL_plain h cs p 0 (fun j n hn => by rw [at_append, hat]; simp [Node.at, Node.kids, hn])⟩
theorem fullL_plain {root : Node α L A} {T : List Nat → Bool} (h : Remains root T) : (cs : List (Node α L A)) → (p : List Nat) →
    (i : Nat) → (∀ j n, cs[j]? = some n → root.at (p ++ [i + j]) = some n) → FullL (plainL T p i cs)
  | [], _, _, _ => trivial
  | n :: cs, p, i, hat => by
    have ih := fullL_plain h cs p (i + 1) (fun j m hm => by
      have := hat (j + 1) m (by simpa using hm)
      rwa [show i + (j + 1) = i + 1 + j from by omega] at this)
    rw [plainL]
    split
    · exact ih
    · exact ⟨full_plain h n (p ++ [i]) (by simp) (hat 0 n rfl), ih⟩
end

mutual
theorem prune_plain {root : Node α L A} {T : List Nat → Bool} (h : Remains root T) : (n : Node α L A) → (p : List Nat) → p ≠ [] →
    root.at p = some n → n.prune T p = if T p then none else some (n.plain T p)
  | .tok t, _, _, _ => rfl
  | .ctx l cs, p, hp, hat => by
    obtain ⟨i, hi, hT⟩ := h p l cs hp hat
    have hne := plainL_ne T cs p 0 i hi (by simpa using hT)
    rw [Node.prune, pruneL_plain h cs p 0 (fun j n hn => by rw [at_append, hat]; simp [Node.at, Node.kids, hn])]
    split
    · rfl
    · rw [Node.plain]
      cases hk : plainL T p 0 cs with
      | nil => exact absurd hk hne
      | cons c r => rfl
theorem pruneL_plain {root : Node α L A} {T : List Nat → Bool} (h : Remains root T) : (cs : List (Node α L A)) → (p : List Nat) →
    (i : Nat) → (∀ j n, cs[j]? = some n → root.at (p ++ [i + j]) = some n) → pruneL T p i cs = plainL T p i cs
  | [], _, _, _ => rfl
  | n :: cs, p, i, hat => by
    have ih := pruneL_plain h cs p (i + 1) (fun j m hm => by
      have := hat (j + 1) m (by simpa using hm)
      rwa [show i + (j + 1) = i + 1 + j from by omega] at this)
    rw [pruneL, plainL, ih, prune_plain h n (p ++ [i]) (by simp) (hat 0 n rfl)]
    split <;> rfl
end

/-! ## Changing the selection -/

mutual
theorem prune_same {root : Node α L A} {T U : List Nat → Bool} {Good : List Nat → Prop}
    (h : ∀ p n, Good p → root.at p = some n → (T p = U p ∧ (T p = false → ∀ i, Good (p ++ [i]))) ∨
      (n.prune T p = none ∧ n.prune U p = none)) : (n : Node α L A) → (p : List Nat) → Good p → root.at p = some n →
    n.prune T p = n.prune U p ∧ n.removed T p = n.removed U p
  | .tok t, p, hg, hat => by
    rcases h p _ hg hat with ⟨h1, _⟩ | ⟨h1, h2⟩
    · simp only [Node.prune, Node.removed, h1, and_self]
    · refine ⟨by rw [h1, h2], ?_⟩
      simp only [Node.prune] at h1 h2
      simp only [Node.removed]
      split at h1
      · next ht =>
        split at h2
        · next hu => rw [ht, hu]
        · cases h2
      · cases h1
  | .ctx l cs, p, hg, hat => by
    rcases h p _ hg hat with ⟨h1, h3⟩ | ⟨h1, h2⟩
    · cases hT : T p with
      | true =>
        rw [hT] at h1
        simp [Node.prune, Node.removed, hT, ← h1]
      | false =>
        obtain ⟨e1, e2⟩ := pruneL_same h cs p 0 (fun j _ => h3 hT _)
          (fun j n hn => by rw [at_append, hat]; simp [Node.at, Node.kids, hn])
        simp only [Node.prune, Node.removed, ← h1, e1, e2, and_self]
    · exact ⟨by rw [h1, h2], by simp [Node.removed, h1, h2]⟩
theorem pruneL_same {root : Node α L A} {T U : List Nat → Bool} {Good : List Nat → Prop}
    (h : ∀ p n, Good p → root.at p = some n → (T p = U p ∧ (T p = false → ∀ i, Good (p ++ [i]))) ∨
      (n.prune T p = none ∧ n.prune U p = none)) : (cs : List (Node α L A)) → (p : List Nat) → (i : Nat) →
    (∀ j, j < cs.length → Good (p ++ [i + j])) → (∀ j n, cs[j]? = some n → root.at (p ++ [i + j]) = some n) →
    pruneL T p i cs = pruneL U p i cs ∧ removedL T p i cs = removedL U p i cs
  | [], _, _, _, _ => ⟨rfl, rfl⟩
  | n :: cs, p, i, hg, hat => by
    obtain ⟨e1, e2⟩ := prune_same h n (p ++ [i]) (hg 0 (by simp)) (hat 0 n rfl)
    obtain ⟨e3, e4⟩ := pruneL_same h cs p (i + 1) (fun j hj => by
        have := hg (j + 1) (by simpa using hj)
        rwa [show i + (j + 1) = i + 1 + j from by omega] at this) (fun j m hm => by
      have := hat (j + 1) m (by simpa using hm)
      rwa [show i + (j + 1) = i + 1 + j from by omega] at this)
    simp only [pruneL, removedL, e1, e2, e3, e4, and_self]
end

theorem pruneL_nil (T : List Nat → Bool) : (cs : List (Node α L A)) → (p : List Nat) → (i : Nat) →
    (∀ j, j < cs.length → T (p ++ [i + j]) = true) → pruneL T p i cs = []
  | [], _, _, _ => rfl
  | n :: cs, p, i, h => by
    have h0 := h 0 (by simp)
    rw [Nat.add_zero] at h0
    have hn : n.prune T (p ++ [i]) = none := by cases n <;> simp [Node.prune, h0]
    rw [pruneL, hn, pruneL_nil T cs p (i + 1) (fun j hj => by
      have := h (j + 1) (by simpa using hj)
      rwa [show i + (j + 1) = i + 1 + j from by omega] at this)]
    rfl

/-- Only the topmost selected nodes matter. -/
theorem pruneL_top (l : L) (cs : List (Node α L A)) {T U : List Nat → Bool} (hsub : ∀ p, T p = true → U p = true)
    (htop : ∀ p, U p = true → ∃ q, q <+: p ∧ T q = true) (hroot : T [] = false) :
    pruneL T [] 0 cs = pruneL U [] 0 cs ∧ removedL T [] 0 cs = removedL U [] 0 cs := by
  have hgood : ∀ p : List Nat, (∀ q, q <+: p → q ≠ p → T q = false) → T p = false → ∀ i, ∀ q, q <+: p ++ [i] → q ≠ p ++ [i] → T q = false := by
    intro p h hp i q hq hne
    rcases List.prefix_concat_iff.1 hq with h' | h'
    · exact absurd h' hne
    · by_cases he : q = p
      · rw [he]; exact hp
      · exact h q h' he
  refine pruneL_same (root := .ctx l cs) (Good := fun p => ∀ q, q <+: p → q ≠ p → T q = false) ?_ cs [] 0 ?_ ?_
  · intro p n hg _
    left
    refine ⟨?_, hgood p hg⟩
    cases hU : U p with
    | false =>
      cases hT : T p with
      | false => rfl
      | true => rw [hsub p hT] at hU; cases hU
    | true =>
      obtain ⟨q, hq, hTq⟩ := htop p hU
      by_cases he : q = p
      · rw [← he]; exact hTq
      · rw [hg q hq he] at hTq; cases hTq
  · intro j _
    refine hgood [] ?_ hroot _
    intro q hq hne
    exact absurd (List.prefix_nil.1 hq) hne
  · intro j n hn
    simp [Node.at, Node.kids, hn]

/-- Replacing all children of a context with the context. -/
theorem pruneL_up (l : L) (cs : List (Node α L A)) {T U : List Nat → Bool} (n : List Nat) (hn : n ≠ [])
    (hall : ∀ j, j < ((Node.ctx l cs).kidsAt n).length → T (n ++ [j]) = true) (hctx : isCtxAt (.ctx l cs) n = true)
    (hU : ∀ p, U p = true ↔ (T p = true ∧ p.dropLast ≠ n) ∨ p = n) (h0 : T [] = false) :
    pruneL T [] 0 cs = pruneL U [] 0 cs ∧ removedL T [] 0 cs = removedL U [] 0 cs := by
  have hgood : ∀ p : List Nat, (∀ s, s ≠ [] → p ≠ n ++ s) → p ≠ n → ∀ i, ∀ s, s ≠ [] → p ++ [i] ≠ n ++ s := by
    intro p h hp i s hs he
    obtain ⟨s', k, rfl⟩ : ∃ s' k, s = s' ++ [k] := ⟨s.dropLast, s.getLast hs, (List.dropLast_concat_getLast hs).symm⟩
    rw [← List.append_assoc] at he
    obtain ⟨h1, _⟩ := List.append_inj' he rfl
    by_cases hs' : s' = []
    · subst hs'; exact hp (by simpa using h1)
    · exact h s' hs' h1
  refine pruneL_same (root := .ctx l cs) (Good := fun p => ∀ s, s ≠ [] → p ≠ n ++ s) ?_ cs [] 0 ?_ ?_
  · intro p m hg hat
    by_cases hp : p = n
    · right
      subst hp
      have hup : U p = true := (hU p).2 (Or.inr rfl)
      cases m with
      | tok t => simp [isCtxAt, hat, Node.isCtx] at hctx
      | ctx l' cs' =>
        rw [kidsAt_eq hat] at hall
        refine ⟨?_, by simp [Node.prune, hup]⟩
        rw [Node.prune, pruneL_nil T cs' p 0 (fun j hj => by simpa using hall j hj)]
        simp
    · left
      refine ⟨?_, fun _ => hgood p hg hp⟩
      have hd : T p = true → p.dropLast ≠ n := by
        intro hT hd
        have hpne : p ≠ [] := by intro h; rw [h, h0] at hT; cases hT
        refine hg [p.getLast hpne] (by simp) ?_
        rw [← hd]
        exact (List.dropLast_concat_getLast hpne).symm
      rw [Bool.eq_iff_iff, hU]
      constructor
      · intro h; exact Or.inl ⟨h, hd h⟩
      · rintro (h | h)
        · exact h.1
        · exact absurd h hp
  · intro j _
    refine hgood [] ?_ (fun h => hn h.symm) _
    intro s hs h
    exact hs (List.append_eq_nil_iff.1 h.symm).2
  · intro j m hm
    simp [Node.at, Node.kids, hm]

/-! ## Counting -/

theorem preorder_head (n : Node α L A) (p : List Nat) : ∃ r, n.preorder p = (p, n) :: r ∧ ∀ q ∈ r, ∃ s, s ≠ [] ∧ q.1 = p ++ s := by
  cases n with
  | tok t => exact ⟨[], rfl, by simp⟩
  | ctx l cs =>
    refine ⟨preorderL p 0 cs, rfl, fun q hq => ?_⟩
    obtain ⟨j, s, _, h⟩ := preorderL_prefix cs p 0 q hq
    exact ⟨j :: s, by simp, h⟩

mutual
theorem removed_count {root : Node α L A} {T : List Nat → Bool} (h : Remains root T)
    (hanti : ∀ p s, T p = true → s ≠ [] → T (p ++ s) = false) : (n : Node α L A) → (p : List Nat) → p ≠ [] →
    root.at p = some n → n.removed T p = ((n.preorder p).filter (fun q => T q.1)).length
  | .tok t, p, _, _ => by
    simp only [Node.removed, Node.preorder, List.filter_cons, List.filter_nil]
    split <;> simp
  | .ctx l cs, p, hp, hat => by
    rw [Node.removed, prune_plain h _ p hp hat]
    cases hT : T p with
    | true =>
      obtain ⟨r, h1, h2⟩ := preorder_head (Node.ctx l cs) p
      have hr : r.filter (fun q => T q.1) = [] := by
        rw [List.filter_eq_nil_iff]
        intro q hq
        obtain ⟨s, hs, he⟩ := h2 q hq
        rw [he, hanti p s hT hs]
        simp
      rw [h1, List.filter_cons, hr]
      simp [hT]
    | false =>
      have ih := removedL_count h hanti cs p 0 (fun j n hn => by rw [at_append, hat]; simp [Node.at, Node.kids, hn])
      simp [Node.preorder, hT, ih]
theorem removedL_count {root : Node α L A} {T : List Nat → Bool} (h : Remains root T)
    (hanti : ∀ p s, T p = true → s ≠ [] → T (p ++ s) = false) : (cs : List (Node α L A)) → (p : List Nat) → (i : Nat) →
    (∀ j n, cs[j]? = some n → root.at (p ++ [i + j]) = some n) →
    removedL T p i cs = ((preorderL p i cs).filter (fun q => T q.1)).length
  | [], _, _, _ => rfl
  | n :: cs, p, i, hat => by
    rw [removedL, preorderL, List.filter_append, List.length_append,
      removed_count h hanti n (p ++ [i]) (by simp) (hat 0 n rfl),
      removedL_count h hanti cs p (i + 1) (fun j m hm => by
        have := hat (j + 1) m (by simpa using hm)
        rwa [show i + (j + 1) = i + 1 + j from by omega] at this)]
end

/-! ## The tokens that remain -/

mutual
theorem prune_toks (sel : List (List Nat)) : (n : Node α L A) → (p : List Nat) → (∀ s ∈ sel, s <+: p → s = p) →
    (((n.prune (fun q => decide (q ∈ sel)) p).map Node.toks).getD []) =
      ((n.leavesAt p).filter (fun q => !sel.any (fun s => s.isPrefixOf q.1))).map (·.2)
  | .tok t, p, hg => by
    simp only [Node.prune, Node.leavesAt, List.filter_cons, List.filter_nil]
    by_cases h : p ∈ sel
    · have : sel.any (fun s => s.isPrefixOf p) = true := by
        rw [List.any_eq_true]
        exact ⟨p, h, by rw [List.isPrefixOf_iff_prefix]; exact List.prefix_rfl⟩
      simp [h, this]
    · have : sel.any (fun s => s.isPrefixOf p) = false := by
        rw [List.any_eq_false]
        intro s hs hp
        rw [List.isPrefixOf_iff_prefix] at hp
        exact h (hg s hs hp ▸ hs)
      simp [h, this, Node.toks]
  | .ctx l cs, p, hg => by
    by_cases h : p ∈ sel
    · have hall : (leavesL p 0 cs).filter (fun q => !sel.any (fun s => s.isPrefixOf q.1)) = [] := by
        rw [List.filter_eq_nil_iff]
        intro q hq
        have hpre : p <+: q.1 := by
          have h1 := preorderL_leaves cs p 0
          rw [← h1] at hq
          obtain ⟨x, hx, he⟩ := List.mem_filterMap.1 hq
          obtain ⟨j, s, _, hs⟩ := preorderL_prefix cs p 0 x hx
          have : q.1 = x.1 := by
            split at he
            · cases he; rfl
            · cases he
          rw [this, hs]
          exact List.prefix_append _ _
        have : sel.any (fun s => s.isPrefixOf q.1) = true := by
          rw [List.any_eq_true]
          exact ⟨p, h, by rw [List.isPrefixOf_iff_prefix]; exact hpre⟩
        rw [this]; simp
      rw [Node.leavesAt, hall, Node.prune]
      simp [h]
    · have ih := pruneL_toks sel cs p 0 (fun j s hs hp => by
        rcases List.prefix_concat_iff.1 hp with h' | h'
        · exact h'
        · exact absurd (hg s hs h' ▸ hs) h)
      rw [Node.leavesAt, Node.prune]
      have hd : decide (p ∈ sel) = false := by simpa using h
      rw [hd]
      simp only [Bool.false_eq_true, if_false]
      rw [← ih]
      cases pruneL (fun q => decide (q ∈ sel)) p 0 cs with
      | nil => rfl
      | cons c r => rfl
theorem pruneL_toks (sel : List (List Nat)) : (cs : List (Node α L A)) → (p : List Nat) → (i : Nat) →
    (∀ j s, s ∈ sel → s <+: p ++ [j] → s = p ++ [j]) →
    toksL (pruneL (fun q => decide (q ∈ sel)) p i cs) =
      ((leavesL p i cs).filter (fun q => !sel.any (fun s => s.isPrefixOf q.1))).map (·.2)
  | [], _, _, _ => rfl
  | n :: cs, p, i, hg => by
    rw [pruneL, leavesL, List.filter_append, List.map_append, ← prune_toks sel n (p ++ [i]) (fun s hs hp => hg i s hs hp),
      ← pruneL_toks sel cs p (i + 1) hg]
    cases n.prune (fun q => decide (q ∈ sel)) (p ++ [i]) with
    | none => rfl
    | some m => rfl
end

mutual
theorem prune_full (T : List Nat → Bool) : (n : Node α L A) → (p : List Nat) → ∀ m ∈ n.prune T p, m.Full
  | .tok t, p, m, h => by
    simp only [Node.prune] at h
    split at h
    · cases h
    · cases h; trivial
  | .ctx l cs, p, m, h => by
    simp only [Node.prune] at h
    split at h
    · cases h
    · have ih := pruneL_full T cs p 0
      revert h ih
      cases pruneL T p 0 cs with
      | nil => intro h _; cases h
      | cons c r => intro h ih; cases h; exact ⟨by simp, ih⟩
theorem pruneL_full (T : List Nat → Bool) : (cs : List (Node α L A)) → (p : List Nat) → (i : Nat) → FullL (pruneL T p i cs)
  | [], _, _ => trivial
  | n :: cs, p, i => by
    rw [pruneL]
    have h1 := prune_full T n (p ++ [i])
    have h2 := pruneL_full T cs p (i + 1)
    cases hn : n.prune T (p ++ [i]) with
    | none => exact h2
    | some m => exact ⟨h1 m (by rw [hn]; rfl), h2⟩
end

end Parce

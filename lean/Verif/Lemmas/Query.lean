import Verif.Spec.Query
import Verif.Lemmas.Walk
/-!
# Lemmas for queries: navigating and selecting
-/
namespace Parce
variable {α L A : Type}

theorem isCtx_tok (t : TokN α A) : (Node.tok t : Node α L A).isCtx = false := rfl
theorem isCtx_ctx (l : L) (cs : List (Node α L A)) : (Node.ctx l cs).isCtx = true := rfl

/-- The nodes that still have to be visited after the current context. -/
def allRest (root : Node α L A) : List Nat → List Nat → List (List Nat × Node α L A)
  | _, [] => []
  | p, i :: st => preorderL p.dropLast (i + 1) ((root.kidsAt p.dropLast).drop (i + 1)) ++ allRest root p.dropLast st

def allWork (root : Node α L A) : List Nat → List Nat → Nat
  | _, [] => 0
  | p, i :: st => 1 + 2 * sizeL ((root.kidsAt p.dropLast).drop (i + 1)) + allWork root p.dropLast st

/-- The paths that are yielded. -/
def yielded (onlyCtx : Bool) (l : List (List Nat × Node α L A)) : List (List Nat) :=
  (l.filter (fun q => !onlyCtx || q.2.isCtx)).map (·.1)

theorem yielded_append (o : Bool) (a b : List (List Nat × Node α L A)) : yielded o (a ++ b) = yielded o a ++ yielded o b := by
  simp [yielded]

theorem kidsAt_child {root : Node α L A} {p : List Nat} {j : Nat} {l : L} {cs : List (Node α L A)}
    (h : (root.kidsAt p)[j]? = some (.ctx l cs)) : root.kidsAt (p ++ [j]) = cs := by
  unfold Node.kidsAt at h ⊢
  rw [at_append]
  cases hp : root.at p with
  | none => simp [hp] at h
  | some n =>
    simp only [hp, Option.map_some, Option.getD_some] at h
    simp [Node.at, h]
    rfl

theorem allLoop_spec (o : Bool) (root : Node α L A) : (fuel : Nat) → (p st : List Nat) → (j : Nat) →
    2 * sizeL ((root.kidsAt p).drop j) + allWork root p st < fuel →
    allLoop o root fuel p st j = yielded o (preorderL p j ((root.kidsAt p).drop j) ++ allRest root p st)
  | 0, _, _, _, h => absurd h (by omega)
  | fuel + 1, p, st, j, h => by
    simp only [allLoop]
    cases hj : (root.kidsAt p)[j]? with
    | none =>
      have hd : (root.kidsAt p).drop j = [] := by
        rw [List.drop_eq_nil_iff]
        simpa using hj
      rw [hd] at h ⊢
      cases st with
      | nil => simp [preorderL, allRest, yielded]
      | cons i st =>
        simp only [preorderL, List.nil_append, allRest]
        refine allLoop_spec o root fuel _ st (i + 1) ?_
        simp only [allWork, sizeL] at h
        omega
    | some n =>
      obtain ⟨hlt, hget⟩ := List.getElem?_eq_some_iff.1 hj
      have hd : (root.kidsAt p).drop j = n :: (root.kidsAt p).drop (j + 1) := by
        rw [← hget]; exact List.drop_eq_getElem_cons hlt
      rw [hd] at h
      simp only [sizeL] at h
      rw [hd]
      cases n with
      | tok t =>
        simp only [Node.size] at h
        have ih := allLoop_spec o root fuel p st (j + 1) (by omega)
        simp only [preorderL, Node.preorder]
        cases o with
        | true => simp [ih, yielded, isCtx_tok]
        | false => simp [ih, yielded, isCtx_tok]
      | ctx l cs =>
        simp only [Node.size] at h
        have hk := kidsAt_child hj
        have ih := allLoop_spec o root fuel (p ++ [j]) (j :: st) 0 (by
          simp only [allWork, List.dropLast_concat, List.drop_zero, hk]
          omega)
        simp only [ih, preorderL, Node.preorder, allRest, List.dropLast_concat, List.drop_zero, hk]
        simp [yielded, isCtx_ctx]

theorem preorderL_leaves : (cs : List (Node α L A)) → (p : List Nat) → (i : Nat) →
    (preorderL p i cs).filterMap (fun q => match q.2 with | .tok t => some (q.1, t) | .ctx _ _ => none) = leavesL p i cs
  | [], _, _ => rfl
  | .tok t :: cs, p, i => by
    simp [preorderL, Node.preorder, leavesL, Node.leavesAt, preorderL_leaves cs p (i + 1)]
  | .ctx l ds :: cs, p, i => by
    simp only [preorderL, Node.preorder, leavesL, Node.leavesAt, List.cons_append, List.filterMap_cons, List.filterMap_append,
      preorderL_leaves ds (p ++ [i]) 0, preorderL_leaves cs p (i + 1)]

theorem preorderL_tokens (cs : List (Node α L A)) (p : List Nat) (i : Nat) :
    ((preorderL p i cs).filter (fun q => !q.2.isCtx)).map (·.1) = (leavesL p i cs).map (·.1) := by
  rw [← preorderL_leaves]
  generalize preorderL p i cs = l
  induction l with
  | nil => rfl
  | cons q l ih =>
    obtain ⟨p, n⟩ := q
    cases n with
    | tok t => simp [isCtx_tok, ih]
    | ctx l cs => simp [isCtx_ctx, ih]

mutual
theorem preorder_rel : (n : Node α L A) → (p q : List Nat) → (m : Node α L A) → (q, m) ∈ n.preorder p →
    ∃ s, q = p ++ s ∧ n.at s = some m
  | .tok t, p, q, m, h => by
    simp only [Node.preorder, List.mem_singleton, Prod.mk.injEq] at h
    exact ⟨[], by simp [h.1], by rw [h.2]; rfl⟩
  | .ctx l cs, p, q, m, h => by
    simp only [Node.preorder, List.mem_cons, Prod.mk.injEq] at h
    rcases h with ⟨h1, h2⟩ | h
    · exact ⟨[], by simp [h1], by rw [h2]; rfl⟩
    · obtain ⟨j, s, c, h1, h2, h3⟩ := preorderL_rel cs p 0 q m h
      refine ⟨j :: s, by simpa using h1, ?_⟩
      simp [Node.at, Node.kids, h2, h3]
theorem preorderL_rel : (cs : List (Node α L A)) → (p : List Nat) → (i : Nat) → (q : List Nat) → (m : Node α L A) →
    (q, m) ∈ preorderL p i cs → ∃ j s c, q = p ++ (i + j) :: s ∧ cs[j]? = some c ∧ c.at s = some m
  | [], _, _, _, _, h => by simp [preorderL] at h
  | n :: cs, p, i, q, m, h => by
    simp only [preorderL, List.mem_append] at h
    rcases h with h | h
    · obtain ⟨s, h1, h2⟩ := preorder_rel n (p ++ [i]) q m h
      exact ⟨0, s, n, by simp [h1], rfl, h2⟩
    · obtain ⟨j, s, c, h1, h2, h3⟩ := preorderL_rel cs p (i + 1) q m h
      exact ⟨j + 1, s, c, by rw [h1, show i + 1 + j = i + (j + 1) from by omega], by simpa using h2, h3⟩
end

mutual
theorem mem_preorder : (n : Node α L A) → (p q : List Nat) → (m : Node α L A) → n.at q = some m → (p ++ q, m) ∈ n.preorder p
  | .tok t, p, [], m, h => by
    simp only [Node.at, Option.some.injEq] at h
    subst h; simp [Node.preorder]
  | .tok t, p, i :: q, m, h => by simp [Node.at, Node.kids] at h
  | .ctx l cs, p, [], m, h => by
    simp only [Node.at, Option.some.injEq] at h
    subst h; simp [Node.preorder]
  | .ctx l cs, p, i :: q, m, h => by
    simp only [Node.at, Node.kids] at h
    cases hi : cs[i]? with
    | none => simp [hi] at h
    | some c =>
      rw [hi] at h
      have := mem_preorderL cs p 0 i q c m hi h
      simp only [Nat.zero_add] at this
      simp only [Node.preorder, List.mem_cons]
      exact Or.inr this
theorem mem_preorderL : (cs : List (Node α L A)) → (p : List Nat) → (k i : Nat) → (q : List Nat) → (c m : Node α L A) →
    cs[i]? = some c → c.at q = some m → (p ++ (k + i) :: q, m) ∈ preorderL p k cs
  | [], _, _, _, _, _, _, h, _ => by simp at h
  | n :: cs, p, k, 0, q, c, m, hc, h => by
    simp only [List.getElem?_cons_zero, Option.some.injEq] at hc
    subst hc
    have := mem_preorder n (p ++ [k]) q m h
    simp only [preorderL, List.mem_append]
    left
    simpa using this
  | n :: cs, p, k, i + 1, q, c, m, hc, h => by
    have := mem_preorderL cs p (k + 1) i q c m (by simpa using hc) h
    simp only [preorderL, List.mem_append]
    right
    rwa [show k + (i + 1) = k + 1 + i from by omega]
end

mutual
theorem preorder_prefix : (n : Node α L A) → (p : List Nat) → ∀ q ∈ n.preorder p, ∃ s, q.1 = p ++ s
  | .tok t, p, q, hq => by
    simp only [Node.preorder, List.mem_singleton] at hq
    subst hq; exact ⟨[], by simp⟩
  | .ctx l cs, p, q, hq => by
    simp only [Node.preorder, List.mem_cons] at hq
    rcases hq with rfl | hq
    · exact ⟨[], by simp⟩
    · obtain ⟨j, s, _, h⟩ := preorderL_prefix cs p 0 q hq
      exact ⟨j :: s, h⟩
theorem preorderL_prefix : (cs : List (Node α L A)) → (p : List Nat) → (i : Nat) → ∀ q ∈ preorderL p i cs,
    ∃ j s, i ≤ j ∧ q.1 = p ++ j :: s
  | [], _, _, _, hq => by simp [preorderL] at hq
  | n :: cs, p, i, q, hq => by
    simp only [preorderL, List.mem_append] at hq
    rcases hq with hq | hq
    · obtain ⟨s, h⟩ := preorder_prefix n (p ++ [i]) q hq
      exact ⟨i, s, Nat.le_refl _, by rw [h]; simp⟩
    · obtain ⟨j, s, h1, h2⟩ := preorderL_prefix cs p (i + 1) q hq
      exact ⟨j, s, by omega, h2⟩
end

mutual
theorem preorder_nodup : (n : Node α L A) → (p : List Nat) → ((n.preorder p).map (·.1)).Nodup
  | .tok t, p => by simp [Node.preorder]
  | .ctx l cs, p => by
    simp only [Node.preorder, List.map_cons, List.nodup_cons]
    refine ⟨?_, preorderL_nodup cs p 0⟩
    intro h
    obtain ⟨q, hq, he⟩ := List.mem_map.1 h
    obtain ⟨j, s, _, h'⟩ := preorderL_prefix cs p 0 q hq
    rw [h'] at he
    have := congrArg List.length he
    simp at this
theorem preorderL_nodup : (cs : List (Node α L A)) → (p : List Nat) → (i : Nat) → ((preorderL p i cs).map (·.1)).Nodup
  | [], _, _ => by simp [preorderL]
  | n :: cs, p, i => by
    simp only [preorderL, List.map_append]
    rw [List.nodup_append]
    refine ⟨preorder_nodup n _, preorderL_nodup cs p (i + 1), ?_⟩
    intro a ha b hb hab
    subst hab
    obtain ⟨q, hq, he⟩ := List.mem_map.1 ha
    obtain ⟨q', hq', he'⟩ := List.mem_map.1 hb
    obtain ⟨s, h1⟩ := preorder_prefix n _ q hq
    obtain ⟨j, s', h2, h3⟩ := preorderL_prefix cs p (i + 1) q' hq'
    rw [← he', h3, h1, List.append_assoc] at he
    have := List.append_cancel_left he
    simp at this
    omega
end

/-! ## Selectors -/

theorem hasSub_iff [DecidableEq α] (sub : List α) : (t : List α) → (hasSub sub t = true ↔ sub <:+: t)
  | [] => by simp [hasSub, List.isPrefixOf_iff_prefix]
  | a :: t => by
    simp only [hasSub, Bool.or_eq_true, List.isPrefixOf_iff_prefix, hasSub_iff sub t]
    exact List.infix_cons_iff.symm

theorem yields_iff [DecidableEq α] [DecidableEq L] [DecidableEq A] (s : Sel α L A) (n : Node α L A) :
    s.yields false n = true ↔ s.Holds n := by
  cases s with
  | len mn mx => cases n <;> cases mx <;> simp [Sel.yields, Sel.Holds]
  | inRange a b => cases n <;> simp [Sel.yields, Sel.Holds]
  | call ts ls => cases n <;> simp [Sel.yields, Sel.Holds]
  | startingwith s =>
    cases n with
    | ctx => simp [Sel.yields, Sel.Holds]
    | tok t =>
      simp only [Sel.yields, Sel.Holds, Bool.false_xor, beq_iff_eq]
      rw [List.prefix_iff_eq_take]
      exact eq_comm
  | endingwith s =>
    cases n with
    | ctx => simp [Sel.yields, Sel.Holds]
    | tok t =>
      simp only [Sel.yields, Sel.Holds, Bool.false_xor, Bool.and_eq_true, decide_eq_true_eq, beq_iff_eq]
      rw [List.suffix_iff_eq_drop]
      constructor
      · rintro ⟨_, h⟩; exact h.symm
      · intro h
        refine ⟨?_, h.symm⟩
        have := congrArg List.length h
        simp at this
        omega
  | containing s => cases n <;> simp [Sel.yields, Sel.Holds, hasSub_iff]
  | matching f => cases n <;> simp [Sel.yields, Sel.Holds]
  | action as => cases n <;> simp [Sel.yields, Sel.Holds]
  | inAction inside as => cases n <;> simp [Sel.yields, Sel.Holds]

theorem yields_inv [DecidableEq α] [DecidableEq L] [DecidableEq A] (s : Sel α L A) (hs : ∀ a b, s ≠ .inRange a b) (n : Node α L A) :
    s.yields true n = (s.kind n && !s.yields false n) := by
  cases s with
  | inRange a b => exact absurd rfl (hs a b)
  | len mn mx => cases n <;> simp [Sel.yields, Sel.kind, Node.isCtx]
  | _ => cases n <;> simp [Sel.yields, Sel.kind, Node.isCtx]

end Parce

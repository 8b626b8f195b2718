import Verif.Lemmas.QueryMap
/-!
# Lemmas for deleting: the last loop
-/
namespace Parce
variable {α L A : Type}

theorem cutsAt_cons (p : List Nat) (s : List (Nat × Nat)) (dels : List (List Nat × List (Nat × Nat))) (q : List Nat) :
    cutsAt ((p, s) :: dels) q = if p = q then s else cutsAt dels q := by
  unfold cutsAt
  rw [List.find?_cons]
  by_cases h : p = q <;> simp [h]

structure LInv (root : Node α L A) (d0 : DelMap) (rest : DelMap) (dels : List (List Nat × List (Nat × Nat))) : Prop where
  keys : (rest.map (·.1)).Nodup
  entries : ∀ e ∈ rest, e.2 ≠ [] ∧ e.2.Pairwise (· < ·) ∧ ∀ j, j ∈ e.2 ↔ j ∈ dGet d0 e.1
  todo : ∀ p ∈ rest.map (·.1), cutsAt dels p = []
  desc : ∀ p, DescS (root.kidsAt p).length (cutsAt dels p)
  sub : ∀ p j, inSlices (cutsAt dels p) j = true → j ∈ dGet d0 p
  done : ∀ p, p ∉ rest.map (·.1) → ∀ j, j ∈ dGet d0 p → inSlices (cutsAt dels p) j = true

theorem delLoop_spec {root : Node α L A} (hfull : FullL root.kids) (hord : Ordered root.toks) {d0 : DelMap} (hd : DInv root d0)
    (hrem : Remains root (Td d0)) : (rest : DelMap) → (dels : List (List Nat × List (Nat × Nat))) → LInv root d0 rest dels →
    ∃ dels', delLoop root rest dels = some dels' ∧ LInv root d0 [] dels'
  | [], dels, h => ⟨dels, rfl, h⟩
  | (p, nodes) :: rest, dels, h => by
    obtain ⟨hne, hasc, hmem⟩ := h.entries (p, nodes) (by simp)
    simp only at hne hasc hmem
    obtain ⟨i0, hi0⟩ := List.exists_mem_of_ne_nil _ hne
    obtain ⟨l, cs, hat, hlt⟩ := at_of_kids (hd.bound p i0 ((hmem i0).1 hi0))
    have hk := kidsAt_eq hat
    have hcut : cutsAt dels p = [] := h.todo p (by simp)
    have hT : ∀ q, Tdels dels q = true → Td d0 q = true := by
      intro q hq
      by_cases hq0 : q = []
      · subst hq0; simp [Tdels] at hq
      · rw [concat_split hq0, Tdels_concat] at hq
        rw [concat_split hq0, Td_concat]
        simpa using h.sub _ _ hq
    have hrem' : Remains root (Tdels dels) := by
      intro q l' cs' hq hat'
      obtain ⟨i, hi, hi'⟩ := hrem q l' cs' hq hat'
      refine ⟨i, hi, ?_⟩
      cases hc : Tdels dels (q ++ [i]) with
      | false => rfl
      | true => rw [hT _ hc] at hi'; cases hi'
    have hkid : ∀ j n, cs[j]? = some n → root.at (p ++ [0 + j]) = some n := by
      intro j n hn
      rw [at_append, hat]
      simp [Node.at, Node.kids, hn]
    have hcur : delL dels p 0 cs = plainL (Tdels dels) p 0 cs := by
      rw [← delL_plain root dels (fun q l' cs' hq => by have := h.desc q; rwa [kidsAt_eq hq] at this) cs p 0 hkid]
      rw [keepIdx_none _ _ _ (fun j _ _ => by rw [hcut]; rfl)]
    have hcf : FullL (delL dels p 0 cs) := by rw [hcur]; exact fullL_plain hrem' cs p 0 hkid
    have hco : Ordered (toksL (delL dels p 0 cs)) := by
      rw [hcur]
      exact Ordered.sublist (toks_kids (at_wf hfull hord hat).2) (toksL_plain _ cs p 0)
    have hpi : ∀ j, j < (delL dels p 0 cs).length → parentIndex (delL dels p 0 cs) j = j :=
      fun j hj => parentIndex_eq hcf hco (List.getElem?_eq_getElem hj)
    obtain ⟨sl, e1, e2, e3⟩ := slicesOf_spec hpi nodes hne hasc (fun n hn => by
      rw [delL_length]
      have := hd.bound p n ((hmem n).1 hn)
      rw [hk] at this
      exact this)
    rw [delL_length] at e2
    rw [delLoop]
    rw [show root.kidsAt p = cs from hk, e1]
    simp only
    have hkeys := h.keys
    rw [List.map_cons, List.nodup_cons] at hkeys
    refine delLoop_spec hfull hord hd hrem rest ((p, sl) :: dels) ⟨hkeys.2, fun e he => h.entries e (by simp [he]), ?_, ?_, ?_, ?_⟩
    · intro q hq
      rw [cutsAt_cons, if_neg (fun hpq : p = q => hkeys.1 (hpq ▸ hq))]
      exact h.todo q (by simp only [List.map_cons, List.mem_cons]; exact Or.inr hq)
    · intro q
      rw [cutsAt_cons]
      split
      · next hpq => rw [← hpq, show root.kidsAt p = cs from hk]; exact e2
      · exact h.desc q
    · intro q j hj
      rw [cutsAt_cons] at hj
      split at hj
      · next hpq => rw [← hpq]; exact (hmem j).1 ((e3 j).1 hj)
      · exact h.sub q j hj
    · intro q hq j hj
      rw [cutsAt_cons]
      split
      · next hpq => subst hpq; exact (e3 j).2 ((hmem j).2 hj)
      · next hpq =>
        exact h.done q (by
          simp only [List.map_cons, List.mem_cons, not_or]
          exact ⟨fun h => hpq h.symm, hq⟩) j hj

theorem sum_members (d : DelMap) : (d.map (fun e => e.2.length)).sum = (d.flatMap (fun e => e.2.map (fun j => e.1 ++ [j]))).length := by
  induction d with
  | nil => rfl
  | cons e d ih => rw [List.map_cons, List.sum_cons, List.flatMap_cons, List.length_append, List.length_map, ih]

theorem members_nodup {root : Node α L A} {d : DelMap} (h : DInv root d) : (d.flatMap (fun e => e.2.map (fun j => e.1 ++ [j]))).Nodup := by
  have key : ∀ d : DelMap, (d.map (·.1)).Nodup → (∀ e ∈ d, e.2.Nodup) → (d.flatMap (fun e => e.2.map (fun j => e.1 ++ [j]))).Nodup := by
    intro d
    induction d with
    | nil => intro _ _; simp
    | cons e d ih =>
      intro hk hn
      rw [List.map_cons, List.nodup_cons] at hk
      rw [List.flatMap_cons, List.nodup_append]
      refine ⟨?_, ih hk.2 (fun e he => hn e (by simp [he])), ?_⟩
      · unfold List.Nodup
        rw [List.pairwise_map]
        refine (hn e (by simp)).imp ?_
        intro a b hab he
        exact hab (by simpa using he)
      · intro a ha b hb hab
        subst hab
        obtain ⟨j, _, rfl⟩ := List.mem_map.1 ha
        obtain ⟨e', he', hb⟩ := List.mem_flatMap.1 hb
        obtain ⟨j', _, heq⟩ := List.mem_map.1 hb
        have := (List.append_inj' heq rfl).1
        exact hk.1 (List.mem_map.2 ⟨e', he', this⟩)
  exact key d h.keys (fun e he => by rw [← mem_dGet h.keys he]; exact h.nodup e.1)

theorem mem_members {root : Node α L A} {d : DelMap} (h : DInv root d) (q : List Nat) :
    q ∈ d.flatMap (fun e => e.2.map (fun j => e.1 ++ [j])) ↔ Td d q = true := by
  rw [List.mem_flatMap]
  constructor
  · rintro ⟨e, he, hq⟩
    obtain ⟨j, hj, rfl⟩ := List.mem_map.1 hq
    rw [Td_concat, mem_dGet h.keys he]
    simpa using hj
  · intro hT
    have hq : q ≠ [] := by intro h0; rw [h0, Td_nil] at hT; cases hT
    rw [concat_split hq, Td_concat] at hT
    have hT' : q.getLast?.getD 0 ∈ dGet d q.dropLast := by simpa using hT
    exact ⟨_, dGet_mem hT', List.mem_map.2 ⟨_, hT', (concat_split hq).symm⟩⟩

theorem DInv.antichain {root : Node α L A} {d : DelMap} (h : DInv root d) (p s : List Nat) (hp : Td d p = true) (hs : s ≠ []) :
    Td d (p ++ s) = false := by
  obtain ⟨s', k, rfl⟩ : ∃ s' k, s = s' ++ [k] := ⟨s.dropLast, s.getLast hs, (List.dropLast_concat_getLast hs).symm⟩
  rw [← List.append_assoc, Td_concat]
  rw [decide_eq_false_iff_not]
  intro hk
  have := h.anti _ k hk p (List.prefix_append _ _)
  rw [this] at hp
  cases hp

theorem DInv.count {l : L} {cs : List (Node α L A)} {d : DelMap} (h : DInv (.ctx l cs) d) (hrem : Remains (.ctx l cs) (Td d)) :
    (d.map (fun e => e.2.length)).sum = removedL (Td d) [] 0 cs := by
  rw [removedL_count hrem h.antichain cs [] 0 (fun j n hn => by simp [Node.at, Node.kids, hn]), sum_members]
  rw [← List.length_map (as := (preorderL [] 0 cs).filter _) (f := (·.1))]
  refine List.Perm.length_eq ((List.perm_ext_iff_of_nodup (members_nodup h) ?_).2 ?_)
  · exact (preorderL_nodup cs [] 0).sublist (List.filter_sublist.map _)
  · intro q
    rw [mem_members h]
    constructor
    · intro hT
      have hq : q ≠ [] := by intro h0; rw [h0, Td_nil] at hT; cases hT
      have hT' := hT
      rw [concat_split hq, Td_concat] at hT'
      have hb := h.bound q.dropLast (q.getLast?.getD 0) (by simpa using hT')
      obtain ⟨l', cs', hat, hlt⟩ := at_of_kids hb
      have hatq : (Node.ctx l cs).at q = some cs'[q.getLast?.getD 0] := by
        have hsp := concat_split hq
        have : (Node.ctx l cs).at q = (Node.ctx l cs).at (q.dropLast ++ [q.getLast?.getD 0]) := congrArg _ hsp
        rw [this, at_append, hat]
        simp only [Option.bind_some, Node.at, Node.kids]
        rw [List.getElem?_eq_getElem hlt]
        rfl
      have := mem_preorder _ [] q _ hatq
      simp only [List.nil_append, Node.preorder, List.mem_cons, Prod.mk.injEq, hq, false_and, false_or] at this
      exact List.mem_map.2 ⟨_, List.mem_filter.2 ⟨this, hT⟩, rfl⟩
    · intro hm
      obtain ⟨x, hx, rfl⟩ := List.mem_map.1 hm
      exact (List.mem_filter.1 hx).2

/-! ## Unique nodes -/

theorem uniqLoop_spec : (q seen : List (List Nat)) → (uniqLoop seen q).Nodup ∧
    ∀ p, p ∈ uniqLoop seen q ↔ p ∈ q ∧ p ∉ seen
  | [], seen => by simp [uniqLoop]
  | x :: q, seen => by
    rw [uniqLoop]
    split
    · next h =>
      obtain ⟨h1, h2⟩ := uniqLoop_spec q seen
      refine ⟨h1, fun p => ?_⟩
      rw [h2]
      constructor
      · rintro ⟨a, b⟩; exact ⟨by simp [a], b⟩
      · rintro ⟨a, b⟩
        rcases List.mem_cons.1 a with rfl | a
        · exact absurd h b
        · exact ⟨a, b⟩
    · next h =>
      obtain ⟨h1, h2⟩ := uniqLoop_spec q (x :: seen)
      refine ⟨List.nodup_cons.2 ⟨fun hx => ((h2 x).1 hx).2 (by simp), h1⟩, fun p => ?_⟩
      rw [List.mem_cons, h2]
      simp only [List.mem_cons, not_or]
      constructor
      · rintro (rfl | ⟨a, b, c⟩)
        · exact ⟨Or.inl rfl, h⟩
        · exact ⟨Or.inr a, c⟩
      · rintro ⟨a | a, b⟩
        · exact Or.inl a
        · by_cases hp : p = x
          · exact Or.inl hp
          · exact Or.inr ⟨a, hp, b⟩

theorem mem_ancestors (p a : List Nat) : a ∈ ancestorsOf p ↔ a <+: p ∧ a ≠ p := by
  unfold ancestorsOf
  simp only [List.mem_map, List.mem_reverse, List.mem_range]
  constructor
  · rintro ⟨k, hk, rfl⟩
    refine ⟨List.take_prefix _ _, fun h => ?_⟩
    have := congrArg List.length h
    simp at this
    omega
  · rintro ⟨h1, h2⟩
    refine ⟨a.length, ?_, (List.prefix_iff_eq_take.1 h1).symm⟩
    have := h1.length_le
    by_cases he : a.length = p.length
    · exact absurd (h1.eq_of_length he) h2
    · omega

theorem mem_removeDesc (q : List (List Nat)) (p : List Nat) :
    p ∈ qRemoveDescendants q ↔ p ∈ q ∧ ∀ a ∈ q, a <+: p → a = p := by
  unfold qRemoveDescendants
  rw [List.mem_filter]
  simp only [Bool.not_eq_true', List.any_eq_false, decide_eq_true_eq]
  constructor
  · rintro ⟨h1, h2⟩
    refine ⟨h1, fun a ha hp => ?_⟩
    by_cases he : a = p
    · exact he
    · exact absurd ha (h2 a ((mem_ancestors p a).2 ⟨hp, he⟩))
  · rintro ⟨h1, h2⟩
    refine ⟨h1, fun a ha haq => ?_⟩
    obtain ⟨h3, h4⟩ := (mem_ancestors p a).1 ha
    exact h4 (h2 a haq h3)

/-- Every selected node is in one of the topmost ones. -/
theorem top_exists (q : List (List Nat)) : (n : Nat) → (p : List Nat) → p.length ≤ n → p ∈ q → ∃ a, a <+: p ∧ a ∈ qRemoveDescendants q
  | n, p, hn, hp => by
    by_cases h : ∃ a ∈ q, a <+: p ∧ a ≠ p
    · obtain ⟨a, ha, h1, h2⟩ := h
      have hlt : a.length < p.length := by
        have := h1.length_le
        by_cases he : a.length = p.length
        · exact absurd (h1.eq_of_length he) h2
        · omega
      match n, hn with
      | 0, hn => omega
      | n + 1, hn =>
        obtain ⟨b, hb1, hb2⟩ := top_exists q n a (by omega) ha
        exact ⟨b, hb1.trans h1, hb2⟩
    · refine ⟨p, List.prefix_rfl, (mem_removeDesc q p).2 ⟨hp, fun a ha hap => ?_⟩⟩
      by_cases he : a = p
      · exact he
      · exact absurd ⟨a, ha, hap, he⟩ h

end Parce

import Verif.Lemmas.QueryDelete
/-!
# Lemmas for deleting: the dictionary
-/
namespace Parce
variable {α L A : Type}

def dGet (d : DelMap) (p : List Nat) : List Nat := ((d.find? (fun e => decide (e.1 = p))).map (·.2)).getD []

/-- What is deleted. -/
def Td (d : DelMap) (q : List Nat) : Bool := !q.isEmpty && decide (q.getLast?.getD 0 ∈ dGet d q.dropLast)

theorem Td_concat (d : DelMap) (p : List Nat) (j : Nat) : Td d (p ++ [j]) = decide (j ∈ dGet d p) := by
  simp [Td]

theorem Td_nil (d : DelMap) : Td d [] = false := rfl

theorem dGet_nil (p : List Nat) : dGet [] p = [] := rfl

theorem dGet_cons (e : List Nat × List Nat) (d : DelMap) (p : List Nat) : dGet (e :: d) p = if e.1 = p then e.2 else dGet d p := by
  unfold dGet
  rw [List.find?_cons]
  by_cases h : e.1 = p <;> simp [h]

theorem dGet_append (k : List Nat) (i : Nat) (p : List Nat) : (d : DelMap) →
    dGet (dAppend d k i) p = if p = k then dGet d p ++ [i] else dGet d p
  | [] => by
    rw [dAppend, dGet_cons, dGet_nil]
    by_cases h : p = k
    · subst h; simp
    · rw [if_neg (fun h' => h h'.symm), if_neg h]
  | e :: d => by
    rw [dAppend]
    by_cases hk : e.1 = k
    · rw [if_pos hk, dGet_cons, dGet_cons]
      by_cases h : p = k
      · subst h; simp [hk]
      · rw [if_neg (by rw [hk]; exact fun h' => h h'.symm), if_neg h, if_neg (by rw [hk]; exact fun h' => h h'.symm)]
    · rw [if_neg hk, dGet_cons, dGet_cons, dGet_append k i p d]
      by_cases h : p = k
      · subst h
        rw [if_neg hk, if_neg hk]
      · rw [if_neg h, if_neg h]

theorem dGet_filter (n p : List Nat) : (d : DelMap) →
    dGet (d.filter (fun e => !decide (e.1 = n))) p = if p = n then [] else dGet d p
  | [] => by simp [dGet_nil]
  | e :: d => by
    rw [List.filter_cons]
    by_cases he : e.1 = n
    · simp only [he, decide_true, Bool.not_true, Bool.false_eq_true, if_false]
      rw [dGet_filter n p d, dGet_cons]
      by_cases h : p = n
      · rw [if_pos h, if_pos h]
      · rw [if_neg h, if_neg h, if_neg (by rw [he]; exact fun h' => h h'.symm)]
    · simp only [he, decide_false, Bool.not_false, if_true]
      rw [dGet_cons, dGet_cons, dGet_filter n p d]
      by_cases h : e.1 = p
      · rw [if_pos h, if_neg (by rw [← h]; exact he), if_pos h]
      · rw [if_neg h, if_neg h]

theorem keys_append (k : List Nat) (i : Nat) : (d : DelMap) → ((dAppend d k i).map (·.1)) =
    if k ∈ d.map (·.1) then d.map (·.1) else d.map (·.1) ++ [k]
  | [] => by simp [dAppend]
  | e :: d => by
    rw [dAppend]
    by_cases hk : e.1 = k
    · simp [hk]
    · rw [if_neg hk]
      have hk' : ¬ k = e.1 := fun h => hk h.symm
      simp only [List.map_cons, keys_append k i d, List.mem_cons, hk', false_or]
      split <;> simp

theorem entry_append (k : List Nat) (i : Nat) : (d : DelMap) → (∀ e ∈ d, e.2 ≠ []) → ∀ e ∈ dAppend d k i, e.2 ≠ []
  | [], _, e, he => by
    simp only [dAppend, List.mem_singleton] at he
    subst he; simp
  | x :: d, h, e, he => by
    rw [dAppend] at he
    split at he
    · rcases List.mem_cons.1 he with rfl | he
      · simp
      · exact h e (by simp [he])
    · rcases List.mem_cons.1 he with rfl | he
      · exact h e (by simp)
      · exact entry_append k i d (fun e he => h e (by simp [he])) e he

theorem mem_dGet {d : DelMap} (hk : (d.map (·.1)).Nodup) {e : List Nat × List Nat} (he : e ∈ d) : dGet d e.1 = e.2 := by
  induction d with
  | nil => simp at he
  | cons x d ih =>
    rw [dGet_cons]
    simp only [List.map_cons, List.nodup_cons] at hk
    rcases List.mem_cons.1 he with rfl | he
    · simp
    · rw [if_neg, ih hk.2 he]
      intro h
      exact hk.1 (List.mem_map.2 ⟨e, he, h.symm⟩)

theorem dGet_mem {d : DelMap} {p : List Nat} {i : Nat} (h : i ∈ dGet d p) : (p, dGet d p) ∈ d := by
  induction d with
  | nil => simp [dGet_nil] at h
  | cons x d ih =>
    rw [dGet_cons] at h ⊢
    split at h
    · next he => rw [if_pos he, ← he]; simp
    · next he => rw [if_neg he]; exact List.mem_cons_of_mem _ (ih h)

theorem concat_split {q : List Nat} (hq : q ≠ []) : q = q.dropLast ++ [q.getLast?.getD 0] := by
  rw [List.getLast?_eq_some_getLast hq]
  exact (List.dropLast_concat_getLast hq).symm

theorem Td_add (d : DelMap) {n : List Nat} (hn : n ≠ []) (q : List Nat) : Td (dAdd d n) q = (Td d q || decide (q = n)) := by
  by_cases hq : q = []
  · subst hq
    have : ¬ [] = n := fun h => hn h.symm
    simp [Td_nil, this]
  · rw [concat_split hq, Td_concat, Td_concat, dAdd, dGet_append]
    generalize q.dropLast = p
    generalize q.getLast?.getD 0 = j
    have hiff : (p ++ [j] = n) ↔ p = n.dropLast ∧ j = n.getLast?.getD 0 := by
      constructor
      · intro h; subst h; simp
      · rintro ⟨rfl, rfl⟩; exact (concat_split hn).symm
    by_cases hp : p = n.dropLast
    · rw [if_pos hp]
      rw [Bool.eq_iff_iff, Bool.or_eq_true, decide_eq_true_iff, decide_eq_true_iff, decide_eq_true_iff, hiff]
      simp [hp]
    · rw [if_neg hp]
      rw [Bool.eq_iff_iff, Bool.or_eq_true, decide_eq_true_iff, decide_eq_true_iff, hiff]
      simp [hp]

structure DInv (root : Node α L A) (d : DelMap) : Prop where
  keys : (d.map (·.1)).Nodup
  ne : ∀ e ∈ d, e.2 ≠ []
  nodup : ∀ p, (dGet d p).Nodup
  bound : ∀ p i, i ∈ dGet d p → i < (root.kidsAt p).length
  anti : ∀ p i, i ∈ dGet d p → ∀ q, q <+: p → Td d q = false

/-! ## Making the dictionary -/

theorem foldl_dAdd : (ns : List (List Nat)) → (d : DelMap) → (∀ n ∈ ns, n ≠ []) → ns.Nodup → (∀ n ∈ ns, Td d n = false) →
    (d.map (·.1)).Nodup → (∀ e ∈ d, e.2 ≠ []) → (∀ p, (dGet d p).Nodup) →
    ((ns.foldl dAdd d).map (·.1)).Nodup ∧ (∀ e ∈ ns.foldl dAdd d, e.2 ≠ []) ∧ (∀ p, (dGet (ns.foldl dAdd d) p).Nodup) ∧
    ∀ q, Td (ns.foldl dAdd d) q = (Td d q || decide (q ∈ ns))
  | [], d, _, _, _, h1, h2, h3 => ⟨h1, h2, h3, by simp⟩
  | n :: ns, d, hne, hnd, hT, h1, h2, h3 => by
    rw [List.nodup_cons] at hnd
    have hn := hne n (by simp)
    have hTn := hT n (by simp)
    obtain ⟨e1, e2, e3, e4⟩ := foldl_dAdd ns (dAdd d n) (fun m hm => hne m (by simp [hm])) hnd.2 (fun m hm => by
        rw [Td_add d hn, hT m (by simp [hm])]
        have : m ≠ n := by intro h; subst h; exact hnd.1 hm
        simp [this])
      (by
        rw [dAdd, keys_append]
        split
        · exact h1
        · next hk =>
          rw [List.nodup_append]
          refine ⟨h1, by simp, ?_⟩
          intro a ha b hb hab
          rw [List.mem_singleton.1 hb] at hab
          exact hk (hab ▸ ha))
      (entry_append _ _ d h2)
      (by
        intro p
        rw [dAdd, dGet_append]
        split
        · next hp =>
          rw [List.nodup_append]
          refine ⟨h3 p, by simp, ?_⟩
          intro a ha b hb hab
          rw [List.mem_singleton.1 hb] at hab
          rw [concat_split hn, Td_concat] at hTn
          rw [hab, hp] at ha
          simp [ha] at hTn
        · exact h3 p)
    refine ⟨e1, e2, e3, fun q => ?_⟩
    rw [List.foldl_cons, e4, Td_add d hn]
    by_cases hq : q = n <;> simp [hq]

/-! ## Moving up -/

theorem at_of_kids {root : Node α L A} {p : List Nat} {i : Nat} (h : i < (root.kidsAt p).length) :
    ∃ l cs, root.at p = some (.ctx l cs) ∧ i < cs.length := by
  unfold Node.kidsAt at h
  cases hp : root.at p with
  | none => simp [hp] at h
  | some n =>
    cases n with
    | tok t => simp [hp, Node.kids] at h
    | ctx l cs => exact ⟨l, cs, rfl, by simpa [hp, Node.kids] using h⟩

theorem at_prefix {root : Node α L A} {p s : List Nat} {n : Node α L A} (h : root.at (p ++ s) = some n) : ∃ m, root.at p = some m ∧ m.at s = some n := by
  rw [at_append] at h
  cases hp : root.at p with
  | none => simp [hp] at h
  | some m => exact ⟨m, rfl, by simpa [hp] using h⟩

theorem at_index {n m : Node α L A} {i : Nat} {s : List Nat} (h : n.at (i :: s) = some m) : i < n.kids.length := by
  simp only [Node.at] at h
  cases hi : n.kids[i]? with
  | none => simp [hi] at h
  | some c => exact (List.getElem?_eq_some_iff.1 hi).1

theorem dGet_up (d : DelMap) {n : List Nat} (hn : n ≠ []) (p : List Nat) :
    dGet (dUp d n) p = if p = n then [] else if p = n.dropLast then dGet d p ++ [n.getLast?.getD 0] else dGet d p := by
  have hne : n.dropLast ≠ n := by
    intro h
    have h1 := congrArg List.length h
    have h2 := List.length_pos_iff.2 hn
    rw [List.length_dropLast] at h1
    omega
  rw [dUp, dAdd, dGet_append, dGet_filter]
  by_cases h1 : p = n
  · subst h1
    rw [if_neg (fun h => hne h.symm)]
    simp
  · rw [if_neg h1, if_neg h1]

theorem Td_up (d : DelMap) {n : List Nat} (hn : n ≠ []) (q : List Nat) :
    Td (dUp d n) q = true ↔ (Td d q = true ∧ q.dropLast ≠ n) ∨ q = n := by
  by_cases hq : q = []
  · subst hq
    simp only [Td_nil, Bool.false_eq_true, false_and, false_or, false_iff]
    exact fun h => hn h.symm
  · rw [concat_split hq, Td_concat, Td_concat, dGet_up d hn]
    generalize q.dropLast = p
    generalize q.getLast?.getD 0 = j
    have hiff : (p ++ [j] = n) ↔ p = n.dropLast ∧ j = n.getLast?.getD 0 := by
      constructor
      · intro h; subst h; simp
      · rintro ⟨rfl, rfl⟩; exact (concat_split hn).symm
    rw [List.dropLast_concat, hiff]
    have hne : n.dropLast ≠ n := by
      intro h
      have h1 := congrArg List.length h
      have h2 := List.length_pos_iff.2 hn
      rw [List.length_dropLast] at h1
      omega
    by_cases h1 : p = n
    · subst h1
      simp only [if_true, List.not_mem_nil, decide_false, Bool.false_eq_true, ne_eq, not_true_eq_false, and_false, false_or, false_iff]
      exact fun h => hne h.1.symm
    · rw [if_neg h1]
      by_cases h2 : p = n.dropLast
      · rw [if_pos h2]
        simp [h2, hne]
      · rw [if_neg h2]
        simp [h1, h2]

theorem DInv.up {root : Node α L A} {d : DelMap} (h : DInv root d) {n : List Nat} (hn : n ≠ []) {i0 : Nat} (h0 : i0 ∈ dGet d n)
    (hall : ∀ j, j < (root.kidsAt n).length → j ∈ dGet d n) : DInv root (dUp d n) := by
  obtain ⟨ln, csn, hatn, hlen⟩ := at_of_kids (h.bound n i0 h0)
  have hTn : Td d n = false := h.anti n i0 h0 n List.prefix_rfl
  refine ⟨?_, ?_, ?_, ?_, ?_⟩
  · rw [dUp, dAdd, keys_append]
    have hf : ((d.filter (fun e => !decide (e.1 = n))).map (·.1)).Nodup := h.keys.sublist (List.filter_sublist.map _)
    split
    · exact hf
    · next hk =>
      rw [List.nodup_append]
      refine ⟨hf, by simp, ?_⟩
      intro a ha b hb hab
      rw [List.mem_singleton.1 hb] at hab
      exact hk (hab ▸ ha)
  · exact entry_append _ _ _ (fun e he => h.ne e (List.mem_filter.1 he).1)
  · intro p
    rw [dGet_up d hn]
    split
    · simp
    · split
      · next hp =>
        rw [List.nodup_append]
        refine ⟨h.nodup p, by simp, ?_⟩
        intro a ha b hb hab
        rw [List.mem_singleton.1 hb] at hab
        rw [concat_split hn, Td_concat] at hTn
        rw [hab, hp] at ha
        simp [ha] at hTn
      · exact h.nodup p
  · intro p i hi
    rw [dGet_up d hn] at hi
    split at hi
    · simp at hi
    · split at hi
      · next hp =>
        rcases List.mem_append.1 hi with hi | hi
        · exact h.bound p i hi
        · rw [List.mem_singleton.1 hi, hp]
          rw [concat_split hn] at hatn
          obtain ⟨m, hm1, hm2⟩ := at_prefix hatn
          rw [kidsAt_eq hm1]
          exact at_index hm2
      · exact h.bound p i hi
  · intro p i hi q hq
    rw [Bool.eq_false_iff]
    intro hT
    rw [Td_up d hn] at hT
    rw [dGet_up d hn] at hi
    split at hi
    · simp at hi
    · next hpn =>
      have old : i ∈ dGet d p → False := by
        intro hi'
        clear hi
        rcases hT with ⟨hT, _⟩ | hT
        · rw [h.anti p i hi' q hq] at hT; cases hT
        · subst hT
          obtain ⟨s, rfl⟩ := hq
          cases s with
          | nil => simp at hpn
          | cons k s =>
            obtain ⟨l', cs', hat', _⟩ := at_of_kids (h.bound _ i hi')
            obtain ⟨m, hm1, hm2⟩ := at_prefix hat'
            have hk := at_index hm2
            have := hall k (by rw [kidsAt_eq hm1]; exact hk)
            have h1 := h.anti _ i hi' (q ++ [k]) ⟨s, by simp⟩
            rw [Td_concat] at h1
            simp [this] at h1
      split at hi
      · next hp =>
        rcases List.mem_append.1 hi with hi | hi
        · exact old hi
        · subst hp
          rcases hT with ⟨hT, _⟩ | hT
          · rw [h.anti n i0 h0 q (hq.trans (List.dropLast_prefix n))] at hT; cases hT
          · subst hT
            have h1 := hq.length_le
            have h2 := List.length_pos_iff.2 hn
            rw [List.length_dropLast] at h1
            omega
      · exact old hi

theorem dWork_append (k : List Nat) (i : Nat) : (d : DelMap) → dWork (dAppend d k i) ≤ dWork d + (k.length + 1)
  | [] => by simp [dAppend, dWork]
  | e :: d => by
    have ih := dWork_append k i d
    rw [dAppend]
    unfold dWork at *
    split <;> simp only [List.map_cons, List.sum_cons] <;> omega

theorem dWork_filter (n : List Nat) : (d : DelMap) → dWork (d.filter (fun e => !decide (e.1 = n))) ≤ dWork d ∧
    (n ∈ d.map (·.1) → dWork (d.filter (fun e => !decide (e.1 = n))) + (n.length + 1) ≤ dWork d)
  | [] => by simp [dWork]
  | e :: d => by
    have ih := dWork_filter n d
    rw [List.filter_cons]
    unfold dWork at *
    by_cases he : e.1 = n
    · simp only [he, decide_true, Bool.not_true, Bool.false_eq_true, if_false, List.map_cons, List.sum_cons, List.mem_cons]
      exact ⟨by omega, fun _ => by omega⟩
    · simp only [he, decide_false, Bool.not_false, if_true, List.map_cons, List.sum_cons, List.mem_cons]
      refine ⟨by omega, ?_⟩
      rintro (h | h)
      · exact absurd h.symm he
      · have := ih.2 h; omega

theorem dWork_up (d : DelMap) {n : List Nat} (hn : n ≠ []) (hk : n ∈ d.map (·.1)) : dWork (dUp d n) < dWork d := by
  have h1 := (dWork_filter n d).2 hk
  have h2 := dWork_append n.dropLast (n.getLast?.getD 0) (d.filter (fun e => !decide (e.1 = n)))
  have := List.length_pos_iff.2 hn
  rw [List.length_dropLast] at h2
  unfold dUp dAdd
  omega

theorem all_of_length {n : Nat} {l : List Nat} (hnd : l.Nodup) (hb : ∀ i ∈ l, i < n) : l.length = n ↔ ∀ j, j < n → j ∈ l := by
  constructor
  · intro hl j hj
    have hle := List.Nodup.length_le_of_subset (l₁ := j :: l) (l₂ := List.range n)
    by_cases hm : j ∈ l
    · exact hm
    · have := hle (List.nodup_cons.2 ⟨hm, hnd⟩) (by
        intro x hx
        rcases List.mem_cons.1 hx with rfl | hx
        · exact List.mem_range.2 hj
        · exact List.mem_range.2 (hb x hx))
      simp at this
      omega
  · intro h
    have h1 := List.Nodup.length_le_of_subset hnd (l₂ := List.range n) (fun x hx => List.mem_range.2 (hb x hx))
    have h2 := List.Nodup.length_le_of_subset (List.nodup_range (n := n)) (l₂ := l) (fun x hx => h x (List.mem_range.1 hx))
    simp at h1 h2
    omega

/-- Two dictionaries that prune the same. -/
def SameCut (cs : List (Node α L A)) (d d' : DelMap) : Prop :=
  pruneL (Td d) [] 0 cs = pruneL (Td d') [] 0 cs ∧ removedL (Td d) [] 0 cs = removedL (Td d') [] 0 cs

theorem fold_up (l : L) (cs : List (Node α L A)) : (ns : List (List Nat)) → (d : DelMap) → DInv (.ctx l cs) d → ns.Nodup →
    (∀ n ∈ ns, n ≠ [] ∧ (∃ i, i ∈ dGet d n) ∧ ∀ j, j < ((Node.ctx l cs).kidsAt n).length → j ∈ dGet d n) →
    DInv (.ctx l cs) (ns.foldl dUp d) ∧ SameCut cs d (ns.foldl dUp d) ∧ dWork (ns.foldl dUp d) + ns.length ≤ dWork d
  | [], d, h, _, _ => ⟨h, ⟨rfl, rfl⟩, by simp⟩
  | n :: ns, d, h, hnd, hns => by
    rw [List.nodup_cons] at hnd
    obtain ⟨hn, ⟨i0, hi0⟩, hall⟩ := hns n (by simp)
    have h' := h.up hn hi0 hall
    obtain ⟨e1, e2, e3⟩ := fold_up l cs ns (dUp d n) h' hnd.2 (fun m hm => by
      obtain ⟨g1, ⟨j, g2⟩, g3⟩ := hns m (by simp [hm])
      have hmn : m ≠ n := by intro h; subst h; exact hnd.1 hm
      have hsub : ∀ x, x ∈ dGet d m → x ∈ dGet (dUp d n) m := by
        intro x hx
        rw [dGet_up d hn, if_neg hmn]
        split
        · exact List.mem_append_left _ hx
        · exact hx
      exact ⟨g1, ⟨j, hsub j g2⟩, fun k hk => hsub k (g3 k hk)⟩)
    have hk : n ∈ d.map (·.1) := List.mem_map.2 ⟨_, dGet_mem hi0, rfl⟩
    have hw := dWork_up d hn hk
    obtain ⟨ln, csn, hatn, _⟩ := at_of_kids (h.bound n i0 hi0)
    have hsame := pruneL_up l cs (T := Td d) (U := Td (dUp d n)) n hn (fun j hj => by rw [Td_concat]; simpa using hall j hj)
      (by simp [isCtxAt, hatn, Node.isCtx]) (Td_up d hn) (Td_nil d)
    refine ⟨e1, ⟨hsame.1.trans e2.1, hsame.2.trans e2.2⟩, ?_⟩
    simp only [List.foldl_cons, List.length_cons]
    omega

theorem mem_dFull {root : Node α L A} {d : DelMap} (h : DInv root d) {n : List Nat} (hn : n ∈ dFull root d) :
    n ≠ [] ∧ (∃ i, i ∈ dGet d n) ∧ ∀ j, j < (root.kidsAt n).length → j ∈ dGet d n := by
  obtain ⟨e, he, rfl⟩ := List.mem_map.1 hn
  obtain ⟨he1, he2⟩ := List.mem_filter.1 he
  simp only [Bool.and_eq_true, decide_eq_true_eq, Bool.not_eq_true', List.isEmpty_eq_false_iff] at he2
  have hg := mem_dGet h.keys he1
  refine ⟨he2.2, ?_, ?_⟩
  · rw [hg]
    exact List.exists_mem_of_ne_nil _ (h.ne e he1)
  · have := (all_of_length (h.nodup e.1) (fun i hi => h.bound e.1 i hi)).1 (by rw [hg]; exact he2.1)
    exact this

theorem collapse_spec (l : L) (cs : List (Node α L A)) : (fuel : Nat) → (d : DelMap) → DInv (.ctx l cs) d → dWork d < fuel →
    DInv (.ctx l cs) (collapse (.ctx l cs) fuel d) ∧ SameCut cs d (collapse (.ctx l cs) fuel d) ∧
    dFull (.ctx l cs) (collapse (.ctx l cs) fuel d) = []
  | 0, _, _, h => absurd h (by omega)
  | fuel + 1, d, h, hf => by
    rw [collapse]
    split
    · next he => exact ⟨h, ⟨rfl, rfl⟩, he⟩
    · next he =>
      have hnd : (dFull (.ctx l cs) d).Nodup := h.keys.sublist (List.filter_sublist.map _)
      obtain ⟨e1, e2, e3⟩ := fold_up l cs (dFull (.ctx l cs) d) d h hnd (fun n hn => mem_dFull h hn)
      have := List.length_pos_iff.2 he
      obtain ⟨g1, g2, g3⟩ := collapse_spec l cs fuel _ e1 (by omega)
      exact ⟨g1, ⟨e2.1.trans g2.1, e2.2.trans g2.2⟩, g3⟩

theorem fullL_mem : (cs : List (Node α L A)) → FullL cs → (i : Nat) → (n : Node α L A) → cs[i]? = some n → n.Full
  | [], _, _, _, h => by simp at h
  | c :: cs, h, 0, n, hn => by simp only [List.getElem?_cons_zero, Option.some.injEq] at hn; rw [← hn]; exact h.1
  | c :: cs, h, i + 1, n, hn => fullL_mem cs h.2 i n (by simpa using hn)

theorem at_full : {root : Node α L A} → FullL root.kids → (s : List Nat) → (i : Nat) → (n : Node α L A) →
    root.at (i :: s) = some n → n.Full
  | root, hroot, s, i, n, h => by
    simp only [Node.at] at h
    cases hi : root.kids[i]? with
    | none => simp [hi] at h
    | some c =>
      have hc : c.Full := fullL_mem root.kids hroot i c hi
      simp only [hi, Option.bind_some] at h
      cases s with
      | nil => simp only [Node.at, Option.some.injEq] at h; rw [← h]; exact hc
      | cons j s => exact at_full (Full.kids hc) s j n h

/-- When no parent has all its children in the dictionary, in every context a child remains. -/
theorem DInv.remains {root : Node α L A} {d : DelMap} (h : DInv root d) (hfull : dFull root d = []) (hroot : FullL root.kids) :
    Remains root (Td d) := by
  intro q l cs hq hat
  cases hg : dGet d q with
  | nil =>
    have hne : cs ≠ [] := by
      obtain ⟨i, s, rfl⟩ : ∃ i s, q = i :: s := by cases q with
        | nil => exact absurd rfl hq
        | cons i s => exact ⟨i, s, rfl⟩
      exact (at_full hroot _ _ _ hat).1
    exact ⟨0, List.length_pos_iff.2 hne, by rw [Td_concat, hg]; simp⟩
  | cons i r =>
    have hi : i ∈ dGet d q := by rw [hg]; simp
    have hmem := dGet_mem hi
    have hk := kidsAt_eq hat
    have hlen : (dGet d q).length ≠ cs.length := by
      intro hl
      have : q ∈ dFull root d := by
        refine List.mem_map.2 ⟨(q, dGet d q), List.mem_filter.2 ⟨hmem, ?_⟩, rfl⟩
        simp only [Bool.and_eq_true, decide_eq_true_eq, Bool.not_eq_true', List.isEmpty_eq_false_iff, hk]
        exact ⟨hl, hq⟩
      rw [hfull] at this
      simp at this
    have hb : ∀ i ∈ dGet d q, i < cs.length := fun i hi => by have := h.bound q i hi; rwa [hk] at this
    by_cases hex : ∃ j, j < cs.length ∧ j ∉ dGet d q
    · obtain ⟨j, hj, hj'⟩ := hex
      exact ⟨j, hj, by rw [Td_concat]; simpa using hj'⟩
    · exact absurd ((all_of_length (h.nodup q) hb).2 (fun j hj => by
        by_cases hm : j ∈ dGet d q
        · exact hm
        · exact absurd ⟨j, hj, hm⟩ hex)) hlen
end Parce

import Verif.Spec.Css

namespace Parce.Css

variable {α : Type}

/-! ## Words -/

theorem isWord_space {space : α → Bool} {u t w : List α} {c : α} (hu : ∀ x ∈ u, space x = false) (hc : space c = true) :
    IsWord space w (u ++ c :: t) ↔ (w = u ∧ u ≠ []) ∨ IsWord space w t := by
  constructor
  · rintro ⟨hne, hw, a, b, he, ha, hb⟩
    rw [List.append_assoc, List.append_eq_append_iff] at he
    rcases he with ⟨a', h1, h2⟩ | ⟨a', h1, h2⟩
    · cases a' with
      | nil =>
        cases w with
        | nil => exact absurd rfl hne
        | cons x w =>
          simp only [List.nil_append, List.cons_append, List.cons.injEq] at h2
          have := hw x (by simp)
          rw [← h2.1, hc] at this
          cases this
      | cons y a'' =>
        simp only [List.cons_append, List.cons.injEq] at h2
        right
        refine ⟨hne, hw, a'', b, by rw [List.append_assoc]; exact h2.2, ?_, hb⟩
        intro z hz
        apply ha
        rw [h1, List.getLast?_append]
        cases a'' with
        | nil => cases hz
        | cons k a'' => rw [List.getLast?_cons_cons, hz]; rfl
    · left
      have ha0 : a = [] := by
        cases hl : a.getLast? with
        | none => simpa using hl
        | some z =>
          have h3 := ha z hl
          have := hu z (by rw [h1]; exact List.mem_append_left _ (List.mem_of_getLast? hl))
          rw [h3] at this; cases this
      subst ha0
      simp only [List.nil_append] at h1
      subst h1
      rw [List.append_eq_append_iff] at h2
      rcases h2 with ⟨w', h3, h4⟩ | ⟨w', h3, h4⟩
      · have hw0 : w' = [] := by
          cases w' with
          | nil => rfl
          | cons z w' =>
            have := hu z (by rw [h3]; simp)
            have h5 := hb z (by rw [h4]; rfl)
            rw [h5] at this; cases this
        rw [hw0, List.append_nil] at h3
        exact ⟨h3.symm, by rw [h3]; exact hne⟩
      · have hw0 : w' = [] := by
          cases w' with
          | nil => rfl
          | cons z w' =>
            simp only [List.cons_append, List.cons.injEq] at h4
            have := hw z (by rw [h3]; simp)
            rw [← h4.1, hc] at this; cases this
        rw [hw0, List.append_nil] at h3
        exact ⟨h3, by rw [← h3]; exact hne⟩
  · rintro (⟨rfl, hne⟩ | ⟨hne, hw, a, b, he, ha, hb⟩)
    · refine ⟨hne, hu, [], c :: t, by simp, by simp, ?_⟩
      intro z hz
      simp only [List.head?_cons, Option.some.injEq] at hz
      rw [← hz]; exact hc
    · refine ⟨hne, hw, u ++ c :: a, b, by rw [he]; simp, ?_, hb⟩
      intro z hz
      rw [List.getLast?_append] at hz
      cases hl : a.getLast? with
      | none =>
        have : a = [] := by simpa using hl
        subst this
        simp at hz
        rw [← hz]; exact hc
      | some y =>
        rw [List.getLast?_cons, hl] at hz
        simp at hz
        rw [← hz]; exact ha y hl

theorem isWord_all {space : α → Bool} {u w : List α} (hu : ∀ x ∈ u, space x = false) :
    IsWord space w u ↔ w = u ∧ u ≠ [] := by
  constructor
  · rintro ⟨hne, hw, a, b, he, ha, hb⟩
    have ha0 : a = [] := by
      cases hl : a.getLast? with
      | none => simpa using hl
      | some z =>
        have h3 := ha z hl
        have := hu z (by rw [he]; simp [List.mem_of_getLast? hl])
        rw [h3] at this; cases this
    have hb0 : b = [] := by
      cases b with
      | nil => rfl
      | cons z b =>
        have := hu z (by rw [he]; simp)
        rw [hb z rfl] at this; cases this
    subst ha0 hb0
    simp at he
    exact ⟨he.symm, by rw [he]; exact hne⟩
  · rintro ⟨rfl, hne⟩
    exact ⟨hne, hu, [], [], by simp, by simp, by simp⟩

theorem mem_splitGo (space : α → Bool) (w : List α) : (s cur : List α) → (∀ x ∈ cur, space x = false) →
    (w ∈ splitGo space cur s ↔ IsWord space w (cur.reverse ++ s))
  | [], cur, hc => by
    have hc' : ∀ x ∈ cur.reverse, space x = false := fun x hx => hc x (List.mem_reverse.1 hx)
    rw [List.append_nil, isWord_all hc', splitGo]
    cases cur with
    | nil => simp
    | cons y cur => simp
  | c :: t, cur, hc => by
    have hc' : ∀ x ∈ cur.reverse, space x = false := fun x hx => hc x (List.mem_reverse.1 hx)
    rw [splitGo]
    by_cases h : space c = true
    · rw [if_pos h, isWord_space hc' h]
      have ih := mem_splitGo space w t [] (by simp)
      simp only [List.reverse_nil, List.nil_append] at ih
      cases cur with
      | nil => simp [ih]
      | cons y cur => simp [ih]
    · rw [if_neg h]
      rw [mem_splitGo space w t (c :: cur) (by
        intro x hx
        rcases List.mem_cons.1 hx with rfl | hx
        · simpa using h
        · exact hc x hx)]
      simp

theorem mem_split (space : α → Bool) (w s : List α) : w ∈ split space s ↔ IsWord space w s := by
  have := mem_splitGo space w s [] (by simp)
  simpa [split] using this

/-! ## Attributes -/

section
variable [DecidableEq α]

theorem assoc_eq (k v : List α) (d : List (List α × List α)) :
    assoc k d = some v ↔ ∃ a b, d = a ++ (k, v) :: b ∧ ∀ x ∈ a, x.1 ≠ k := by
  induction d with
  | nil => simp [assoc]
  | cons x d ih =>
    obtain ⟨k', v'⟩ := x
    rw [assoc]
    by_cases h : k' = k
    · rw [if_pos h]
      subst h
      constructor
      · intro h; cases h
        exact ⟨[], d, rfl, by simp⟩
      · rintro ⟨a, b, he, ha⟩
        cases a with
        | nil => simp at he; rw [he.1]
        | cons y a =>
          simp only [List.cons_append, List.cons.injEq] at he
          exact absurd rfl (by rw [← he.1] at ha; exact ha (k', v') (by simp))
    · rw [if_neg h, ih]
      constructor
      · rintro ⟨a, b, he, ha⟩
        refine ⟨(k', v') :: a, b, by rw [he]; rfl, ?_⟩
        intro x hx
        rcases List.mem_cons.1 hx with rfl | hx
        · exact h
        · exact ha x hx
      · rintro ⟨a, b, he, ha⟩
        cases a with
        | nil => simp at he; exact absurd he.1.1 h
        | cons y a =>
          simp only [List.cons_append, List.cons.injEq] at he
          exact ⟨a, b, he.2, fun x hx => ha x (by simp [hx])⟩

theorem hasAttr_iff (e : El α) (k v : List α) : HasAttr e k v ↔ assoc k e.attrs = some v := (assoc_eq k v e.attrs).symm

theorem hasSub_iff (sub : List α) : (t : List α) → (hasSub sub t = true ↔ sub <:+: t)
  | [] => by simp [hasSub]
  | c :: t => by
    simp only [hasSub, Bool.or_eq_true, List.isPrefixOf_iff_prefix, hasSub_iff sub t]
    constructor
    · rintro (h | h)
      · exact h.isInfix
      · exact h.trans (List.infix_cons List.infix_rfl)
    · rintro ⟨a, b, h⟩
      cases a with
      | nil => exact Or.inl ⟨b, by simpa using h⟩
      | cons y a =>
        simp only [List.cons_append, List.cons.injEq] at h
        exact Or.inr ⟨a, b, h.2⟩

theorem test_iff (env : Env α) (text value : List α) (op : AOp) : op.test env text value = true ↔ op.Holds env text value := by
  cases op with
  | eq => simp only [AOp.test, AOp.Holds, decide_eq_true_eq]; exact eq_comm
  | incl => simp only [AOp.test, AOp.Holds, decide_eq_true_eq, mem_split]
  | dash =>
    simp only [AOp.test, AOp.Holds, decide_eq_true_eq, Bool.or_eq_true, List.isPrefixOf_iff_prefix]
    rw [eq_comm]
  | pre => simp only [AOp.test, AOp.Holds, List.isPrefixOf_iff_prefix]
  | suf => simp only [AOp.test, AOp.Holds, List.isSuffixOf_iff_suffix]
  | sub => simp only [AOp.test, AOp.Holds, hasSub_iff]

theorem matchAttr_iff (env : Env α) (e : El α) (s : AttrSel α) (hs : s.text ≠ some []) :
    matchAttr env e s = true ↔ s.Holds env e := by
  unfold matchAttr AttrSel.Holds
  simp only [hasAttr_iff]
  cases ha : assoc s.attr e.attrs with
  | none => simp
  | some v =>
    simp only [Option.some.injEq]
    cases ho : s.op with
    | none => simp
    | some op =>
      cases ht : s.text with
      | none => simp
      | some text =>
        have hte : text.isEmpty = false := by
          cases text with
          | nil => exact absurd ht hs
          | cons _ _ => rfl
        simp only [hte]
        constructor
        · intro h
          refine ⟨v, rfl, ?_⟩
          intro op' text' h1 h2
          cases h1; cases h2
          cases hci : s.ci with
          | true => simpa [hci, test_iff] using h
          | false => simpa [hci, test_iff] using h
        · rintro ⟨v', hv, h⟩
          subst hv
          have := h op text rfl rfl
          cases hci : s.ci with
          | true => simpa [hci, test_iff] using this
          | false => simpa [hci, test_iff] using this

end

/-! ## The tree of elements -/

theorem el_at_append (e : El α) : (p q : List Nat) → e.at (p ++ q) = (e.at p).bind (fun f => f.at q)
  | [], q => rfl
  | i :: p, q => by
    simp only [List.cons_append, El.at]
    cases e.kids[i]? with
    | none => rfl
    | some k => exact el_at_append k p q

theorem el_at_concat (e : El α) (p : List Nat) (i : Nat) : e.at (p ++ [i]) = (e.at p).bind (fun f => f.kids[i]?) := by
  rw [el_at_append]
  congr 1
  funext f
  simp only [El.at]
  cases f.kids[i]? <;> rfl

theorem prev_mem (p q : List Nat) : q ∈ prevSiblings p ↔ ∃ r i j, i < j ∧ q = r ++ [i] ∧ p = r ++ [j] := by
  unfold prevSiblings
  rcases List.eq_nil_or_concat p with rfl | ⟨r, j, rfl⟩
  · simp
  · simp only [List.concat_eq_append, List.getLast?_append, List.getLast?_singleton, Option.some_or, List.dropLast_concat, List.mem_map, List.mem_reverse, List.mem_range]
    constructor
    · rintro ⟨i, hi, rfl⟩; exact ⟨r, i, j, hi, rfl, rfl⟩
    · rintro ⟨r', i, j', hi, rfl, h⟩
      obtain ⟨rfl, hj⟩ := List.append_inj' h rfl
      cases hj
      exact ⟨i, hi, rfl⟩

theorem next_mem (root : El α) (p q : List Nat) : q ∈ nextSiblings root p ↔
    ∃ r i j f, i < j ∧ q = r ++ [j] ∧ p = r ++ [i] ∧ root.at (r ++ [j]) = some f := by
  unfold nextSiblings
  rcases List.eq_nil_or_concat p with rfl | ⟨r, i, rfl⟩
  · simp
  · simp only [List.concat_eq_append, List.getLast?_append, List.getLast?_singleton, Option.some_or, List.dropLast_concat]
    constructor
    · intro h
      cases he : root.at r with
      | none => rw [he] at h; cases h
      | some e =>
        simp only [he, List.mem_map] at h
        obtain ⟨j, hj, rfl⟩ := h
        rw [List.mem_iff_getElem?] at hj
        obtain ⟨n, hn⟩ := hj
        rw [List.getElem?_drop, List.getElem?_eq_some_iff] at hn
        obtain ⟨hn1, hn2⟩ := hn
        rw [List.length_range] at hn1
        rw [List.getElem_range] at hn2
        refine ⟨r, i, j, e.kids[j]'(by omega), by omega, rfl, rfl, ?_⟩
        rw [el_at_concat, he]
        exact List.getElem?_eq_getElem _
    · rintro ⟨r', i', j, f, hi, rfl, h, hf⟩
      obtain ⟨rfl, hj⟩ := List.append_inj' h rfl
      cases hj
      rw [el_at_concat] at hf
      cases he : root.at r with
      | none => rw [he] at hf; cases hf
      | some e =>
        rw [he] at hf
        simp only [Option.bind_some] at hf
        have hlt := (List.getElem?_eq_some_iff.1 hf).1
        simp only [List.mem_map]
        refine ⟨j, ?_, rfl⟩
        rw [List.mem_iff_getElem?]
        refine ⟨j - (i + 1), ?_⟩
        rw [List.getElem?_drop, List.getElem?_range (by omega)]
        congr 1
        omega

theorem isEl_le {root : El α} {r : List Nat} {i j : Nat} (h : IsEl root (r ++ [j])) (hi : i ≤ j) : IsEl root (r ++ [i]) := by
  obtain ⟨f, hf⟩ := h
  rw [el_at_concat] at hf
  cases he : root.at r with
  | none => rw [he] at hf; cases hf
  | some e =>
    rw [he] at hf
    have hlt := (List.getElem?_eq_some_iff.1 hf).1
    exact ⟨e.kids[i]'(by omega), by rw [el_at_concat, he]; exact List.getElem?_eq_getElem _⟩

theorem prev_none (p : List Nat) : (prevSiblings p).head?.isNone = true ↔ ∀ q i, p ≠ q ++ [i + 1] := by
  rw [Option.isNone_iff_eq_none, List.head?_eq_none_iff, List.eq_nil_iff_forall_not_mem]
  simp only [prev_mem]
  constructor
  · rintro h q i rfl
    exact h (q ++ [i]) ⟨q, i, i + 1, by omega, rfl, rfl⟩
  · rintro h q ⟨r, i, j, hi, _, rfl⟩
    exact h r (j - 1) (by rw [show j - 1 + 1 = j from by omega])

theorem next_none (root : El α) (p : List Nat) :
    (nextSiblings root p).head?.isNone = true ↔ ∀ q i, p = q ++ [i] → ¬ IsEl root (q ++ [i + 1]) := by
  rw [Option.isNone_iff_eq_none, List.head?_eq_none_iff, List.eq_nil_iff_forall_not_mem]
  simp only [next_mem]
  constructor
  · rintro h q i rfl ⟨f, hf⟩
    exact h (q ++ [i + 1]) ⟨q, i, i + 1, f, by omega, rfl, rfl, hf⟩
  · rintro h q ⟨r, i, j, f, hi, _, rfl, hf⟩
    exact h r i rfl (isEl_le ⟨f, hf⟩ (by omega))

variable [DecidableEq α]

theorem isPseudo_iff (root : El α) (p : List Nat) (e : El α) (k : Pseudo) :
    isPseudo root p e k = true ↔ k.Holds root p e := by
  cases k with
  | firstChild => exact prev_none p
  | lastChild => exact next_none root p
  | onlyChild =>
    simp only [isPseudo, Bool.and_eq_true, prev_none, next_none, Pseudo.Holds]
    exact And.comm
  | firstOfType =>
    simp only [isPseudo, Pseudo.Holds, Bool.not_eq_true', List.any_eq_false, prev_mem, Option.any_eq_true, decide_eq_true_eq, not_exists, not_and]
    constructor
    · rintro h q i j f rfl hj hf
      exact h _ ⟨q, j, i, hj, rfl, rfl⟩ f hf
    · rintro h q ⟨r, i, j, hi, rfl, rfl⟩ f hf
      exact h r j i f rfl hi hf
  | lastOfType =>
    simp only [isPseudo, Pseudo.Holds, Bool.not_eq_true', List.any_eq_false, next_mem, Option.any_eq_true, decide_eq_true_eq, not_exists, not_and]
    constructor
    · rintro h q i j f rfl hj hf
      exact h _ ⟨q, i, j, f, hj, rfl, rfl, hf⟩ f hf
    · rintro h q ⟨r, i, j, g, hi, rfl, rfl, hg⟩ f hf
      exact h r i j f rfl hi hf
  | empty => simp [isPseudo, Pseudo.Holds]

theorem matchSelector_iff (env : Env α) (root : El α) (p : List Nat) (c : Compound α) (hc : c.Texts) :
    matchSelector env root p c = true ↔ c.Holds env root p := by
  unfold matchSelector Compound.Holds
  cases he : root.at p with
  | none => simp
  | some e =>
    simp only [Bool.and_eq_true, List.all_eq_true, decide_eq_true_eq, Option.some.injEq, exists_eq_left', and_assoc]
    refine and_congr ?_ (and_congr ?_ (and_congr ?_ (and_congr ?_ (and_congr ?_ Iff.rfl))))
    · refine forall_congr' fun x => imp_congr_right fun _ => ?_
      simp only [getClasses, mem_split, hasAttr_iff]
      cases assoc env.classAttr e.attrs with
      | none =>
        simp only [Option.getD_none, false_and, exists_false, iff_false, reduceCtorEq]
        rintro ⟨h, _, a, b, h2, _⟩
        have := congrArg List.length h2
        simp at this
        exact h (by rw [← List.length_eq_zero_iff]; omega)
      | some v => simp
    · exact forall_congr' fun x => imp_congr_right fun _ => eq_comm
    · refine forall_congr' fun x => imp_congr_right fun _ => ?_
      rw [hasAttr_iff, getId]
      exact eq_comm
    · exact forall_congr' fun s => forall_congr' fun hs => matchAttr_iff env e s (hc s hs)
    · refine forall_congr' fun x => imp_congr_right fun _ => ?_
      cases env.dispatch x with
      | none => simp
      | some k => simp [isPseudo_iff]

/-! ## Combinators -/

omit [DecidableEq α] in
theorem ancLoop_spec (test : List Nat → Bool) : (fuel : Nat) → (p : List Nat) → p.length < fuel →
    (∀ q, ancLoop test fuel p = some q → test q = true ∧ (∃ s, s ≠ [] ∧ p = q ++ s) ∧
      ∀ r s, s ≠ [] → p = r ++ s → test r = true → r <+: q) ∧
    (ancLoop test fuel p = none → ∀ r s, s ≠ [] → p = r ++ s → test r = false)
  | 0, p, h => by omega
  | fuel + 1, p, h => by
    rcases List.eq_nil_or_concat p with rfl | ⟨p', i, rfl⟩
    · refine ⟨fun q hq => by simp [ancLoop, getParent] at hq, fun _ r s hs he => ?_⟩
      have := List.append_eq_nil_iff.1 he.symm
      exact absurd this.2 hs
    · rw [List.concat_eq_append] at h ⊢
      simp only [List.length_append, List.length_singleton] at h
      have hpar : getParent (p' ++ [i]) = some p' := by simp [getParent]
      have ih := ancLoop_spec test fuel p' (by omega)
      have hsplit : ∀ r s, s ≠ [] → p' ++ [i] = r ++ s → r = p' ∨ ∃ s', s' ≠ [] ∧ p' = r ++ s' := by
        intro r s hs he
        rcases List.eq_nil_or_concat s with rfl | ⟨s', j, rfl⟩
        · exact absurd rfl hs
        · rw [List.concat_eq_append, ← List.append_assoc] at he
          obtain ⟨h1, _⟩ := List.append_inj' he rfl
          cases s' with
          | nil => left; simpa using h1.symm
          | cons x s' => exact Or.inr ⟨_, by simp, h1⟩
      rw [ancLoop, hpar]
      simp only
      by_cases ht : test p' = true
      · rw [if_pos ht]
        refine ⟨fun q hq => ?_, fun h => by cases h⟩
        cases hq
        refine ⟨ht, ⟨[i], by simp, rfl⟩, fun r s hs he _ => ?_⟩
        rcases hsplit r s hs he with rfl | ⟨s', _, h⟩
        · exact List.prefix_rfl
        · exact ⟨s', h.symm⟩
      · rw [if_neg ht]
        refine ⟨fun q hq => ?_, fun hn r s hs he => ?_⟩
        · obtain ⟨h1, ⟨s, hs, h2⟩, h3⟩ := ih.1 q hq
          refine ⟨h1, ⟨s ++ [i], by simp, by rw [h2]; simp⟩, fun r s hs he hr => ?_⟩
          rcases hsplit r s hs he with rfl | ⟨s', hs', h⟩
          · exact absurd hr ht
          · exact h3 r s' hs' h hr
        · rcases hsplit r s hs he with rfl | ⟨s', hs', h⟩
          · simpa using ht
          · exact ih.2 hn r s' hs' h

omit [DecidableEq α] in
theorem sib_find (test : List Nat → Bool) (r : List Nat) (n : Nat) :
    (∀ q, ((List.range n).reverse.map (fun j => r ++ [j])).find? test = some q → test q = true ∧ ∃ i, i < n ∧ q = r ++ [i] ∧
      ∀ j, j < n → test (r ++ [j]) = true → j ≤ i) ∧
    (((List.range n).reverse.map (fun j => r ++ [j])).find? test = none → ∀ j, j < n → test (r ++ [j]) = false) := by
  induction n with
  | zero => simp
  | succ n ih =>
    rw [List.range_succ, List.reverse_append]
    simp only [List.reverse_singleton, List.singleton_append, List.map_cons, List.find?_cons]
    cases ht : test (r ++ [n]) with
    | true =>
      refine ⟨fun q hq => ?_, fun h => by cases h⟩
      cases hq
      exact ⟨ht, n, by omega, rfl, fun j hj _ => by omega⟩
    | false =>
      refine ⟨fun q hq => ?_, fun h j hj => ?_⟩
      · obtain ⟨h1, i, h2, h3, h4⟩ := ih.1 q hq
        refine ⟨h1, i, by omega, h3, fun j hj hj' => ?_⟩
        by_cases hjn : j = n
        · rw [hjn, ht] at hj'; cases hj'
        · exact h4 j (by omega) hj'
      · by_cases hjn : j = n
        · rw [hjn, ht]
        · exact ih.2 h j (by omega)

omit [DecidableEq α] in
theorem stepComb_sound (test : List Nat → Bool) (p q : List Nat) (o : Comb) (ho : o ≠ .col) (h : stepComb test p o = some q) :
    test q = true ∧ o.Rel q p := by
  cases o with
  | col => exact absurd rfl ho
  | child =>
    rcases List.eq_nil_or_concat p with rfl | ⟨p', i, rfl⟩
    · simp [stepComb, getParent] at h
    · rw [List.concat_eq_append] at h ⊢
      simp only [stepComb, getParent, List.append_eq_nil_iff, List.cons_ne_nil, and_false, if_false, List.dropLast_concat] at h
      split at h
      · cases h
        exact ⟨by assumption, i, rfl⟩
      · cases h
  | desc =>
    obtain ⟨h1, h2, _⟩ := (ancLoop_spec test (p.length + 1) p (by omega)).1 q h
    exact ⟨h1, h2⟩
  | adj =>
    rcases List.eq_nil_or_concat p with rfl | ⟨p', i, rfl⟩
    · simp [stepComb, prevSiblings] at h
    · rw [List.concat_eq_append] at h ⊢
      simp only [stepComb, prevSiblings, List.getLast?_append, List.getLast?_singleton, Option.some_or, List.dropLast_concat] at h
      cases i with
      | zero => simp at h
      | succ i =>
        rw [List.range_succ, List.reverse_append] at h
        simp only [List.reverse_singleton, List.singleton_append, List.map_cons] at h
        split at h
        · cases h
          exact ⟨by assumption, p', i, rfl, rfl⟩
        · cases h
  | sib =>
    rcases List.eq_nil_or_concat p with rfl | ⟨p', i, rfl⟩
    · simp [stepComb, prevSiblings] at h
    · rw [List.concat_eq_append] at h ⊢
      simp only [stepComb, prevSiblings, List.getLast?_append, List.getLast?_singleton, Option.some_or, List.dropLast_concat] at h
      obtain ⟨h1, j, h2, h3, _⟩ := (sib_find test p' i).1 q h
      exact ⟨h1, p', j, i, h2, h3, rfl⟩

omit [DecidableEq α] in
/-- The first operator allows to go on from another element. -/
theorem chain_desc {env : Env α} {root : El α} {q0 q1 : List Nat} (h : q0 <+: q1) (rest : List (Comb × Compound α))
    (hr : ∀ x ∈ rest.head?, x.1 = .desc) (hc : Chain env root q0 rest) : Chain env root q1 rest := by
  cases rest with
  | nil => trivial
  | cons x rest =>
    obtain ⟨o, c⟩ := x
    have ho : o = .desc := hr (o, c) rfl
    subst ho
    obtain ⟨q, ⟨s, hs, h1⟩, h2, h3⟩ := hc
    obtain ⟨t, ht⟩ := h
    refine ⟨q, ⟨s ++ t, by simp [hs], by rw [← ht, h1]; simp⟩, h2, h3⟩

omit [DecidableEq α] in
theorem chain_sib {env : Env α} {root : El α} {r : List Nat} {i j : Nat} (hij : i ≤ j) (rest : List (Comb × Compound α))
    (hr : ∀ x ∈ rest.head?, x.1 ≠ .adj) (hc : Chain env root (r ++ [i]) rest) : Chain env root (r ++ [j]) rest := by
  cases rest with
  | nil => trivial
  | cons x rest =>
    obtain ⟨o, c⟩ := x
    have ho : o ≠ .adj := hr (o, c) rfl
    obtain ⟨q, h1, h2, h3⟩ := hc
    refine ⟨q, ?_, h2, h3⟩
    cases o with
    | adj => exact absurd rfl ho
    | col => exact h1
    | child =>
      obtain ⟨k, hk⟩ := h1
      obtain ⟨rfl, _⟩ := List.append_inj' hk rfl
      exact ⟨j, rfl⟩
    | desc =>
      obtain ⟨s, hs, hk⟩ := h1
      rcases List.eq_nil_or_concat s with rfl | ⟨s', k, rfl⟩
      · exact absurd rfl hs
      · rw [List.concat_eq_append, ← List.append_assoc] at hk
        obtain ⟨h4, _⟩ := List.append_inj' hk rfl
        exact ⟨s' ++ [j], by simp, by rw [h4]; simp⟩
    | sib =>
      obtain ⟨r', a, b, hab, rfl, hb⟩ := h1
      obtain ⟨rfl, h5⟩ := List.append_inj' hb rfl
      cases h5
      exact ⟨r, a, j, by omega, rfl, rfl⟩

theorem combLoop_sound (env : Env α) (root : El α) : (rest : List (Comb × Compound α)) → (p : List Nat) →
    (∀ x ∈ rest, x.1 ≠ .col ∧ x.2.isEmpty = false ∧ x.2.Texts) → combLoop env root p rest = true → Chain env root p rest
  | [], _, _, _ => trivial
  | (o, c) :: rest, p, hx, h => by
    obtain ⟨h1, h2, h3⟩ := hx (o, c) (by simp)
    simp only [combLoop, h2, Bool.false_eq_true, if_false] at h
    cases hs : stepComb (fun q => matchSelector env root q c) p o with
    | none => rw [hs] at h; cases h
    | some q =>
      rw [hs] at h
      obtain ⟨h4, h5⟩ := stepComb_sound _ p q o h1 hs
      exact ⟨q, h5, (matchSelector_iff env root q c h3).1 h4, combLoop_sound env root rest q (fun x hx' => hx x (by simp [hx'])) h⟩

theorem combLoop_complete (env : Env α) (root : El α) : (rest : List (Comb × Compound α)) → (p : List Nat) →
    (∀ x ∈ rest, x.1 ≠ .col ∧ x.2.isEmpty = false ∧ x.2.Texts) → NoBack rest → Chain env root p rest →
    combLoop env root p rest = true
  | [], _, _, _, _ => rfl
  | (o, c) :: rest, p, hx, hb, hc => by
    obtain ⟨h1, h2, h3⟩ := hx (o, c) (by simp)
    obtain ⟨q, hrel, hh, hch⟩ := hc
    have hh' := (matchSelector_iff env root q c h3).2 hh
    have hb' : NoBack rest := by
      cases rest with
      | nil => trivial
      | cons y rest => exact hb.2.2
    have hd : o = .desc → ∀ x ∈ rest.head?, x.1 = .desc := by
      intro ho x hx'
      cases rest with
      | nil => cases hx'
      | cons y rest => cases hx'; exact hb.1 ho
    have hsb : o = .sib → ∀ x ∈ rest.head?, x.1 ≠ .adj := by
      intro ho x hx'
      cases rest with
      | nil => cases hx'
      | cons y rest => cases hx'; exact hb.2.1 ho
    simp only [combLoop, h2, Bool.false_eq_true, if_false]
    have hrest := fun x hx' => hx x (List.mem_cons_of_mem _ hx')
    cases o with
    | col => exact absurd rfl h1
    | child =>
      obtain ⟨i, rfl⟩ := hrel
      simp only [stepComb, getParent, List.append_eq_nil_iff, List.cons_ne_nil, and_false, if_false, List.dropLast_concat, hh', if_true]
      exact combLoop_complete env root rest q hrest hb' hch
    | adj =>
      obtain ⟨r, i, rfl, rfl⟩ := hrel
      simp only [stepComb, prevSiblings, List.getLast?_append, List.getLast?_singleton, Option.some_or, List.dropLast_concat]
      rw [List.range_succ, List.reverse_append]
      simp only [List.reverse_singleton, List.singleton_append, List.map_cons, hh', if_true]
      exact combLoop_complete env root rest _ hrest hb' hch
    | desc =>
      obtain ⟨s, hs, he⟩ := hrel
      obtain ⟨a1, a2⟩ := ancLoop_spec (fun q => matchSelector env root q c) (p.length + 1) p (by omega)
      simp only [stepComb]
      cases hl : ancLoop (fun q => matchSelector env root q c) (p.length + 1) p with
      | none =>
        have := a2 hl q s hs he
        rw [hh'] at this; cases this
      | some q1 =>
        obtain ⟨_, _, h6⟩ := a1 q1 hl
        have := h6 q s hs he hh'
        exact combLoop_complete env root rest q1 hrest hb' (chain_desc this rest (hd rfl) hch)
    | sib =>
      obtain ⟨r, i, j, hij, rfl, rfl⟩ := hrel
      simp only [stepComb, prevSiblings, List.getLast?_append, List.getLast?_singleton, Option.some_or, List.dropLast_concat]
      obtain ⟨a1, a2⟩ := sib_find (fun q => matchSelector env root q c) r j
      cases hl : ((List.range j).reverse.map (fun j => r ++ [j])).find? (fun q => matchSelector env root q c) with
      | none =>
        have := a2 hl i hij
        rw [hh'] at this; cases this
      | some q1 =>
        obtain ⟨_, k, hk, rfl, h6⟩ := a1 q1 hl
        exact combLoop_complete env root rest _ hrest hb' (chain_sib (h6 i hij hh') rest (hsb rfl) hch)

end Parce.Css

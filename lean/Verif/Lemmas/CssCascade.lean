import Verif.Spec.Css

namespace Parce.Css

variable {α : Type}

theorem specLe_iff (a b : Nat × Nat × Nat) : specLe a b = true ↔ ¬ SpecLt b a := by
  unfold specLe SpecLt
  simp only [Bool.or_eq_true, Bool.and_eq_true, decide_eq_true_eq, beq_iff_eq]
  omega

theorem specLt_trans {a b c : Nat × Nat × Nat} (h1 : SpecLt a b) (h2 : SpecLt b c) : SpecLt a c := by
  unfold SpecLt at *; omega

theorem specLt_tri (a b : Nat × Nat × Nat) : SpecLt a b ∨ a = b ∨ SpecLt b a := by
  obtain ⟨a1, a2, a3⟩ := a
  obtain ⟨b1, b2, b3⟩ := b
  unfold SpecLt
  simp only [Prod.mk.injEq]
  omega

theorem specLt_irrefl (a : Nat × Nat × Nat) : ¬ SpecLt a a := by
  unfold SpecLt; omega

theorem specFold (ss : List (Complex α)) : (m : Nat × Nat × Nat) →
    (ss.foldl (fun m x => if specLe (specOf x) m then m else specOf x) m = m ∨
      ∃ s ∈ ss, specOf s = ss.foldl (fun m x => if specLe (specOf x) m then m else specOf x) m) ∧
    ¬ SpecLt (ss.foldl (fun m x => if specLe (specOf x) m then m else specOf x) m) m ∧
    ∀ s ∈ ss, ¬ SpecLt (ss.foldl (fun m x => if specLe (specOf x) m then m else specOf x) m) (specOf s) := by
  induction ss with
  | nil => intro m; exact ⟨Or.inl rfl, specLt_irrefl m, by simp⟩
  | cons x ss ih =>
    intro m
    simp only [List.foldl_cons]
    by_cases h : specLe (specOf x) m = true
    · rw [if_pos h]
      obtain ⟨h1, h2, h3⟩ := ih m
      refine ⟨?_, h2, ?_⟩
      · rcases h1 with h1 | ⟨s, hs, h1⟩
        · exact Or.inl h1
        · exact Or.inr ⟨s, by simp [hs], h1⟩
      · intro s hs
        rcases List.mem_cons.1 hs with rfl | hs
        · intro hl
          rw [specLe_iff] at h
          rcases specLt_tri (specOf s) m with h4 | h4 | h4
          · exact h2 (specLt_trans hl h4)
          · rw [h4] at hl; exact h2 hl
          · exact h h4
        · exact h3 s hs
    · rw [if_neg h]
      obtain ⟨h1, h2, h3⟩ := ih (specOf x)
      refine ⟨?_, ?_, ?_⟩
      · right
        rcases h1 with h1 | ⟨s, hs, h1⟩
        · exact ⟨x, by simp, h1.symm⟩
        · exact ⟨s, by simp [hs], h1⟩
      · intro hl
        rw [specLe_iff] at h
        have h : SpecLt m (specOf x) := Classical.not_not.1 h
        exact h2 (specLt_trans hl h)
      · intro s hs
        rcases List.mem_cons.1 hs with rfl | hs
        · exact h2
        · exact h3 s hs

theorem compound_count (c : Compound α) : c.kinds.count .id = c.ids.length ∧ c.kinds.count .attr = c.attrs.length ∧
    c.kinds.count .cls = c.classes.length ∧ c.kinds.count .pclass = c.pclasses.length ∧
    c.kinds.count .name = c.names.length ∧ c.kinds.count .pelem = c.pelems.length := by
  have key : ∀ {β : Type} (l : List β) (k k' : Kind), (l.map (fun _ => k)).count k' = if k = k' then l.length else 0 := by
    intro β l k k'
    induction l with
    | nil => simp
    | cons x xs ih =>
      simp only [List.map_cons, List.count_cons, ih, List.length_cons]
      by_cases h : k = k' <;> simp [h]
  simp [Compound.kinds, List.count_append, key]

theorem specOf_eq (s : Complex α) : specOf s = s.spec := by
  obtain ⟨last, rest⟩ := s
  simp only [specOf, Complex.spec, Complex.kinds, List.count_append]
  obtain ⟨h1, h2, h3, h4, h5, h6⟩ := compound_count last
  rw [h1, h2, h3, h4, h5, h6]
  suffices h : (rest.map (fun x => x.2.ids.length)).sum = (rest.flatMap (fun x => x.2.kinds)).count .id ∧
      (rest.map (fun x => x.2.attrs.length + x.2.classes.length + x.2.pclasses.length)).sum =
        (rest.flatMap (fun x => x.2.kinds)).count .attr + (rest.flatMap (fun x => x.2.kinds)).count .cls +
        (rest.flatMap (fun x => x.2.kinds)).count .pclass ∧
      (rest.map (fun x => x.2.names.length + x.2.pelems.length)).sum =
        (rest.flatMap (fun x => x.2.kinds)).count .name + (rest.flatMap (fun x => x.2.kinds)).count .pelem by
    obtain ⟨g1, g2, g3⟩ := h
    simp only [List.map_cons, List.sum_cons, List.map_map, Function.comp_def, Prod.mk.injEq]
    rw [g1, g2, g3]
    refine ⟨?_, ?_, ?_⟩ <;> omega
  induction rest with
  | nil => simp
  | cons x xs ih =>
    obtain ⟨g1, g2, g3⟩ := ih
    obtain ⟨h1, h2, h3, h4, h5, h6⟩ := compound_count x.2
    simp only [List.map_cons, List.sum_cons, List.flatMap_cons, List.count_append, h1, h2, h3, h4, h5, h6, g1, g2, g3]
    refine ⟨trivial, ?_, ?_⟩ <;> omega

theorem specificity_spec (pre : List (Complex α)) (k : Nat × Nat × Nat) (h : specificity pre = some k) : IsSpec pre k := by
  cases pre with
  | nil => cases h
  | cons s ss =>
    simp only [specificity, Option.some.injEq] at h
    obtain ⟨h1, h2, h3⟩ := specFold ss (specOf s)
    rw [h] at h1 h2 h3
    simp only [specOf_eq] at h1 h2 h3
    refine ⟨?_, ?_⟩
    · rcases h1 with h1 | ⟨x, hx, h1⟩
      · exact ⟨s, by simp, h1.symm⟩
      · exact ⟨x, by simp [hx], h1⟩
    · intro x hx
      rcases List.mem_cons.1 hx with rfl | hx
      · exact h2
      · exact h3 x hx

theorem isSpec_unique {pre : List (Complex α)} {k k' : Nat × Nat × Nat} (h : IsSpec pre k) (h' : IsSpec pre k') : k = k' := by
  obtain ⟨⟨s, hs, h1⟩, h2⟩ := h
  obtain ⟨⟨s', hs', h1'⟩, h2'⟩ := h'
  rcases specLt_tri k k' with h | h | h
  · exact absurd (by rw [h1']; exact h) (h2 s' hs')
  · exact h
  · exact absurd (by rw [h1]; exact h) (h2' s hs)

/-! ## The sort -/

theorem insertKey_perm {β : Type} (x : (Nat × Nat × Nat) × β) : (l : List ((Nat × Nat × Nat) × β)) → (insertKey x l).Perm (x :: l)
  | [] => List.Perm.refl _
  | y :: l => by
    rw [insertKey]
    split
    · exact ((insertKey_perm x l).cons y).trans (List.Perm.swap x y l)
    · exact List.Perm.refl _

theorem insertKey_map {β γ : Type} (f : β → γ) (x : (Nat × Nat × Nat) × β) : (l : List ((Nat × Nat × Nat) × β)) →
    (insertKey x l).map (fun e => (e.1, f e.2)) = insertKey (x.1, f x.2) (l.map (fun e => (e.1, f e.2)))
  | [] => rfl
  | y :: l => by
    simp only [insertKey, List.map_cons]
    split
    · rw [List.map_cons, insertKey_map f x l]
    · rfl

theorem sortBy_map {β γ : Type} (f : β → γ) (l : List ((Nat × Nat × Nat) × β)) :
    (sortBy l).map (fun e => (e.1, f e.2)) = sortBy (l.map (fun e => (e.1, f e.2))) := by
  unfold sortBy
  have : ∀ (l acc : List ((Nat × Nat × Nat) × β)),
      (l.foldl (fun acc x => insertKey x acc) acc).map (fun e => (e.1, f e.2)) =
      (l.map (fun e => (e.1, f e.2))).foldl (fun acc x => insertKey x acc) (acc.map (fun e => (e.1, f e.2))) := by
    intro l
    induction l with
    | nil => intro acc; rfl
    | cons x l ih => intro acc; simp only [List.foldl_cons, List.map_cons, ih, insertKey_map]
  exact this l []

/-- `b` goes after `a` in the sorted list. -/
def After {β : Type} (a b : (Nat × Nat × Nat) × Nat × β) : Prop := Stronger b.2.1 b.1 a.2.1 a.1

theorem insertKey_sorted {β : Type} (x : (Nat × Nat × Nat) × Nat × β) : (l : List ((Nat × Nat × Nat) × Nat × β)) →
    l.Pairwise After → (∀ y ∈ l, y.2.1 < x.2.1) → (insertKey x l).Pairwise After
  | [], _, _ => by simp [insertKey]
  | y :: l, h, hx => by
    rw [List.pairwise_cons] at h
    rw [insertKey]
    by_cases hle : specLe y.1 x.1 = true
    · rw [if_pos hle, List.pairwise_cons]
      refine ⟨fun z hz => ?_, insertKey_sorted x l h.2 (fun z hz => hx z (by simp [hz]))⟩
      rcases List.mem_cons.1 ((insertKey_perm x l).mem_iff.1 hz) with rfl | hz
      · rw [specLe_iff] at hle
        rcases specLt_tri y.1 z.1 with h1 | h1 | h1
        · exact Or.inl h1
        · exact Or.inr ⟨h1, hx y (by simp)⟩
        · exact absurd h1 hle
      · exact h.1 z hz
    · rw [if_neg hle, List.pairwise_cons, List.pairwise_cons]
      have hlt : SpecLt x.1 y.1 := by
        rw [specLe_iff] at hle
        exact Classical.not_not.1 hle
      refine ⟨fun z hz => ?_, h.1, h.2⟩
      rcases List.mem_cons.1 hz with rfl | hz
      · exact Or.inl hlt
      · left
        rcases h.1 z hz with h1 | ⟨h1, _⟩
        · exact specLt_trans hlt h1
        · rw [← h1]; exact hlt

theorem sortBy_sorted {β : Type} : (l acc : List ((Nat × Nat × Nat) × Nat × β)) → acc.Pairwise After →
    (∀ y ∈ acc, ∀ x ∈ l, y.2.1 < x.2.1) → (l.map (fun x => x.2.1)).Pairwise (· < ·) →
    (l.foldl (fun acc x => insertKey x acc) acc).Pairwise After ∧ (l.foldl (fun acc x => insertKey x acc) acc).Perm (acc ++ l)
  | [], acc, h, _, _ => ⟨h, by simp⟩
  | x :: l, acc, h, hx, hl => by
    rw [List.map_cons, List.pairwise_cons] at hl
    obtain ⟨h1, h2⟩ := sortBy_sorted l (insertKey x acc) (insertKey_sorted x acc h (fun y hy => hx y hy x (by simp)))
      (by
        intro y hy z hz
        rcases List.mem_cons.1 ((insertKey_perm x acc).mem_iff.1 hy) with rfl | hy
        · exact hl.1 _ (List.mem_map.2 ⟨z, hz, rfl⟩)
        · exact hx y hy z (by simp [hz])) hl.2
    refine ⟨h1, h2.trans ?_⟩
    exact (((insertKey_perm x acc).append_right l).trans (List.Perm.refl _)).trans List.perm_middle.symm

/-- The rules with their specificity and number. -/
theorem styleRules_spec {V : Type} (rules : List (Rule α V)) (hne : ∀ r ∈ rules, r.prelude ≠ []) :
    ∃ L : List ((Nat × Nat × Nat) × Nat × Rule α V), styleRules rules = some (L.map (fun x => x.2.2)) ∧
      (∀ x, x ∈ L ↔ rules[x.2.1]? = some x.2.2 ∧ IsSpec x.2.2.prelude x.1) ∧
      L.Pairwise (fun a b => Stronger a.2.1 a.1 b.2.1 b.1) := by
  have hk : ∃ ks : List ((Nat × Nat × Nat) × Rule α V), rules.mapM withKey = some ks ∧ ks.map (·.2) = rules ∧
      ∀ x ∈ ks, specificity x.2.prelude = some x.1 := by
    induction rules with
    | nil => exact ⟨[], rfl, rfl, by simp⟩
    | cons r rules ih =>
      obtain ⟨ks, h1, h2, h3⟩ := ih (fun r hr => hne r (by simp [hr]))
      have : ∃ k, specificity r.prelude = some k := by
        have := hne r (by simp)
        cases hp : r.prelude with
        | nil => exact absurd hp this
        | cons s ss => exact ⟨_, rfl⟩
      obtain ⟨k, hk⟩ := this
      refine ⟨(k, r) :: ks, ?_, by simp [h2], ?_⟩
      · rw [List.mapM_cons, h1]
        simp [withKey, hk]
      · intro x hx
        rcases List.mem_cons.1 hx with rfl | hx
        · exact hk
        · exact h3 x hx
  obtain ⟨ks, h1, h2, h3⟩ := hk
  -- number them
  have hnum : ∃ ns : List ((Nat × Nat × Nat) × Nat × Rule α V), ns.map (fun e => (e.1, e.2.2)) = ks ∧
      (ns.map (fun x => x.2.1)).Pairwise (· < ·) ∧ ∀ x, x ∈ ns ↔ ks[x.2.1]? = some (x.1, x.2.2) := by
    refine ⟨ks.zipIdx.map (fun e => (e.1.1, e.2, e.1.2)), ?_, ?_, ?_⟩
    · rw [List.map_map]
      have : ((fun e : (Nat × Nat × Nat) × Nat × Rule α V => (e.1, e.2.2)) ∘
          fun e : ((Nat × Nat × Nat) × Rule α V) × Nat => (e.1.1, e.2, e.1.2)) = Prod.fst := rfl
      rw [this, List.zipIdx_map_fst]
    · rw [List.map_map]
      have : ((fun x : (Nat × Nat × Nat) × Nat × Rule α V => x.2.1) ∘
          fun e : ((Nat × Nat × Nat) × Rule α V) × Nat => (e.1.1, e.2, e.1.2)) = Prod.snd := rfl
      rw [this, List.zipIdx_map_snd]
      exact List.pairwise_lt_range'
    · rintro ⟨k, n, r⟩
      simp only [List.mem_map, Prod.mk.injEq]
      constructor
      · rintro ⟨⟨⟨k', r'⟩, n'⟩, h, h1, h2, h3⟩
        simp only at h1 h2 h3
        rw [h1, h2, h3] at h
        exact List.mem_zipIdx_iff_getElem?.1 h
      · intro h
        exact ⟨((k, r), n), List.mem_zipIdx_iff_getElem?.2 h, rfl, rfl, rfl⟩
  obtain ⟨ns, n1, n2, n3⟩ := hnum
  obtain ⟨s1, s2⟩ := sortBy_sorted ns [] List.Pairwise.nil (by simp) n2
  refine ⟨(sortBy ns).reverse, ?_, ?_, ?_⟩
  · unfold styleRules
    rw [h1]
    simp only [Option.map_some, Option.some.injEq]
    rw [← n1, ← sortBy_map (fun e : Nat × Rule α V => e.2) ns, List.map_reverse, List.map_reverse, List.map_map]
    rfl
  · intro x
    rw [List.mem_reverse]
    have : x ∈ sortBy ns ↔ x ∈ ns := by
      have := s2.mem_iff (a := x)
      simpa [sortBy] using this
    rw [this, n3, ← h2, List.getElem?_map]
    constructor
    · intro h
      refine ⟨by rw [h]; rfl, specificity_spec _ _ (h3 _ (List.mem_of_getElem? h))⟩
    · rintro ⟨h, hs⟩
      cases he : ks[x.2.1]? with
      | none => rw [he] at h; cases h
      | some e =>
        rw [he] at h
        simp only [Option.map_some, Option.some.injEq] at h
        have := specificity_spec _ _ (h3 e (List.mem_of_getElem? he))
        rw [h] at this
        have hk := isSpec_unique this hs
        rw [← hk, ← h]
  · rw [List.pairwise_reverse]
    exact s1

/-! ## The dictionary of properties -/

variable [DecidableEq α]

theorem dictGet_set {V : Type} (k k' : List α) (v : V) (d : List (List α × V)) :
    dictGet k' (dictSet k v d) = if k = k' then some v else dictGet k' d := by
  induction d with
  | nil => simp [dictGet, dictSet]
  | cons x d ih =>
    obtain ⟨k2, v2⟩ := x
    rw [dictSet]
    by_cases h : k2 = k
    · rw [if_pos h]
      subst h
      simp only [dictGet]
      by_cases h2 : k2 = k'
      · simp [h2]
      · simp [h2]
    · rw [if_neg h]
      simp only [dictGet]
      by_cases h2 : k2 = k'
      · rw [if_pos h2, if_neg (by rw [← h2]; exact fun h3 => h h3.symm), if_pos h2]
      · rw [if_neg h2, if_neg h2, ih]

/-- The value without the text `!important`. -/
def strip {V : Type} (imp : V → Bool) (val : List V) : List V :=
  match val.getLast? with
  | some v => if imp v then val.dropLast else val
  | none => val

/-- The value is important. -/
def impB {V : Type} (imp : V → Bool) (val : List V) : Bool := val.getLast?.any imp

theorem impB_iff {V : Type} (imp : V → Bool) (val : List V) : impB imp val = true ↔ Important imp val := by
  unfold impB Important
  cases val.getLast? <;> simp

/-- The values for one key, in order. -/
def valuesOf {V : Type} (key : List α) (kvs : List (List α × List V)) : List (List V) :=
  kvs.filterMap (fun kv => if kv.1 = key then some kv.2 else none)

theorem propFold_some {V : Type} (imp : V → Bool) (key : List α) : (kvs : List (List α × List V)) → (st : PState α V) →
    (∀ kv ∈ kvs, kv.2 ≠ []) → ∀ v0, dictGet key st.1 = some v0 →
    ∃ st', kvs.foldlM (propStep imp) st = some st' ∧ dictGet key st'.1 =
      some (if key ∈ st.2 then v0 else (((valuesOf key kvs).find? (impB imp)).map (strip imp)).getD v0)
  | [], st, _, v0, h0 => ⟨st, rfl, by simp [valuesOf, h0]⟩
  | (k, val) :: kvs, st, hne, v0, h0 => by
    have hv : val ≠ [] := hne (k, val) (by simp)
    obtain ⟨v, hv⟩ : ∃ v, val.getLast? = some v := ⟨_, List.getLast?_eq_some_getLast hv⟩
    rw [List.foldlM_cons]
    have ih := fun st => propFold_some imp key kvs st (fun kv hkv => hne kv (by simp [hkv]))
    simp only [propStep, hv]
    by_cases hk : k = key
    · subst hk
      have hval : valuesOf k ((k, val) :: kvs) = val :: valuesOf k kvs := by simp [valuesOf]
      rw [hval, h0]
      simp only [Option.isNone_some, Bool.false_eq_true, if_false]
      cases hi : imp v with
      | false =>
        simp only [Bool.false_and, Bool.false_eq_true, if_false]
        obtain ⟨st', h1, h2⟩ := ih st v0 h0
        refine ⟨st', h1, ?_⟩
        rw [h2, List.find?_cons]
        simp [impB, hv, hi]
      | true =>
        by_cases hm : k ∈ st.2
        · simp only [hm, decide_true, Bool.not_true, Bool.and_false, Bool.false_eq_true, if_false, if_true]
          obtain ⟨st', h1, h2⟩ := ih st v0 h0
          refine ⟨st', h1, ?_⟩
          rw [h2, if_pos hm]
        · simp only [hm, decide_false, Bool.not_false, Bool.and_self, if_true, if_false]
          obtain ⟨st', h1, h2⟩ := ih (dictSet k val.dropLast st.1, k :: st.2) val.dropLast (by rw [dictGet_set]; simp)
          refine ⟨st', h1, ?_⟩
          rw [h2, List.find?_cons]
          simp [impB, hv, hi, strip]
    · have hval : valuesOf key ((k, val) :: kvs) = valuesOf key kvs := by simp [valuesOf, hk]
      rw [hval]
      split
      · obtain ⟨st', h1, h2⟩ := ih (dictSet k (if imp v = true then val.dropLast else val) st.1, st.2) v0 (by rw [dictGet_set, if_neg hk]; exact h0)
        exact ⟨st', h1, h2⟩
      · split
        · obtain ⟨st', h1, h2⟩ := ih (dictSet k (if imp v = true then val.dropLast else val) st.1, k :: st.2) v0 (by rw [dictGet_set, if_neg hk]; exact h0)
          refine ⟨st', h1, ?_⟩
          rw [h2]
          simp [Ne.symm hk]
        · exact ih st v0 h0

theorem propFold_none {V : Type} (imp : V → Bool) (key : List α) : (kvs : List (List α × List V)) → (st : PState α V) →
    (∀ kv ∈ kvs, kv.2 ≠ []) → dictGet key st.1 = none → key ∉ st.2 →
    ∃ st', kvs.foldlM (propStep imp) st = some st' ∧ dictGet key st'.1 =
      match valuesOf key kvs with
      | [] => none
      | val :: rest => some (((rest.find? (impB imp)).map (strip imp)).getD (strip imp val))
  | [], st, _, h0, _ => ⟨st, rfl, by simp [valuesOf, h0]⟩
  | (k, val) :: kvs, st, hne, h0, hm => by
    have hv' : val ≠ [] := hne (k, val) (by simp)
    obtain ⟨v, hv⟩ : ∃ v, val.getLast? = some v := ⟨_, List.getLast?_eq_some_getLast hv'⟩
    rw [List.foldlM_cons]
    have hne' : ∀ kv ∈ kvs, kv.2 ≠ [] := fun kv hkv => hne kv (by simp [hkv])
    simp only [propStep, hv]
    by_cases hk : k = key
    · subst hk
      have hval : valuesOf k ((k, val) :: kvs) = val :: valuesOf k kvs := by simp [valuesOf]
      rw [hval, h0]
      simp only [Option.isNone_none, if_true]
      obtain ⟨st', h1, h2⟩ := propFold_some imp k kvs (dictSet k (if imp v = true then val.dropLast else val) st.1, st.2) hne'
        (if imp v = true then val.dropLast else val) (by rw [dictGet_set]; simp)
      refine ⟨st', h1, ?_⟩
      rw [h2, if_neg hm]
      simp [strip, hv]
    · have hval : valuesOf key ((k, val) :: kvs) = valuesOf key kvs := by simp [valuesOf, hk]
      rw [hval]
      split
      · exact propFold_none imp key kvs (dictSet k (if imp v = true then val.dropLast else val) st.1, st.2) hne' (by rw [dictGet_set, if_neg hk]; exact h0) hm
      · split
        · exact propFold_none imp key kvs (dictSet k (if imp v = true then val.dropLast else val) st.1, k :: st.2) hne'
            (by rw [dictGet_set, if_neg hk]; exact h0) (by simp [Ne.symm hk, hm])
        · exact propFold_none imp key kvs st hne' h0 hm

/-- The values of the key with the specificity and the number of their rule, in the order of the rules. -/
def declsOf {V : Type} (sel : Rule α V → Bool) (key : List α) (L : List ((Nat × Nat × Nat) × Nat × Rule α V)) :
    List ((Nat × Nat × Nat) × Nat × List V) :=
  L.flatMap (fun x => if sel x.2.2 then (valuesOf key x.2.2.props).map (fun v => (x.1, x.2.1, v)) else [])

theorem declsOf_values {V : Type} (sel : Rule α V → Bool) (key : List α) (L : List ((Nat × Nat × Nat) × Nat × Rule α V)) :
    (declsOf sel key L).map (fun x => x.2.2) = valuesOf key (((L.map (fun x => x.2.2)).filter sel).flatMap (·.props)) := by
  induction L with
  | nil => rfl
  | cons x L ih =>
    unfold declsOf at *
    rw [List.flatMap_cons, List.map_append, ih, List.map_cons, List.filter_cons]
    cases hs : sel x.2.2 with
    | true =>
      simp only [if_true, List.flatMap_cons, List.map_map]
      unfold valuesOf
      rw [List.filterMap_append]
      congr 1
      have : ((fun x : (Nat × Nat × Nat) × Nat × List V => x.2.2) ∘ fun v => (x.1, x.2.1, v)) = id := rfl
      rw [this, List.map_id]
    | false => simp

theorem valuesOf_nodup {V : Type} (key : List α) (props : List (List α × List V)) (hn : (props.map (·.1)).Nodup) :
    valuesOf key props = [] ∨ ∃ v, valuesOf key props = [v] := by
  induction props with
  | nil => left; rfl
  | cons x props ih =>
    obtain ⟨k, v⟩ := x
    rw [List.map_cons, List.nodup_cons] at hn
    by_cases hk : k = key
    · right
      refine ⟨v, ?_⟩
      have : valuesOf key props = [] := by
        unfold valuesOf
        rw [List.filterMap_eq_nil_iff]
        intro y hy
        rw [if_neg]
        intro h
        exact hn.1 (List.mem_map.2 ⟨y, hy, by rw [h, hk]⟩)
      unfold valuesOf at *
      rw [List.filterMap_cons]
      simp [hk, this]
    · have : valuesOf key ((k, v) :: props) = valuesOf key props := by simp [valuesOf, hk]
      rw [this]
      exact ih hn.2

theorem mem_valuesOf {V : Type} (key : List α) (props : List (List α × List V)) (v : List V) :
    v ∈ valuesOf key props ↔ (key, v) ∈ props := by
  unfold valuesOf
  rw [List.mem_filterMap]
  constructor
  · rintro ⟨⟨k, v'⟩, h, he⟩
    simp only at he
    split at he
    · rename_i hk
      cases he
      rw [← hk]; exact h
    · cases he
  · intro h
    exact ⟨(key, v), h, by simp⟩

theorem declsOf_pairwise {V : Type} (sel : Rule α V → Bool) (key : List α) (L : List ((Nat × Nat × Nat) × Nat × Rule α V))
    (hL : L.Pairwise (fun a b => Stronger a.2.1 a.1 b.2.1 b.1)) (hn : ∀ x ∈ L, (x.2.2.props.map (·.1)).Nodup) :
    (declsOf sel key L).Pairwise (fun a b => Stronger a.2.1 a.1 b.2.1 b.1) := by
  induction L with
  | nil => exact List.Pairwise.nil
  | cons x L ih =>
    rw [List.pairwise_cons] at hL
    unfold declsOf
    rw [List.flatMap_cons, List.pairwise_append]
    refine ⟨?_, ih hL.2 (fun y hy => hn y (by simp [hy])), ?_⟩
    · split
      · rcases valuesOf_nodup key x.2.2.props (hn x (by simp)) with h | ⟨v, h⟩
        · rw [h]; exact List.Pairwise.nil
        · rw [h]; simp
      · exact List.Pairwise.nil
    · intro a ha b hb
      split at ha
      · obtain ⟨v, _, rfl⟩ := List.mem_map.1 ha
        obtain ⟨y, hy, hb⟩ := List.mem_flatMap.1 hb
        split at hb
        · obtain ⟨w, _, rfl⟩ := List.mem_map.1 hb
          exact hL.1 y hy
        · cases hb
      · cases ha

end Parce.Css

import Verif.Lemmas.Walk
/-!
# Lemmas about ranges and groups
-/
namespace Parce
variable {α L A : Type}

/-- The leaves yielded for a slice. -/
def slToks (root : Node α L A) (s : List Nat × Nat × Option Nat) : List (List Nat × TokN α A) :=
  utilTokens false (sliceNodes root s)

theorem slToks_none {root sub : Node α L A} {p : List Nat} (h : root.at p = some sub) (a : Nat) :
    slToks root (p, a, none) = leavesL p a (sub.kids.drop a) := by
  simp only [slToks, sliceNodes, kidsAt_eq h]
  rw [utilTokens_eq, children_false, kidsFrom_drop]
  simp only [Bool.false_eq_true, if_false, kidsFrom_leaves, Nat.zero_add]

theorem slToks_some {root sub : Node α L A} {p : List Nat} (h : root.at p = some sub) (a b : Nat) :
    slToks root (p, a, some b) = leavesL p a ((sub.kids.take b).drop a) := by
  simp only [slToks, sliceNodes, kidsAt_eq h, slice]
  rw [utilTokens_eq, children_false, kidsFrom_take, kidsFrom_drop]
  simp only [Bool.false_eq_true, if_false, kidsFrom_leaves, Nat.zero_add]

theorem leavesAt_kids (n : Node α L A) (p : List Nat) (h : n.isCtx = true) : n.leavesAt p = leavesL p 0 n.kids := by
  cases n with
  | tok t => simp [Node.isCtx] at h
  | ctx l cs => rfl

theorem isCtx_of_kid {n m : Node α L A} {i : Nat} (h : n.kids[i]? = some m) : n.isCtx = true := by
  cases n with
  | tok t => simp [Node.kids] at h
  | ctx l cs => rfl

theorem at_snoc {root sub m : Node α L A} {p : List Nat} {i : Nat} (h : root.at p = some sub)
    (hi : sub.kids[i]? = some m) : root.at (p ++ [i]) = some m := by
  rw [at_append, h]; simp [Node.at, hi]

theorem at_cons {sub n : Node α L A} {i : Nat} {tr : List Nat} (h : sub.at (i :: tr) = some n) :
    ∃ m, sub.kids[i]? = some m ∧ m.at tr = some n := by
  simp only [Node.at] at h
  cases hi : sub.kids[i]? with
  | none => rw [hi] at h; simp at h
  | some m => rw [hi] at h; exact ⟨m, rfl, h⟩

/-- From the start token to the end of the subtree. -/
theorem startSlices_toks {root : Node α L A} {t : TokN α A} (trail : List Nat) : ∀ {base : List Nat} {sub : Node α L A},
    root.at base = some sub → sub.at trail = some (.tok t) → trail ≠ [] →
    ∃ before after, sub.leavesAt base = before ++ (base ++ trail, t) :: after ∧
      (startSlices base trail).flatMap (slToks root) = (base ++ trail, t) :: after := by
  induction trail with
  | nil => intro base sub _ _ h; exact absurd rfl h
  | cons i tr ih =>
    intro base sub hb hp _
    obtain ⟨m, hi, hm⟩ := at_cons hp
    have hbm := at_snoc hb hi
    have hsplit := leavesL_split base 0 hi
    rw [Nat.zero_add] at hsplit
    rw [leavesAt_kids sub base (isCtx_of_kid hi)]
    cases tr with
    | nil =>
      simp only [Node.at, Option.some.injEq] at hm
      subst hm
      refine ⟨leavesL base 0 (sub.kids.take i), leavesL base (i + 1) (sub.kids.drop (i + 1)), ?_, ?_⟩
      · rw [hsplit]; simp [Node.leavesAt]
      · simp only [startSlices, List.flatMap_cons, List.flatMap_nil, List.append_nil, slToks_none hb]
        have hd : sub.kids.drop i = Node.tok t :: sub.kids.drop (i + 1) := by
          rw [List.drop_eq_getElem_cons (getElem?_lt hi)]
          congr 1
          have h2 := hi
          rw [List.getElem?_eq_getElem (getElem?_lt hi)] at h2
          exact Option.some.inj h2
        rw [hd]
        simp [leavesL, Node.leavesAt]
    | cons j tr =>
      obtain ⟨before, after, h1, h2⟩ := ih hbm hm (by simp)
      refine ⟨leavesL base 0 (sub.kids.take i) ++ before, after ++ leavesL base (i + 1) (sub.kids.drop (i + 1)), ?_, ?_⟩
      · rw [hsplit, h1]; simp
      · simp only [startSlices, List.flatMap_append, List.flatMap_cons, List.flatMap_nil, List.append_nil,
          slToks_none hb, h2]
        simp

/-- From the start of the subtree to the end token. -/
theorem endSlices_toks {root : Node α L A} {t : TokN α A} (trail : List Nat) : ∀ {base : List Nat} {sub : Node α L A},
    root.at base = some sub → sub.at trail = some (.tok t) → trail ≠ [] →
    ∃ before after, sub.leavesAt base = before ++ (base ++ trail, t) :: after ∧
      (endSlices base trail).flatMap (slToks root) = before ++ [(base ++ trail, t)] := by
  induction trail with
  | nil => intro base sub _ _ h; exact absurd rfl h
  | cons i tr ih =>
    intro base sub hb hp _
    obtain ⟨m, hi, hm⟩ := at_cons hp
    have hbm := at_snoc hb hi
    have hsplit := leavesL_split base 0 hi
    rw [Nat.zero_add] at hsplit
    rw [leavesAt_kids sub base (isCtx_of_kid hi)]
    cases tr with
    | nil =>
      simp only [Node.at, Option.some.injEq] at hm
      subst hm
      refine ⟨leavesL base 0 (sub.kids.take i), leavesL base (i + 1) (sub.kids.drop (i + 1)), ?_, ?_⟩
      · rw [hsplit]; simp [Node.leavesAt]
      · simp only [endSlices, List.flatMap_cons, List.flatMap_nil, List.append_nil, slToks_some hb, List.drop_zero]
        rw [List.take_add_one, hi, leavesL_append]
        have : (sub.kids.take i).length = i := by
          rw [List.length_take]; have := getElem?_lt hi; omega
        simp [leavesL, Node.leavesAt, this]
    | cons j tr =>
      obtain ⟨before, after, h1, h2⟩ := ih hbm hm (by simp)
      refine ⟨leavesL base 0 (sub.kids.take i) ++ before, after ++ leavesL base (i + 1) (sub.kids.drop (i + 1)), ?_, ?_⟩
      · rw [hsplit, h1]; simp
      · simp only [endSlices, List.flatMap_cons, slToks_some hb, h2, List.drop_zero]
        simp

/-- The part of the leaves between two children. -/
theorem leavesL_mid (p : List Nat) {cs : List (Node α L A)} {i j : Nat} {m n : Node α L A} (hi : cs[i]? = some m)
    (hj : cs[j]? = some n) (hij : i < j) :
    leavesL p 0 cs = leavesL p 0 (cs.take i) ++ (m.leavesAt (p ++ [i]) ++
      (leavesL p (i + 1) ((cs.take j).drop (i + 1)) ++ (n.leavesAt (p ++ [j]) ++ leavesL p (j + 1) (cs.drop (j + 1))))) := by
  have h1 := leavesL_split p 0 hj
  rw [Nat.zero_add] at h1
  have hi' : (cs.take j)[i]? = some m := by rw [List.getElem?_take, if_pos hij]; exact hi
  have h2 := leavesL_split p 0 hi'
  rw [Nat.zero_add] at h2
  rw [h1, h2]
  have h3 : (cs.take j).take i = cs.take i := by rw [List.take_take]; congr 1; omega
  rw [h3]
  simp

/-- All tokens of a range whose start token lies before its end token in different children
    of the ancestor. -/
theorem slices_toks {root sub : Node α L A} {a : List Nat} {i j : Nat} {is js : List Nat} {s e : TokN α A}
    (ha : root.at a = some sub) (hs : sub.at (i :: is) = some (.tok s)) (he : sub.at (j :: js) = some (.tok e))
    (hij : i < j) :
    ∃ before mid after, sub.leavesAt a = before ++ ((a ++ i :: is, s) :: mid ++ [(a ++ j :: js, e)]) ++ after ∧
      Rng.tokens root ⟨a, i :: is, j :: js⟩ = (a ++ i :: is, s) :: mid ++ [(a ++ j :: js, e)] := by
  obtain ⟨m, hi, hm⟩ := at_cons hs
  obtain ⟨n, hj, hn⟩ := at_cons he
  have hbm := at_snoc ha hi
  have hbn := at_snoc ha hj
  have hmid := leavesL_mid a hi hj hij
  rw [leavesAt_kids sub a (isCtx_of_kid hi), hmid]
  have htok : ∀ r : Rng, Rng.tokens root r = r.slices.flatMap (slToks root) := fun r => rfl
  rw [htok]
  -- the part inside the first child
  obtain ⟨b1, a1, h1, h1'⟩ : ∃ b1 a1, m.leavesAt (a ++ [i]) = b1 ++ (a ++ i :: is, s) :: a1 ∧
      ∀ k : Nat, i < k → (upSlices a (i :: is)).flatMap (slToks root) ++
        leavesL a (startIdx (i :: is)) ((sub.kids.take k).drop (startIdx (i :: is))) =
        (a ++ i :: is, s) :: a1 ++ leavesL a (i + 1) ((sub.kids.take k).drop (i + 1)) := by
    cases is with
    | nil =>
      simp only [Node.at, Option.some.injEq] at hm
      subst hm
      refine ⟨[], [], by simp [Node.leavesAt], ?_⟩
      intro k hk
      have hi' : (sub.kids.take k)[i]? = some (.tok s) := by rw [List.getElem?_take, if_pos hk]; exact hi
      have hd : (sub.kids.take k).drop i = Node.tok s :: (sub.kids.take k).drop (i + 1) := by
        rw [List.drop_eq_getElem_cons (getElem?_lt hi')]
        congr 1
        have h2 := hi'
        rw [List.getElem?_eq_getElem (getElem?_lt hi')] at h2
        exact Option.some.inj h2
      simp only [upSlices, startIdx, List.flatMap_nil, List.nil_append, hd]
      simp [leavesL, Node.leavesAt]
    | cons i2 is =>
      obtain ⟨b1, a1, h1, h2⟩ := startSlices_toks (i2 :: is) hbm hm (by simp)
      refine ⟨b1, a1, by rw [h1]; simp, ?_⟩
      intro k hk
      simp only [upSlices, startIdx, h2]
      simp
  -- the part inside the last child
  obtain ⟨b2, a2, h2, h2'⟩ : ∃ b2 a2, n.leavesAt (a ++ [j]) = b2 ++ (a ++ j :: js, e) :: a2 ∧
      ∀ start : Nat, start ≤ j → (downSlices a start (j :: js)).flatMap (slToks root) =
        leavesL a start ((sub.kids.take j).drop start) ++ (b2 ++ [(a ++ j :: js, e)]) := by
    cases js with
    | nil =>
      simp only [Node.at, Option.some.injEq] at hn
      subst hn
      refine ⟨[], [], by simp [Node.leavesAt], ?_⟩
      intro start hst
      simp only [downSlices, List.flatMap_cons, List.flatMap_nil, List.append_nil, slToks_some ha]
      have hlt := getElem?_lt hj
      rw [List.take_add_one, hj, List.drop_append_of_le_length (by rw [List.length_take]; omega), leavesL_append]
      have hlen : start + ((sub.kids.take j).drop start).length = j := by
        rw [List.length_drop, List.length_take]; omega
      rw [hlen]
      simp [leavesL, Node.leavesAt]
    | cons j2 js =>
      obtain ⟨b2, a2, h1, h2⟩ := endSlices_toks (j2 :: js) hbn hn (by simp)
      refine ⟨b2, a2, by rw [h1]; simp, ?_⟩
      intro start hst
      simp only [downSlices, List.flatMap_cons, slToks_some ha, h2]
      simp
  refine ⟨leavesL a 0 (sub.kids.take i) ++ b1, a1 ++ (leavesL a (i + 1) ((sub.kids.take j).drop (i + 1)) ++ b2),
    a2 ++ leavesL a (j + 1) (sub.kids.drop (j + 1)), ?_, ?_⟩
  · rw [h1, h2]
    simp
  · simp only [Rng.slices, List.flatMap_append]
    rw [h2' _ (by cases is <;> simp only [startIdx] <;> omega), ← List.append_assoc, h1' j hij]
    simp

/-- What the search for the youngest common ancestor finds for trails to tokens. -/
theorem commonLoop_spec : ∀ (st et : List Nat) (n : Nat) (ctx : Node α L A) (s e : TokN α A),
    ctx.at st = some (.tok s) → ctx.at et = some (.tok e) → st ≠ [] → et ≠ [] →
    ∃ k i is j js, commonLoop n ctx st et = n + k ∧ st.take k = et.take k ∧ st.drop k = i :: is ∧ et.drop k = j :: js ∧
      (i ≠ j ∨ (i = j ∧ is = [] ∧ js = [])) := by
  intro st
  induction st with
  | nil => intro et n ctx s e _ _ h; exact absurd rfl h
  | cons i is ih =>
    intro et n ctx s e hs he _ hne
    cases et with
    | nil => exact absurd rfl hne
    | cons j js =>
      simp only [commonLoop]
      by_cases hij : i = j
      · subst hij
        obtain ⟨m, hm, hms⟩ := at_cons hs
        obtain ⟨m', hm', hme⟩ := at_cons he
        rw [hm] at hm'
        cases hm'
        rw [if_neg (by simp), hm]
        cases m with
        | tok u =>
          have h1 : is = [] := by
            cases is with
            | nil => rfl
            | cons x xs => simp [Node.at, Node.kids] at hms
          have h2 : js = [] := by
            cases js with
            | nil => rfl
            | cons x xs => simp [Node.at, Node.kids] at hme
          exact ⟨0, i, is, i, js, rfl, rfl, rfl, rfl, Or.inr ⟨rfl, h1, h2⟩⟩
        | ctx l ds =>
          have h1 : is ≠ [] := by rintro rfl; simp [Node.at] at hms
          have h2 : js ≠ [] := by rintro rfl; simp [Node.at] at hme
          simp only
          rw [if_neg (by simp [h1, h2])]
          obtain ⟨k, i', is', j', js', h3, h4, h5, h6, h7⟩ := ih js (n + 1) (.ctx l ds) s e hms hme h1 h2
          exact ⟨k + 1, i', is', j', js', by rw [h3]; omega, by simp [h4], by simp [h5], by simp [h6], h7⟩
      · rw [if_pos hij]
        exact ⟨0, i, is, j, js, rfl, rfl, rfl, rfl, Or.inl hij⟩

theorem find?_least {P : TokN α A → Bool} {ts : List (TokN α A)} (ho : Ordered ts) {s : TokN α A}
    (h : ts.find? P = some s) : P s = true ∧ s ∈ ts ∧ ∀ x ∈ ts, P x = true → s.pos ≤ x.pos := by
  refine ⟨List.find?_some h, List.mem_of_find?_eq_some h, ?_⟩
  induction ts with
  | nil => simp
  | cons y ys ih =>
    rw [List.find?_cons] at h
    have hoy : Ordered ([y] ++ ys) := ho
    cases hy : P y with
    | true =>
      rw [hy] at h
      simp only [Option.some.injEq] at h
      subst h
      intro x hx _
      rcases List.mem_cons.1 hx with rfl | hx
      · exact Nat.le_refl _
      · have := hoy.cross y (by simp) x hx
        simp only [TokN.stop] at this
        omega
    | false =>
      rw [hy] at h
      intro x hx hPx
      rcases List.mem_cons.1 hx with rfl | hx
      · rw [hy] at hPx; simp at hPx
      · exact ih hoy.right h x hx hPx

theorem find?_greatest {Q : TokN α A → Bool} {ts : List (TokN α A)} (ho : Ordered ts) {s : TokN α A}
    (h : ts.reverse.find? Q = some s) : Q s = true ∧ s ∈ ts ∧ ∀ x ∈ ts, Q x = true → x.pos ≤ s.pos := by
  refine ⟨List.find?_some h, List.mem_reverse.1 (List.mem_of_find?_eq_some h), ?_⟩
  induction ts with
  | nil => simp
  | cons y ys ih =>
    have hoy : Ordered ([y] ++ ys) := ho
    rw [List.reverse_cons, List.find?_append] at h
    cases hys : ys.reverse.find? Q with
    | some z =>
      rw [hys] at h
      simp only [Option.some_or, Option.some.injEq] at h
      subst h
      intro x hx hQx
      rcases List.mem_cons.1 hx with rfl | hx
      · have hz := List.mem_reverse.1 (List.mem_of_find?_eq_some hys)
        have := hoy.cross x (by simp) z hz
        simp only [TokN.stop] at this
        omega
      · exact ih hoy.right hys x hx hQx
    | none =>
      rw [hys] at h
      simp only [Option.none_or, List.find?_cons, List.find?_nil] at h
      cases hy : Q y with
      | true =>
        rw [hy] at h
        simp only [Option.some.injEq] at h
        subst h
        intro x hx hQx
        rcases List.mem_cons.1 hx with rfl | hx
        · exact Nat.le_refl _
        · exact absurd hQx (List.find?_eq_none.1 hys x (List.mem_reverse.2 hx))
      | false => rw [hy] at h; simp at h

theorem filter_seg {β : Type} {p : β → Bool} {a b c : List β} (ha : ∀ x ∈ a, p x = false) (hb : ∀ x ∈ b, p x = true)
    (hc : ∀ x ∈ c, p x = false) : (a ++ b ++ c).filter p = b := by
  rw [List.filter_append, List.filter_append]
  have h1 : a.filter p = [] := List.filter_eq_nil_iff.2 (fun x hx => by rw [ha x hx]; simp)
  have h2 : c.filter p = [] := List.filter_eq_nil_iff.2 (fun x hx => by rw [hc x hx]; simp)
  have h3 : b.filter p = b := List.filter_eq_self.2 hb
  rw [h1, h2, h3]; simp

/-- A segment of the leaves that is cut out by two monotone conditions. -/
theorem seg_filter {P Q : TokN α A → Bool} (hP : ∀ a b : TokN α A, a.stop ≤ b.pos → P a = true → P b = true)
    (hQ : ∀ a b : TokN α A, a.stop ≤ b.pos → Q b = true → Q a = true)
    {X seg Z : List (List Nat × TokN α A)} (ho : Ordered ((X ++ seg ++ Z).map (·.2)))
    (hS : (X = [] ∧ ∀ t ∈ (X ++ seg ++ Z).map (·.2), P t = true) ∨
      ∃ s rest, seg = s :: rest ∧ P s.2 = true ∧ ∀ x ∈ (X ++ seg ++ Z).map (·.2), P x = true → s.2.pos ≤ x.pos)
    (hE : (Z = [] ∧ ∀ t ∈ (X ++ seg ++ Z).map (·.2), Q t = true) ∨
      ∃ init e, seg = init ++ [e] ∧ Q e.2 = true ∧ ∀ x ∈ (X ++ seg ++ Z).map (·.2), Q x = true → x.pos ≤ e.2.pos) :
    (X ++ seg ++ Z).filter (fun q => P q.2 && Q q.2) = seg := by
  rw [List.map_append, List.map_append] at ho
  have hXs := ho.left
  have hsZ : Ordered (seg.map (·.2) ++ Z.map (·.2)) := by
    rw [List.append_assoc] at ho; exact ho.right
  have hlen : ∀ x ∈ X ++ seg ++ Z, 0 < x.2.text.length := by
    intro x hx
    have := ho.1 x.2 (by rw [← List.map_append, ← List.map_append]; exact List.mem_map_of_mem hx)
    exact List.length_pos_iff.2 this
  apply filter_seg
  · intro x hx
    rcases hS with ⟨h1, _⟩ | ⟨s, rest, h1, h2, h3⟩
    · rw [h1] at hx; simp at hx
    · cases hPx : P x.2 with
      | false => rfl
      | true =>
        have h4 := h3 x.2 (List.mem_map_of_mem (by simp [hx])) hPx
        have h5 := hXs.cross x.2 (List.mem_map_of_mem hx) s.2 (List.mem_map_of_mem (by rw [h1]; simp))
        have h6 := hlen x (by simp [hx])
        simp only [TokN.stop] at h5
        omega
  · intro x hx
    have h1 : P x.2 = true := by
      rcases hS with ⟨_, h1⟩ | ⟨s, rest, h1, h2, h3⟩
      · exact h1 x.2 (List.mem_map_of_mem (by simp [hx]))
      · rw [h1] at hx
        rcases List.mem_cons.1 hx with rfl | hx
        · exact h2
        · have ho2 : Ordered ([s.2] ++ rest.map (·.2)) := by
            have := hXs.right; rw [h1] at this; exact this
          exact hP s.2 x.2 (ho2.cross s.2 (by simp) x.2 (List.mem_map_of_mem hx)) h2
    have h2 : Q x.2 = true := by
      rcases hE with ⟨_, h1⟩ | ⟨init, e, h1, h2, h3⟩
      · exact h1 x.2 (List.mem_map_of_mem (by simp [hx]))
      · rw [h1] at hx
        rcases List.mem_append.1 hx with hx | hx
        · have ho2 : Ordered (init.map (·.2) ++ [e.2]) := by
            have := hXs.right; rw [h1, List.map_append] at this; exact this
          exact hQ x.2 e.2 (ho2.cross x.2 (List.mem_map_of_mem hx) e.2 (by simp)) h2
        · simp only [List.mem_singleton] at hx; subst hx; exact h2
    rw [h1, h2]; rfl
  · intro x hx
    rcases hE with ⟨h1, _⟩ | ⟨init, e, h1, h2, h3⟩
    · rw [h1] at hx; simp at hx
    · cases hQx : Q x.2 with
      | false => simp
      | true =>
        have h4 := h3 x.2 (List.mem_map_of_mem (by simp [hx])) hQx
        have h5 := hsZ.cross e.2 (List.mem_map_of_mem (by rw [h1]; simp)) x.2 (List.mem_map_of_mem hx)
        have h6 := hlen e (by simp [h1])
        simp only [TokN.stop] at h5
        omega

theorem range_full (l : L) (cs : List (Node α L A)) :
    Rng.tokens (.ctx l cs) ⟨[], [], []⟩ = leavesL [] 0 cs := by
  have h : Rng.tokens (.ctx l cs) ⟨[], [], []⟩ = slToks (.ctx l cs) ([], 0, none) := by
    simp [Rng.tokens, Rng.slices, upSlices, downSlices, startIdx, slToks]
  rw [h, slToks_none (sub := .ctx l cs) rfl]
  rfl

theorem range_start (root : Node α L A) (a st : List Nat) (h : st ≠ []) :
    Rng.tokens root ⟨a, st, []⟩ = (startSlices a st).flatMap (slToks root) := by
  have : (⟨a, st, []⟩ : Rng).slices = startSlices a st := by
    match st with
    | [] => exact absurd rfl h
    | [i] => simp [Rng.slices, upSlices, downSlices, startIdx, startSlices]
    | i :: j :: js => simp [Rng.slices, upSlices, downSlices, startIdx, startSlices]
  rw [← this]; rfl

theorem range_end (root : Node α L A) (a et : List Nat) (h : et ≠ []) :
    Rng.tokens root ⟨a, [], et⟩ = (endSlices a et).flatMap (slToks root) := by
  have : (⟨a, [], et⟩ : Rng).slices = endSlices a et := by
    match et with
    | [] => exact absurd rfl h
    | [i] => simp [Rng.slices, upSlices, downSlices, startIdx, endSlices]
    | i :: j :: js => simp [Rng.slices, upSlices, downSlices, startIdx, endSlices]
  rw [← this]; rfl

theorem range_one {root sub : Node α L A} {a : List Nat} {i : Nat} {s : TokN α A}
    (ha : root.at a = some sub) (hi : sub.kids[i]? = some (.tok s)) :
    Rng.tokens root ⟨a, [i], [i]⟩ = [(a ++ [i], s)] := by
  have h : Rng.tokens root ⟨a, [i], [i]⟩ = slToks root (a, i, some (i + 1)) := by
    simp [Rng.tokens, Rng.slices, upSlices, downSlices, startIdx, slToks]
  rw [h, slToks_some ha]
  have h2 : (sub.kids.take (i + 1)).drop i = [.tok s] := by
    have hlt := getElem?_lt hi
    rw [List.take_add_one, hi, List.drop_append_of_le_length (by rw [List.length_take]; omega)]
    rw [List.drop_eq_nil_of_le (by rw [List.length_take]; omega)]
    rfl
  rw [h2]
  simp [leavesL, Node.leavesAt]

/-- `Range.tokens` of a range that touches a token. -/
theorem range_eq (l : L) {cs : List (Node α L A)} (hf : FullL cs) (ho : Ordered (toksL cs)) (start : Nat)
    (stop : Option Nat) (hse : ∀ e, stop = some e → start < e) {u : TokN α A} (hu : u ∈ toksL cs)
    (hu1 : start < u.stop) (hu2 : ∀ e, stop = some e → u.pos < e) :
    ∃ r, Rng.fromTree l cs start stop = some r ∧
      r.tokens (.ctx l cs) = (leavesL [] 0 cs).filter (fun q => decide (start < q.2.stop) &&
        (stop.map (fun e => decide (q.2.pos < e))).getD true) := by
  have hne : cs ≠ [] := by rintro rfl; simp [toksL] at hu
  let P : TokN α A → Bool := fun t => decide (start < t.stop)
  let Q : TokN α A → Bool := fun t => (stop.map (fun e => decide (t.pos < e))).getD true
  have hP : ∀ a b : TokN α A, a.stop ≤ b.pos → P a = true → P b = true := pos_mono_stop start
  have hQ : ∀ a b : TokN α A, a.stop ≤ b.pos → Q b = true → Q a = true := by
    intro a b hab h
    cases hs : stop with
    | none => simp [Q, hs]
    | some e =>
      simp only [Q, hs, Option.map_some, Option.getD_some] at h ⊢
      exact pos_anti e a b hab h
  have hQu : Q u = true := by
    cases hs : stop with
    | none => simp [Q, hs]
    | some e => simp only [Q, hs, Option.map_some, Option.getD_some]; exact decide_eq_true (hu2 e hs)
  have hPu : P u = true := decide_eq_true hu1
  have hroot : (Node.ctx l cs).at [] = some (.ctx l cs) := rfl
  have hmap : (leavesL [] 0 cs).map (·.2) = toksL cs := leavesL_toks cs [] 0
  have hleaf : (Node.ctx l cs).leavesAt [] = leavesL [] 0 cs := rfl
  -- the end trail
  obtain ⟨et, het, hE⟩ : ∃ et, endTrailOf l cs start stop = some et ∧
      ((et = [] ∧ ∀ t ∈ toksL cs, Q t = true) ∨ (et ≠ [] ∧ ∃ te, (Node.ctx l cs).at et = some (.tok te) ∧ Q te = true ∧
        ∀ x ∈ toksL cs, Q x = true → x.pos ≤ te.pos)) := by
    cases hs : stop with
    | none => exact ⟨[], rfl, Or.inl ⟨rfl, fun t _ => by simp [Q, hs]⟩⟩
    | some e =>
      simp only [endTrailOf]
      by_cases hlt : e < (Node.ctx l cs).stop
      · rw [if_pos hlt, if_neg (by have := hse e hs; omega)]
        have hfl := findTokenLeft_eq hf ho e
        have hQe : Q = fun t => decide (t.pos < e) := by funext t; simp [Q, hs]
        rw [← findTokenLeftTrail_fst] at hfl
        cases htr : findTokenLeftTrail cs e with
        | none =>
          rw [htr] at hfl
          have := List.find?_eq_none.1 hfl.symm u (List.mem_reverse.2 hu)
          simp [hu2 e hs] at this
        | some q =>
          obtain ⟨te, et⟩ := q
          rw [htr] at hfl
          have hat : (Node.ctx l cs).at et = some (.tok te) := by
            unfold findTokenLeftTrail at htr
            split at htr
            · simp at htr
            · exact trail_at htr
          have := find?_greatest ho hfl.symm
          refine ⟨et, rfl, Or.inr ⟨?_, te, hat, ?_, ?_⟩⟩
          · rintro rfl; simp [Node.at] at hat
          · rw [hQe]; exact this.1
          · rw [hQe]; exact this.2.2
      · rw [if_neg hlt]
        refine ⟨[], rfl, Or.inl ⟨rfl, ?_⟩⟩
        intro t ht
        simp only [Q, hs, Option.map_some, Option.getD_some, decide_eq_true_eq]
        obtain ⟨_, h2, h3⟩ := full_toks (Node.ctx l cs) ⟨hne, hf⟩
        cases hl : (toksL cs).getLast? with
        | none => rw [List.getLast?_eq_none_iff.1 hl] at ht; simp at ht
        | some last =>
          simp only [Node.toks, hl] at h3
          have hst : (Node.ctx l cs).stop = last.stop := by simp [Node.stop, h3]
          have h4 : t.stop ≤ last.stop := by
            have := Ordered.upward (P := fun x => decide (t.stop ≤ x.stop)) (fun a b hab h => by
              have h2 := of_decide_eq_true h; apply decide_eq_true; simp only [TokN.stop] at *; omega) ho hl ht (by simp)
            exact of_decide_eq_true this
          have h5 : 0 < t.text.length := List.length_pos_iff.2 (ho.1 t ht)
          have h6 : t.stop = t.pos + t.text.length := rfl
          omega
  -- the start trail
  obtain hS | ⟨st, ts, hst, hst0, hat, hPs, hmin⟩ : (start = 0) ∨ ∃ st ts, (findTokenTrail cs start).map (·.2) = some st ∧
      st ≠ [] ∧ (Node.ctx l cs).at st = some (.tok ts) ∧ P ts = true ∧ ∀ x ∈ toksL cs, P x = true → ts.pos ≤ x.pos := by
    by_cases h0 : start = 0
    · exact Or.inl h0
    · right
      have hfl := findToken_eq hf ho start
      rw [← findTokenTrail_fst] at hfl
      cases htr : findTokenTrail cs start with
      | none =>
        rw [htr] at hfl
        have := List.find?_eq_none.1 hfl.symm u hu
        simp [hu1] at this
      | some q =>
        obtain ⟨ts, st⟩ := q
        rw [htr] at hfl
        have hat : (Node.ctx l cs).at st = some (.tok ts) := by
          unfold findTokenTrail at htr
          split at htr
          · simp at htr
          · exact trail_at htr
        have := find?_least ho hfl.symm
        refine ⟨st, ts, rfl, ?_, hat, this.1, this.2.2⟩
        rintro rfl; simp [Node.at] at hat
  · -- from the beginning
    have hPall : ∀ t ∈ toksL cs, P t = true := by
      intro t ht
      have h5 : 0 < t.text.length := List.length_pos_iff.2 (ho.1 t ht)
      apply decide_eq_true
      simp only [TokN.stop]; omega
    refine ⟨⟨[], [], et⟩, ?_, ?_⟩
    · unfold Rng.fromTree
      rw [if_neg hne]
      rw [het]
      simp [hS]
    · rcases hE with ⟨rfl, hQall⟩ | ⟨het0, te, hatE, hQe, hmax⟩
      · rw [range_full]
        have := seg_filter (X := []) (seg := leavesL [] 0 cs) (Z := []) hP hQ (by simpa [hmap] using ho)
          (Or.inl ⟨rfl, by simpa [hmap] using hPall⟩) (Or.inl ⟨rfl, by simpa [hmap] using hQall⟩)
        simpa using this.symm
      · rw [range_end _ _ _ het0]
        obtain ⟨before, after, h1, h2⟩ := endSlices_toks et hroot hatE het0
        rw [h2]
        have h1' : leavesL [] 0 cs = [] ++ (before ++ [([] ++ et, te)]) ++ after := by rw [← hleaf, h1]; simp
        have := seg_filter (X := []) (seg := before ++ [([] ++ et, te)]) (Z := after) hP hQ
          (by rw [← h1', hmap]; exact ho) (Or.inl ⟨rfl, by rw [← h1', hmap]; exact hPall⟩)
          (Or.inr ⟨_, _, rfl, hQe, by rw [← h1', hmap]; exact hmax⟩)
        rw [← h1'] at this
        exact this.symm
  · by_cases h0 : start = 0
    · -- not used by the code, but the trail exists as well
      have hPall : ∀ t ∈ toksL cs, P t = true := by
        intro t ht
        have h5 : 0 < t.text.length := List.length_pos_iff.2 (ho.1 t ht)
        apply decide_eq_true
        simp only [TokN.stop]; omega
      refine ⟨⟨[], [], et⟩, ?_, ?_⟩
      · unfold Rng.fromTree
        rw [if_neg hne]
        rw [het]
        simp [h0]
      · rcases hE with ⟨rfl, hQall⟩ | ⟨het0, te, hatE, hQe, hmax⟩
        · rw [range_full]
          have := seg_filter (X := []) (seg := leavesL [] 0 cs) (Z := []) hP hQ (by simpa [hmap] using ho)
            (Or.inl ⟨rfl, by simpa [hmap] using hPall⟩) (Or.inl ⟨rfl, by simpa [hmap] using hQall⟩)
          simpa using this.symm
        · rw [range_end _ _ _ het0]
          obtain ⟨before, after, h1, h2⟩ := endSlices_toks et hroot hatE het0
          rw [h2]
          have h1' : leavesL [] 0 cs = [] ++ (before ++ [([] ++ et, te)]) ++ after := by rw [← hleaf, h1]; simp
          have := seg_filter (X := []) (seg := before ++ [([] ++ et, te)]) (Z := after) hP hQ
            (by rw [← h1', hmap]; exact ho) (Or.inl ⟨rfl, by rw [← h1', hmap]; exact hPall⟩)
            (Or.inr ⟨_, _, rfl, hQe, by rw [← h1', hmap]; exact hmax⟩)
          rw [← h1'] at this
          exact this.symm
    · rcases hE with ⟨rfl, hQall⟩ | ⟨het0, te, hatE, hQe, hmax⟩
      · refine ⟨⟨[], st, []⟩, ?_, ?_⟩
        · unfold Rng.fromTree
          rw [if_neg hne]
          rw [het]
          simp only [hst]
          simp [Nat.pos_of_ne_zero h0]
        · rw [range_start _ _ _ hst0]
          obtain ⟨before, after, h1, h2⟩ := startSlices_toks st hroot hat hst0
          rw [h2]
          have h1' : leavesL [] 0 cs = before ++ (([] ++ st, ts) :: after) ++ [] := by rw [← hleaf, h1]; simp
          have := seg_filter (X := before) (seg := ([] ++ st, ts) :: after) (Z := []) hP hQ
            (by rw [← h1', hmap]; exact ho) (Or.inr ⟨_, _, rfl, hPs, by rw [← h1', hmap]; exact hmin⟩)
            (Or.inl ⟨rfl, by rw [← h1', hmap]; exact hQall⟩)
          rw [← h1'] at this
          exact this.symm
      · obtain ⟨k, i, is, j, js, h1, h2, h3, h4, h5⟩ := commonLoop_spec st et 0 (.ctx l cs) ts te hat hatE hst0 het0
        rw [Nat.zero_add] at h1
        refine ⟨⟨st.take k, i :: is, j :: js⟩, ?_, ?_⟩
        · unfold Rng.fromTree
          rw [if_neg hne]
          rw [het]
          simp only [hst]
          simp [Nat.pos_of_ne_zero h0, het0, h1, h3, h4]
        · -- the ancestor
          have hst1 : st = st.take k ++ i :: is := by rw [← h3, List.take_append_drop]
          have het1 : et = st.take k ++ j :: js := by rw [h2, ← h4, List.take_append_drop]
          have hat2 := hat
          rw [hst1, at_append] at hat2
          have hatE2 := hatE
          rw [het1, at_append] at hatE2
          cases hsub : (Node.ctx l cs).at (st.take k) with
          | none => rw [hsub] at hat2; simp at hat2
          | some sub =>
            rw [hsub] at hat2 hatE2
            simp only [Option.bind_some] at hat2 hatE2
            obtain ⟨B0, hw, _⟩ := walk_split (root := .ctx l cs) hf ho hroot hsub
            rw [List.nil_append, hleaf] at hw
            rcases h5 with hij | ⟨rfl, rfl, rfl⟩
            · -- different children
              have hlt : i < j := by
                rcases Nat.lt_trichotomy i j with h | h | h
                · exact h
                · exact absurd h hij
                · obtain ⟨m, hi, hm⟩ := at_cons hat2
                  obtain ⟨n, hj, hn⟩ := at_cons hatE2
                  have hos := (at_wf (root := .ctx l cs) hf ho hsub).2
                  have hms : ts ∈ m.toks := by
                    rw [← leavesAt_toks m []]
                    exact List.mem_map.2 ⟨([] ++ is, ts), (mem_leavesAt m [] _ _).2 ⟨is, rfl, hm⟩, rfl⟩
                  have hne' : te ∈ n.toks := by
                    rw [← leavesAt_toks n []]
                    exact List.mem_map.2 ⟨([] ++ js, te), (mem_leavesAt n [] _ _).2 ⟨js, rfl, hn⟩, rfl⟩
                  have h6 := (toks_kids hos).between hj hi h hne' hms
                  have h7 := hmin u hu hPu
                  have h8 := hmax u hu hQu
                  have h9 : te ∈ toksL cs := by
                    rw [← hmap]
                    exact List.mem_map.2 ⟨(et, te), by rw [← hleaf]; exact (mem_leavesAt (.ctx l cs) [] _ _).2 ⟨et, rfl, hatE⟩, rfl⟩
                  have h10 : 0 < te.text.length := List.length_pos_iff.2 (ho.1 te h9)
                  simp only [TokN.stop] at h6
                  omega
              obtain ⟨before, mid, after, h6, h7⟩ := slices_toks hsub hat2 hatE2 hlt
              rw [h7]
              rw [h6] at hw
              have hw' : leavesL [] 0 cs = (B0 ++ before) ++ ((st.take k ++ i :: is, ts) :: mid ++ [(st.take k ++ j :: js, te)]) ++
                  (after ++ forward (.ctx l cs) [] (st.take k)) := by rw [hw]; simp
              have := seg_filter (X := B0 ++ before) (seg := (st.take k ++ i :: is, ts) :: mid ++ [(st.take k ++ j :: js, te)])
                (Z := after ++ forward (.ctx l cs) [] (st.take k)) hP hQ
                (by rw [← hw', hmap]; exact ho) (Or.inr ⟨_, _, rfl, hPs, by rw [← hw', hmap]; exact hmin⟩)
                (Or.inr ⟨_, _, rfl, hQe, by rw [← hw', hmap]; exact hmax⟩)
              rw [← hw'] at this
              exact this.symm
            · -- one token
              obtain ⟨m, hi, hm⟩ := at_cons hat2
              simp only [Node.at, Option.some.injEq] at hm
              subst hm
              obtain ⟨m, hi', hm⟩ := at_cons hatE2
              rw [hi] at hi'
              cases hi'
              simp only [Node.at, Option.some.injEq, Node.tok.injEq] at hm
              subst hm
              rw [range_one hsub hi]
              obtain ⟨before, after, h6, _⟩ := startSlices_toks [i] hsub hat2 (by simp)
              rw [h6] at hw
              have hw' : leavesL [] 0 cs = (B0 ++ before) ++ [(st.take k ++ [i], ts)] ++
                  (after ++ forward (.ctx l cs) [] (st.take k)) := by rw [hw]; simp
              have := seg_filter (X := B0 ++ before) (seg := [(st.take k ++ [i], ts)])
                (Z := after ++ forward (.ctx l cs) [] (st.take k)) hP hQ
                (by rw [← hw', hmap]; exact ho) (Or.inr ⟨_, _, rfl, hPs, by rw [← hw', hmap]; exact hmin⟩)
                (Or.inr ⟨[], _, rfl, hQe, by rw [← hw', hmap]; exact hmax⟩)
              rw [← hw'] at this
              exact this.symm

/-- `from_tree` returns None only when no token is touched. -/
theorem range_none (l : L) {cs : List (Node α L A)} (hf : FullL cs) (ho : Ordered (toksL cs)) (start : Nat)
    (stop : Option Nat) (hse : ∀ e, stop = some e → start < e) (h : Rng.fromTree l cs start stop = none) :
    ∀ u ∈ toksL cs, ¬ (start < u.stop ∧ ∀ e, stop = some e → u.pos < e) := by
  intro u hu ⟨h1, h2⟩
  obtain ⟨r, h3, _⟩ := range_eq l hf ho start stop hse hu h1 h2
  rw [h] at h3
  simp at h3

/-! ### Groups -/

theorem makeGroup_get {lxs : List (Lexeme α A)} {k : Nat} {t : TokN α A} (h : (makeGroup lxs)[k]? = some t) :
    t.group = some (if k + 1 = lxs.length then -(k : Int) else (k : Int)) ∧ k < lxs.length := by
  simp only [makeGroup, List.getElem?_mapIdx, Option.map_eq_some_iff] at h
  obtain ⟨l, h1, h2⟩ := h
  subst h2
  exact ⟨rfl, getElem?_lt h1⟩

theorem makeTokens_group {lxs : List (Lexeme α A)} (h : 1 < lxs.length) : makeTokens lxs = makeGroup lxs := by
  simp [makeTokens, h]

/-- The loop runs to the last token of the group. -/
theorem groupLoop_eq {pre post : List (Node α L A)} {lxs : List (Lexeme α A)} (hl : 1 < lxs.length) :
    ∀ (fuel k : Nat), 1 ≤ k → k < lxs.length → lxs.length - k ≤ fuel →
    groupLoop (pre ++ (makeTokens lxs).map Node.tok ++ post) ((pre ++ (makeTokens lxs).map Node.tok ++ post).length - 1)
      fuel (pre.length + k) = pre.length + (lxs.length - 1) := by
  intro fuel
  have hlen := makeTokens_length lxs
  induction fuel with
  | zero => intro k h1 h2 h3; omega
  | succ fuel ih =>
    intro k h1 h2 h3
    simp only [groupLoop]
    have hget : (pre ++ (makeTokens lxs).map Node.tok ++ post)[pre.length + k]? =
        ((makeTokens lxs)[k]?).map Node.tok := by
      rw [List.append_assoc, List.getElem?_append_right (by omega), List.getElem?_append_left (by simp; omega)]
      simp
    obtain ⟨t, ht⟩ : ∃ t, (makeTokens lxs)[k]? = some t := ⟨_, List.getElem?_eq_getElem (by omega)⟩
    have hg := makeGroup_get (by rw [← makeTokens_group hl]; exact ht)
    have hgp : groupPos (pre ++ (makeTokens lxs).map Node.tok ++ post) (pre.length + k) = decide (k + 1 ≠ lxs.length) := by
      simp only [groupPos, hget, ht, Option.map_some, hg.1, Option.getD_some, decide_eq_decide]
      constructor
      · intro h he; rw [if_pos he] at h; omega
      · intro h; rw [if_neg h]; omega
    rw [hgp]
    by_cases hk : k + 1 = lxs.length
    · rw [if_neg (by simp [hk])]; omega
    · rw [if_pos ⟨by simp [hlen]; omega, by simp [hk]⟩]
      have := ih (k + 1) (by omega) (by omega) (by omega)
      rw [← Nat.add_assoc] at this
      exact this

theorem group_at {pre post : List (Node α L A)} {lxs : List (Lexeme α A)} (hl : 1 < lxs.length) {k : Nat}
    (hk : k < lxs.length) :
    groupAt (pre ++ (makeTokens lxs).map Node.tok ++ post) (pre.length + k) =
      some (if k + 1 = lxs.length then -(k : Int) else (k : Int)) ∧
    ∃ t, (pre ++ (makeTokens lxs).map Node.tok ++ post)[pre.length + k]? = some (.tok t) ∧ (makeTokens lxs)[k]? = some t := by
  have hlen := makeTokens_length lxs
  have hget : (pre ++ (makeTokens lxs).map Node.tok ++ post)[pre.length + k]? =
      ((makeTokens lxs)[k]?).map Node.tok := by
    rw [List.append_assoc, List.getElem?_append_right (by omega), List.getElem?_append_left (by simp; omega)]
    simp
  obtain ⟨t, ht⟩ : ∃ t, (makeTokens lxs)[k]? = some t := ⟨_, List.getElem?_eq_getElem (by omega)⟩
  have hg := makeGroup_get (by rw [← makeTokens_group hl]; exact ht)
  refine ⟨by simp only [groupAt, hget, ht, Option.map_some]; exact hg.1, t, by rw [hget, ht]; rfl, ht⟩

end Parce

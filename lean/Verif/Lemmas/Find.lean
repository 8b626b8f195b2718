import Verif.Lemmas.Build
/-!
# Lemmas about finding tokens
-/
namespace Parce
variable {α L A : Type}

theorem getElem?_lt {β : Type} {l : List β} {i : Nat} {x : β} (h : l[i]? = some x) : i < l.length :=
  (List.getElem?_eq_some_iff.1 h).1

theorem bisect_spec (f : Nat → Bool) : ∀ (fuel lo hi : Nat), lo ≤ hi → hi - lo ≤ fuel →
    (∀ i j, lo ≤ i → i < j → j < hi → f j = true → f i = true) →
    lo ≤ bisect f fuel lo hi ∧ bisect f fuel lo hi ≤ hi ∧
    (∀ i, lo ≤ i → i < bisect f fuel lo hi → f i = true) ∧
    (∀ i, bisect f fuel lo hi ≤ i → i < hi → f i = false) := by
  intro fuel
  induction fuel with
  | zero =>
    intro lo hi h1 h2 _
    simp only [bisect]
    exact ⟨Nat.le_refl _, h1, fun i _ _ => by omega, fun i _ _ => by omega⟩
  | succ fuel ih =>
    intro lo hi h1 h2 hm
    simp only [bisect]
    by_cases hlt : lo < hi
    · rw [if_pos hlt]
      have hmid : lo ≤ (lo + hi) / 2 ∧ (lo + hi) / 2 < hi := by omega
      cases hf : f ((lo + hi) / 2) with
      | true =>
        obtain ⟨h3, h4, h5, h6⟩ := ih ((lo + hi) / 2 + 1) hi (by omega) (by omega)
          (fun i j hi' hj hj2 => hm i j (by omega) hj hj2)
        simp only [if_true]
        refine ⟨by omega, h4, ?_, h6⟩
        intro i hi1 hi2
        by_cases hc : i < (lo + hi) / 2 + 1
        · by_cases he : i = (lo + hi) / 2
          · rw [he]; exact hf
          · exact hm i _ hi1 (by omega) hmid.2 hf
        · exact h5 i (by omega) hi2
      | false =>
        obtain ⟨h3, h4, h5, h6⟩ := ih lo ((lo + hi) / 2) (by omega) (by omega)
          (fun i j hi' hj hj2 => hm i j hi' hj (by omega))
        simp only [Bool.false_eq_true, if_false]
        refine ⟨h3, by omega, h5, ?_⟩
        intro i hi1 hi2
        by_cases hc : i < (lo + hi) / 2
        · exact h6 i hi1 hc
        · cases hfi : f i with
          | false => rfl
          | true =>
            by_cases he : i = (lo + hi) / 2
            · rw [he, hf] at hfi; simp at hfi
            · rw [hm ((lo + hi) / 2) i hmid.1 (by omega) hi2 hfi] at hf; simp at hf
    · rw [if_neg hlt]
      exact ⟨Nat.le_refl _, h1, fun i _ _ => by omega, fun i _ _ => by omega⟩

mutual
theorem full_toks : (n : Node α L A) → n.Full → n.toks ≠ [] ∧ n.firstTok = n.toks.head? ∧ n.lastTok = n.toks.getLast?
  | .tok t, _ => by simp [Node.toks, Node.firstTok, Node.lastTok]
  | .ctx l cs, h => by
    obtain ⟨h1, h2⟩ := h
    obtain ⟨h3, h4, h5⟩ := fullL_toks cs h2
    exact ⟨h3 h1, h4, h5⟩
theorem fullL_toks : (ns : List (Node α L A)) → FullL ns →
    (ns ≠ [] → toksL ns ≠ []) ∧ firstTokL ns = (toksL ns).head? ∧ lastTokL ns = (toksL ns).getLast?
  | [], _ => by simp [toksL, firstTokL, lastTokL]
  | n :: ns, h => by
    obtain ⟨h1, h2, h3⟩ := full_toks n h.1
    obtain ⟨h4, h5, h6⟩ := fullL_toks ns h.2
    refine ⟨fun _ => by simp [toksL, h1], ?_, ?_⟩
    · simp only [firstTokL, toksL, h2]
      cases hn : n.toks with
      | nil => exact absurd hn h1
      | cons x xs => simp
    · simp only [lastTokL, toksL]
      split
      · next he => subst he; simp [toksL, h3]
      · next he =>
        rw [h6, List.getLast?_append]
        cases hl : (toksL ns).getLast? with
        | none => exact absurd (List.getLast?_eq_none_iff.1 hl) (h4 he)
        | some x => simp
end

theorem FullL.get {cs : List (Node α L A)} (h : FullL cs) {i : Nat} {n : Node α L A} (hi : cs[i]? = some n) :
    n.Full := by
  induction cs generalizing i with
  | nil => simp at hi
  | cons c cs ih =>
    cases i with
    | zero => simp only [List.getElem?_cons_zero, Option.some.injEq] at hi; exact hi ▸ h.1
    | succ i => exact ih h.2 (by simpa using hi)

theorem toksL_split {cs : List (Node α L A)} {i : Nat} {n : Node α L A} (hi : cs[i]? = some n) :
    toksL cs = toksL (cs.take i) ++ (n.toks ++ toksL (cs.drop (i + 1))) := by
  have hlt := getElem?_lt hi
  have h1 : cs = cs.take i ++ (n :: cs.drop (i + 1)) := by
    have h2 : cs.drop i = n :: cs.drop (i + 1) := by
      rw [List.drop_eq_getElem_cons hlt]
      congr 1
      rw [List.getElem?_eq_getElem hlt] at hi
      exact Option.some.inj hi
    rw [← h2, List.take_append_drop]
  rw [h1, toksL_append]
  congr 1
  · congr 1
    rw [← h1]
  · simp only [toksL]
    rw [← h1]

theorem Ordered.left {a b : List (TokN α A)} (h : Ordered (a ++ b)) : Ordered a :=
  ⟨fun t ht => h.1 t (List.mem_append_left _ ht), (List.pairwise_append.1 h.2).1⟩
theorem Ordered.right {a b : List (TokN α A)} (h : Ordered (a ++ b)) : Ordered b :=
  ⟨fun t ht => h.1 t (List.mem_append_right _ ht), (List.pairwise_append.1 h.2).2.1⟩
theorem Ordered.cross {a b : List (TokN α A)} (h : Ordered (a ++ b)) :
    ∀ x ∈ a, ∀ y ∈ b, x.stop ≤ y.pos := (List.pairwise_append.1 h.2).2.2

theorem Ordered.get {cs : List (Node α L A)} (h : Ordered (toksL cs)) {i : Nat} {n : Node α L A}
    (hi : cs[i]? = some n) : Ordered n.toks := by
  rw [toksL_split hi] at h; exact h.right.left

theorem mem_toksL {cs : List (Node α L A)} {i : Nat} {n : Node α L A} (hi : cs[i]? = some n) {t : TokN α A}
    (ht : t ∈ n.toks) : t ∈ toksL cs := by
  rw [toksL_split hi]; simp [ht]

theorem toksL_mem {cs : List (Node α L A)} {t : TokN α A} (ht : t ∈ toksL cs) :
    ∃ (i : Nat) (n : Node α L A), cs[i]? = some n ∧ t ∈ n.toks := by
  induction cs with
  | nil => simp [toksL] at ht
  | cons c cs ih =>
    simp only [toksL, List.mem_append] at ht
    rcases ht with ht | ht
    · exact ⟨0, c, rfl, ht⟩
    · obtain ⟨i, n, h1, h2⟩ := ih ht
      exact ⟨i + 1, n, by simpa using h1, h2⟩

/-- Tokens of an earlier child end before those of a later child start. -/
theorem Ordered.between {cs : List (Node α L A)} (h : Ordered (toksL cs)) {i j : Nat} {m n : Node α L A}
    (hi : cs[i]? = some m) (hj : cs[j]? = some n) (hij : i < j) {x y : TokN α A}
    (hx : x ∈ m.toks) (hy : y ∈ n.toks) : x.stop ≤ y.pos := by
  have h' := h
  rw [toksL_split hj] at h'
  refine h'.cross x ?_ y (by simp [hy])
  refine mem_toksL (i := i) ?_ hx
  rw [List.getElem?_take, if_pos hij]
  exact hi

theorem Ordered.upward {P : TokN α A → Bool} (hP : ∀ a b : TokN α A, a.stop ≤ b.pos → P a = true → P b = true)
    {ts : List (TokN α A)} (h : Ordered ts) {last : TokN α A} (hl : ts.getLast? = some last) {t : TokN α A}
    (ht : t ∈ ts) (hPt : P t = true) : P last = true := by
  have hne : ts ≠ [] := by intro e; rw [e] at ht; simp at ht
  rw [List.getLast?_eq_some_getLast hne] at hl
  have h2 : ts = ts.dropLast ++ [last] := by
    rw [← Option.some.inj hl]; exact (List.dropLast_concat_getLast hne).symm
  rw [h2] at ht h
  rcases List.mem_append.1 ht with h3 | h3
  · exact hP t last (h.cross t h3 last (by simp)) hPt
  · simp only [List.mem_singleton] at h3; exact h3 ▸ hPt

theorem Ordered.downward {Q : TokN α A → Bool} (hQ : ∀ a b : TokN α A, a.stop ≤ b.pos → Q b = true → Q a = true)
    {ts : List (TokN α A)} (h : Ordered ts) {first : TokN α A} (hl : ts.head? = some first) {t : TokN α A}
    (ht : t ∈ ts) (hQt : Q t = true) : Q first = true := by
  cases ts with
  | nil => simp at ht
  | cons x xs =>
    simp only [List.head?_cons, Option.some.injEq] at hl
    subst hl
    rcases List.mem_cons.1 ht with h3 | h3
    · exact h3 ▸ hQt
    · exact hQ x t ((List.pairwise_cons.1 h.2).1 t h3) hQt

/-- Bisection for the first token that satisfies a predicate. -/
theorem first_step {P : TokN α A → Bool} (hP : ∀ a b : TokN α A, a.stop ≤ b.pos → P a = true → P b = true)
    {cs : List (Node α L A)} (hf : FullL cs) (ho : Ordered (toksL cs)) (g : Node α L A → Bool)
    (hg : ∀ n ∈ cs, ∀ last, n.toks.getLast? = some last → g n = !P last) :
    let i := bisect (nodeIs cs g) cs.length 0 cs.length
    (i = cs.length ∧ (toksL cs).find? P = none) ∨
    (∃ n last, i < cs.length ∧ cs[i]? = some n ∧ n.toks.getLast? = some last ∧ P last = true ∧
      (toksL cs).find? P = n.toks.find? P) := by
  intro i
  have hlast : ∀ (j : Nat) n, cs[j]? = some n → ∃ last, n.toks.getLast? = some last ∧ last ∈ n.toks := by
    intro j n hj
    cases hl : n.toks.getLast? with
    | none => exact absurd (List.getLast?_eq_none_iff.1 hl) (full_toks n (hf.get hj)).1
    | some last => exact ⟨last, rfl, List.mem_of_getLast? hl⟩
  have hval : ∀ (j : Nat) n last, cs[j]? = some n → n.toks.getLast? = some last → nodeIs cs g j = !P last := by
    intro j n last hj hl
    simp only [nodeIs, hj, Option.map_some, Option.getD_some]
    exact hg n (List.mem_of_getElem? hj) last hl
  obtain ⟨h1, h2, h3, h4⟩ := bisect_spec (nodeIs cs g) cs.length 0 cs.length (Nat.zero_le _) (by omega) (by
    intro a b _ hab hb hfb
    obtain ⟨n, hn⟩ : ∃ n, cs[b]? = some n := ⟨_, List.getElem?_eq_getElem hb⟩
    obtain ⟨m, hm⟩ : ∃ m, cs[a]? = some m := ⟨_, List.getElem?_eq_getElem (by omega)⟩
    obtain ⟨ln, hln, hln2⟩ := hlast b n hn
    obtain ⟨lm, hlm, hlm2⟩ := hlast a m hm
    rw [hval b n ln hn hln] at hfb
    rw [hval a m lm hm hlm]
    cases hpl : P lm with
    | false => rfl
    | true => rw [hP lm ln (ho.between hm hn hab hlm2 hln2) hpl] at hfb; simp at hfb)
  have hbefore : ∀ t ∈ toksL (cs.take i), ¬ P t = true := by
    intro t ht hPt
    obtain ⟨j, m, hj, htm⟩ := toksL_mem ht
    have hji : j < i := by
      have := getElem?_lt hj
      rw [List.length_take] at this
      omega
    rw [List.getElem?_take, if_pos hji] at hj
    obtain ⟨lm, hlm, hlm2⟩ := hlast j m hj
    have h5 := h3 j (Nat.zero_le _) hji
    rw [hval j m lm hj hlm] at h5
    rw [Ordered.upward hP (ho.get hj) hlm htm hPt] at h5
    simp at h5
  by_cases hi : i = cs.length
  · left
    refine ⟨hi, ?_⟩
    rw [List.find?_eq_none]
    have : cs.take i = cs := by rw [hi]; exact List.take_length
    rw [this] at hbefore
    exact hbefore
  · right
    have hlt : i < cs.length := by omega
    obtain ⟨n, hn⟩ : ∃ n, cs[i]? = some n := ⟨_, List.getElem?_eq_getElem hlt⟩
    obtain ⟨last, hl, hl2⟩ := hlast i n hn
    refine ⟨n, last, hlt, hn, hl, ?_, ?_⟩
    · have := h4 i (Nat.le_refl _) hlt
      rw [hval i n last hn hl] at this
      simpa using this
    · have hPl : P last = true := by
        have := h4 i (Nat.le_refl _) hlt
        rw [hval i n last hn hl] at this
        simpa using this
      rw [toksL_split hn, List.find?_append, List.find?_eq_none.2 hbefore, Option.none_or, List.find?_append]
      cases hfn : n.toks.find? P with
      | none => exact absurd hPl (List.find?_eq_none.1 hfn last hl2)
      | some x => rfl

/-- Bisection for the last token that satisfies a predicate. -/
theorem last_step {Q : TokN α A → Bool} (hQ : ∀ a b : TokN α A, a.stop ≤ b.pos → Q b = true → Q a = true)
    {cs : List (Node α L A)} (hf : FullL cs) (ho : Ordered (toksL cs)) (g : Node α L A → Bool)
    (hg : ∀ n ∈ cs, ∀ first, n.toks.head? = some first → g n = Q first) :
    let i := bisect (nodeIs cs g) cs.length 0 cs.length
    (i = 0 ∧ (toksL cs).reverse.find? Q = none) ∨
    (∃ n first, i ≠ 0 ∧ i ≤ cs.length ∧ cs[i - 1]? = some n ∧ n.toks.head? = some first ∧ Q first = true ∧
      (toksL cs).reverse.find? Q = n.toks.reverse.find? Q) := by
  intro i
  have hfirst : ∀ (j : Nat) n, cs[j]? = some n → ∃ first, n.toks.head? = some first ∧ first ∈ n.toks := by
    intro j n hj
    cases hl : n.toks.head? with
    | none => exact absurd (List.head?_eq_none_iff.1 hl) (full_toks n (hf.get hj)).1
    | some first => exact ⟨first, rfl, List.mem_of_head? hl⟩
  have hval : ∀ (j : Nat) n first, cs[j]? = some n → n.toks.head? = some first → nodeIs cs g j = Q first := by
    intro j n last hj hl
    simp only [nodeIs, hj, Option.map_some, Option.getD_some]
    exact hg n (List.mem_of_getElem? hj) last hl
  obtain ⟨h1, h2, h3, h4⟩ := bisect_spec (nodeIs cs g) cs.length 0 cs.length (Nat.zero_le _) (by omega) (by
    intro a b _ hab hb hfb
    obtain ⟨n, hn⟩ : ∃ n, cs[b]? = some n := ⟨_, List.getElem?_eq_getElem hb⟩
    obtain ⟨m, hm⟩ : ∃ m, cs[a]? = some m := ⟨_, List.getElem?_eq_getElem (by omega)⟩
    obtain ⟨ln, hln, hln2⟩ := hfirst b n hn
    obtain ⟨lm, hlm, hlm2⟩ := hfirst a m hm
    rw [hval b n ln hn hln] at hfb
    rw [hval a m lm hm hlm]
    exact hQ lm ln (ho.between hm hn hab hlm2 hln2) hfb)
  have hafter : ∀ t ∈ toksL (cs.drop i), ¬ Q t = true := by
    intro t ht hQt
    obtain ⟨j, m, hj, htm⟩ := toksL_mem ht
    rw [List.getElem?_drop] at hj
    obtain ⟨lm, hlm, hlm2⟩ := hfirst (i + j) m hj
    have h5 := h4 (i + j) (Nat.le_add_right i j) (getElem?_lt hj)
    rw [hval (i + j) m lm hj hlm] at h5
    rw [Ordered.downward hQ (ho.get hj) hlm htm hQt] at h5
    simp at h5
  by_cases hi : i = 0
  · left
    refine ⟨hi, ?_⟩
    rw [List.find?_eq_none]
    intro x hx
    rw [List.mem_reverse] at hx
    have : cs.drop i = cs := by rw [hi]; rfl
    rw [this] at hafter
    exact hafter x hx
  · right
    have hlt : i - 1 < cs.length := by omega
    obtain ⟨n, hn⟩ : ∃ n, cs[i - 1]? = some n := ⟨_, List.getElem?_eq_getElem hlt⟩
    obtain ⟨first, hl, hl2⟩ := hfirst (i - 1) n hn
    have hQf : Q first = true := by
      have := h3 (i - 1) (Nat.zero_le _) (by omega)
      rw [hval (i - 1) n first hn hl] at this
      exact this
    refine ⟨n, first, hi, h2, hn, hl, hQf, ?_⟩
    have hi1 : i - 1 + 1 = i := by omega
    rw [toksL_split hn, hi1]
    simp only [List.reverse_append, List.append_assoc]
    have h6 : (toksL (cs.drop i)).reverse.find? Q = none := by
      rw [List.find?_eq_none]
      intro x hx
      exact hafter x (List.mem_reverse.1 hx)
    rw [List.find?_append, h6, Option.none_or, List.find?_append]
    cases hfn : n.toks.reverse.find? Q with
    | none => exact absurd hQf (List.find?_eq_none.1 hfn first (by simp [hl2]))
    | some x => rfl

theorem size_pos (n : Node α L A) : 0 < n.size := by cases n <;> simp [Node.size]

theorem size_get {cs : List (Node α L A)} {i : Nat} {n : Node α L A} (h : cs[i]? = some n) : n.size ≤ sizeL cs := by
  induction cs generalizing i with
  | nil => simp at h
  | cons c cs ih =>
    simp only [sizeL]
    cases i with
    | zero => simp only [List.getElem?_cons_zero, Option.some.injEq] at h; subst h; omega
    | succ i => have := ih (i := i) (by simpa using h); omega

theorem pos_mono_stop (pos : Nat) (a b : TokN α A) (h : a.stop ≤ b.pos) :
    decide (pos < a.stop) = true → decide (pos < b.stop) = true := by
  intro h2
  have h2 := of_decide_eq_true h2
  apply decide_eq_true
  simp only [TokN.stop] at *; omega

theorem stop_crit {pos : Nat} {cs : List (Node α L A)} (hf : FullL cs) :
    ∀ n ∈ cs, ∀ last, n.toks.getLast? = some last →
      (fun n : Node α L A => decide (n.stop ≤ pos)) n = !(decide (pos < last.stop)) := by
  intro n hn last hl
  obtain ⟨i, hi⟩ := List.getElem?_of_mem hn
  have : n.stop = last.stop := by
    simp only [Node.stop, (full_toks n (hf.get hi)).2.2, hl, Option.map_some, Option.getD_some]
  simp only [this]
  by_cases h : last.stop ≤ pos
  · have h2 : ¬ pos < last.stop := by omega
    simp only [h, h2, decide_true, decide_false, Bool.not_false]
  · have h2 : pos < last.stop := by omega
    simp only [h, h2, decide_true, decide_false, Bool.not_true]

theorem pos_crit {pos : Nat} {cs : List (Node α L A)} (hf : FullL cs) :
    ∀ n ∈ cs, ∀ first, n.toks.head? = some first →
      (fun n : Node α L A => decide (n.pos < pos)) n = decide (first.pos < pos) := by
  intro n hn first hl
  obtain ⟨i, hi⟩ := List.getElem?_of_mem hn
  have : n.pos = first.pos := by
    simp only [Node.pos, (full_toks n (hf.get hi)).2.1, hl, Option.map_some, Option.getD_some]
  simp only [this]

theorem pos_anti (pos : Nat) (a b : TokN α A) (h : a.stop ≤ b.pos) :
    decide (b.pos < pos) = true → decide (a.pos < pos) = true := by
  intro h2
  have h2 := of_decide_eq_true h2
  apply decide_eq_true
  simp only [TokN.stop] at *; omega

/-- `find` in a full, ordered forest. -/
theorem find_step {cs : List (Node α L A)} (hf : FullL cs) (ho : Ordered (toksL cs)) (pos : Nat) :
    (ctxFind cs pos = none ∧ (toksL cs).find? (fun t => decide (pos < t.stop)) = none) ∨
    (∃ i n last, ctxFind cs pos = some i ∧ cs[i]? = some n ∧ n.toks.getLast? = some last ∧ pos < last.stop ∧
      (toksL cs).find? (fun t => decide (pos < t.stop)) = n.toks.find? (fun t => decide (pos < t.stop))) := by
  have h := first_step (P := fun t => decide (pos < t.stop)) (pos_mono_stop pos) hf ho _ (stop_crit hf)
  simp only at h
  unfold ctxFind
  simp only
  rcases h with ⟨h1, h2⟩ | ⟨n, last, h1, h2, h3, h4, h5⟩
  · left; rw [if_pos h1]; exact ⟨rfl, h2⟩
  · right
    rw [if_neg (by omega)]
    exact ⟨_, n, last, rfl, h2, h3, by simpa using h4, h5⟩

theorem findLeft_step {cs : List (Node α L A)} (hf : FullL cs) (ho : Ordered (toksL cs)) (pos : Nat) :
    (findLeft cs pos = none ∧ (toksL cs).reverse.find? (fun t => decide (t.pos < pos)) = none) ∨
    (∃ i n first, findLeft cs pos = some i ∧ cs[i]? = some n ∧ n.toks.head? = some first ∧ first.pos < pos ∧
      (toksL cs).reverse.find? (fun t => decide (t.pos < pos)) =
        n.toks.reverse.find? (fun t => decide (t.pos < pos))) := by
  have h := last_step (Q := fun t => decide (t.pos < pos)) (pos_anti pos) hf ho _ (pos_crit hf)
  simp only at h
  unfold findLeft
  simp only
  rcases h with ⟨h1, h2⟩ | ⟨n, first, h1, h2, h3, h4, h5, h6⟩
  · left; rw [if_pos h1]; exact ⟨rfl, h2⟩
  · right
    rw [if_neg h1]
    exact ⟨_, n, first, rfl, h3, h4, by simpa using h5, h6⟩

theorem descend_find (pos : Nat) : ∀ (fuel : Nat) (n : Node α L A), n.size ≤ fuel → n.Full → Ordered n.toks →
    (∃ last, n.toks.getLast? = some last ∧ pos < last.stop) →
    descend (fun c => ctxFind c pos) fuel n = n.toks.find? (fun t => decide (pos < t.stop)) := by
  intro fuel
  induction fuel with
  | zero => intro n h; have := size_pos n; omega
  | succ fuel ih =>
    intro n hs hf ho hl
    cases n with
    | tok t =>
      obtain ⟨last, h1, h2⟩ := hl
      simp only [Node.toks, List.getLast?_singleton, Option.some.injEq] at h1
      subst h1
      simp [descend, Node.toks, h2]
    | ctx l cs =>
      simp only [descend, Node.toks]
      rcases find_step hf.2 ho pos with ⟨h1, h2⟩ | ⟨i, n, last, h1, h2, h3, h4, h5⟩
      · obtain ⟨last, h3, h4⟩ := hl
        have := List.find?_eq_none.1 h2 last (List.mem_of_getLast? h3)
        simp [h4] at this
      · rw [h1, h5]
        simp only [pyIdx, h2, Option.map_some]
        refine ih n ?_ (hf.2.get h2) (Ordered.get ho h2) ⟨last, h3, h4⟩
        have := size_get h2
        simp only [Node.size] at hs
        omega

theorem descend_left (pos : Nat) : ∀ (fuel : Nat) (n : Node α L A), n.size ≤ fuel → n.Full → Ordered n.toks →
    (∃ first, n.toks.head? = some first ∧ first.pos < pos) →
    descend (fun c => findLeft c pos) fuel n = n.toks.reverse.find? (fun t => decide (t.pos < pos)) := by
  intro fuel
  induction fuel with
  | zero => intro n h; have := size_pos n; omega
  | succ fuel ih =>
    intro n hs hf ho hl
    cases n with
    | tok t =>
      obtain ⟨last, h1, h2⟩ := hl
      simp only [Node.toks, List.head?_cons, Option.some.injEq] at h1
      subst h1
      simp [descend, Node.toks, h2]
    | ctx l cs =>
      simp only [descend, Node.toks]
      rcases findLeft_step hf.2 ho pos with ⟨h1, h2⟩ | ⟨i, n, last, h1, h2, h3, h4, h5⟩
      · obtain ⟨last, h3, h4⟩ := hl
        have := List.find?_eq_none.1 h2 last (List.mem_reverse.2 (List.mem_of_head? h3))
        simp [h4] at this
      · rw [h1, h5]
        simp only [pyIdx, h2, Option.map_some]
        refine ih n ?_ (hf.2.get h2) (Ordered.get ho h2) ⟨last, h3, h4⟩
        have := size_get h2
        simp only [Node.size] at hs
        omega

theorem descendTrail_eq (fnd : List (Node α L A) → Option Nat) : ∀ (fuel : Nat) (n : Node α L A) (trail : List Nat),
    (descendTrail fnd fuel n trail).map (·.1) = descend fnd fuel n ∧
    ∀ t tr, descendTrail fnd fuel n trail = some (t, tr) →
      ∃ rest, tr = trail ++ rest ∧ n.at rest = some (.tok t) := by
  intro fuel
  induction fuel with
  | zero =>
    intro n trail
    cases n with
    | tok t => exact ⟨rfl, fun t' tr h => by
        simp only [descendTrail, Option.some.injEq, Prod.mk.injEq] at h
        obtain ⟨rfl, rfl⟩ := h
        exact ⟨[], by simp, rfl⟩⟩
    | ctx l cs => exact ⟨rfl, fun t' tr h => by simp [descendTrail] at h⟩
  | succ fuel ih =>
    intro n trail
    cases n with
    | tok t => exact ⟨rfl, fun t' tr h => by
        simp only [descendTrail, Option.some.injEq, Prod.mk.injEq] at h
        obtain ⟨rfl, rfl⟩ := h
        exact ⟨[], by simp, rfl⟩⟩
    | ctx l cs =>
      simp only [descendTrail, descend]
      cases hp : pyIdx cs (fnd cs) with
      | none => exact ⟨rfl, fun t' tr h => by simp at h⟩
      | some q =>
        obtain ⟨i, m⟩ := q
        obtain ⟨h1, h2⟩ := ih m (trail ++ [i])
        refine ⟨h1, ?_⟩
        intro t tr h
        obtain ⟨rest, h3, h4⟩ := h2 t tr h
        refine ⟨i :: rest, by rw [h3]; simp, ?_⟩
        have h5 : cs[i]? = some m := by
          unfold pyIdx at hp
          split at hp
          · simp only [Option.map_eq_some_iff, Prod.mk.injEq] at hp
            obtain ⟨a, h6, h7, h8⟩ := hp
            rw [← h7, ← h8]; exact h6
          · simp only [Option.map_eq_some_iff, Prod.mk.injEq] at hp
            obtain ⟨a, h6, h7, h8⟩ := hp
            rw [← h7, ← h8, ← List.getLast?_eq_getElem?]; exact h6
        simp [Node.at, Node.kids, h5, h4]

theorem findToken_eq {cs : List (Node α L A)} (hf : FullL cs) (ho : Ordered (toksL cs)) (pos : Nat) :
    findToken cs pos = (toksL cs).find? (fun t => decide (pos < t.stop)) := by
  unfold findToken
  rcases find_step hf ho pos with ⟨h1, h2⟩ | ⟨i, n, last, h1, h2, h3, h4, h5⟩
  · rw [h1, h2]
  · rw [h1, h5]
    simp only [h2, Option.bind_some]
    exact descend_find pos _ n (size_get h2) (hf.get h2) (Ordered.get ho h2) ⟨last, h3, h4⟩

theorem findTokenLeft_eq {cs : List (Node α L A)} (hf : FullL cs) (ho : Ordered (toksL cs)) (pos : Nat) :
    findTokenLeft cs pos = (toksL cs).reverse.find? (fun t => decide (t.pos < pos)) := by
  unfold findTokenLeft
  rcases findLeft_step hf ho pos with ⟨h1, h2⟩ | ⟨i, n, last, h1, h2, h3, h4, h5⟩
  · rw [h1, h2]
  · rw [h1, h5]
    simp only [h2, Option.bind_some]
    exact descend_left pos _ n (size_get h2) (hf.get h2) (Ordered.get ho h2) ⟨last, h3, h4⟩

theorem trail_at {l : L} {cs : List (Node α L A)} {fnd : List (Node α L A) → Option Nat} {i fuel : Nat}
    {t : TokN α A} {tr : List Nat}
    (h : cs[i]?.bind (fun n => descendTrail fnd fuel n [i]) = some (t, tr)) :
    (Node.ctx l cs).at tr = some (.tok t) := by
  cases hi : cs[i]? with
  | none => rw [hi] at h; simp at h
  | some n =>
    rw [hi] at h
    obtain ⟨rest, h1, h2⟩ := (descendTrail_eq fnd fuel n [i]).2 t tr h
    rw [h1]
    simp [Node.at, Node.kids, hi, h2]

theorem findTokenTrail_fst (cs : List (Node α L A)) (pos : Nat) :
    (findTokenTrail cs pos).map (·.1) = findToken cs pos := by
  unfold findTokenTrail findToken
  split
  · rfl
  · next i _ =>
    cases cs[i]? with
    | none => rfl
    | some n => exact (descendTrail_eq _ _ n [i]).1

theorem findTokenLeftTrail_fst (cs : List (Node α L A)) (pos : Nat) :
    (findTokenLeftTrail cs pos).map (·.1) = findTokenLeft cs pos := by
  unfold findTokenLeftTrail findTokenLeft
  split
  · rfl
  · next i _ =>
    cases cs[i]? with
    | none => rfl
    | some n => exact (descendTrail_eq _ _ n [i]).1

theorem findTokenAfter_eq (pos : Nat) : ∀ (fuel : Nat) (cs : List (Node α L A)), sizeL cs < fuel → FullL cs →
    Ordered (toksL cs) → findTokenAfter pos fuel cs = (toksL cs).find? (fun t => decide (pos ≤ t.pos)) := by
  intro fuel
  induction fuel with
  | zero => intro cs h; omega
  | succ fuel ih =>
    intro cs hs hf ho
    have h := first_step (P := fun t => decide (pos ≤ t.pos))
      (fun a b hab h => by have h2 := of_decide_eq_true h; apply decide_eq_true; simp only [TokN.stop] at *; omega) hf ho
      (fun n => ((n.lastTok.map (fun t => decide (t.pos < pos))).getD true)) (by
        intro n hn last hl
        obtain ⟨i, hi⟩ := List.getElem?_of_mem hn
        simp only [(full_toks n (hf.get hi)).2.2, hl, Option.map_some, Option.getD_some]
        by_cases h : last.pos < pos
        · have : ¬ pos ≤ last.pos := by omega
          simp [h, this]
        · have : pos ≤ last.pos := by omega
          simp [h, this])
    simp only at h
    simp only [findTokenAfter]
    rcases h with ⟨h1, h2⟩ | ⟨n, last, h1, h2, h3, h4, h5⟩
    · rw [h1, h2, List.getElem?_eq_none (Nat.le_refl _)]
    · rw [h2, h5]
      cases n with
      | tok t =>
        simp only [Node.toks, List.getLast?_singleton, Option.some.injEq] at h3
        subst h3
        simp only [Node.toks, List.find?_cons, h4]
      | ctx l ds =>
        have := size_get h2
        simp only [Node.size] at this
        exact ih ds (by omega) (hf.get h2).2 (Ordered.get ho h2)

theorem findTokenBefore_eq (pos : Nat) : ∀ (fuel : Nat) (cs : List (Node α L A)), sizeL cs < fuel → FullL cs →
    Ordered (toksL cs) → findTokenBefore pos fuel cs = (toksL cs).reverse.find? (fun t => decide (t.stop ≤ pos)) := by
  intro fuel
  induction fuel with
  | zero => intro cs h; omega
  | succ fuel ih =>
    intro cs hs hf ho
    have h := last_step (Q := fun t => decide (t.stop ≤ pos))
      (fun a b hab h => by have h2 := of_decide_eq_true h; apply decide_eq_true; simp only [TokN.stop] at *; omega) hf ho
      (fun n => !((n.firstTok.map (fun t => decide (pos < t.stop))).getD true)) (by
        intro n hn last hl
        obtain ⟨i, hi⟩ := List.getElem?_of_mem hn
        simp only [(full_toks n (hf.get hi)).2.1, hl, Option.map_some, Option.getD_some]
        by_cases h : pos < last.stop
        · have : ¬ last.stop ≤ pos := by omega
          simp [h, this]
        · have : last.stop ≤ pos := by omega
          simp [h, this])
    simp only at h
    simp only [findTokenBefore]
    rcases h with ⟨h1, h2⟩ | ⟨n, first, h1, h2, h3, h4, h5, h6⟩
    · rw [if_pos h1, h2]
    · rw [if_neg h1, h3, h6]
      cases n with
      | tok t =>
        simp only [Node.toks, List.head?_cons, Option.some.injEq] at h4
        subst h4
        simp only [Node.toks, List.reverse_singleton, List.find?_cons, h5]
      | ctx l ds =>
        have := size_get h3
        simp only [Node.size] at this
        exact ih ds (by omega) (hf.get h3).2 (Ordered.get ho h3)

end Parce

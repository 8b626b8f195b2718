import Verif.Lemmas.Find
import Verif.Spec.FindContext
/-!
# Lemmas about finding the context at a position
-/
namespace Parce
variable {α L A : Type}

theorem TokN.lt_stop {ts : List (TokN α A)} (h : Ordered ts) {t : TokN α A} (ht : t ∈ ts) : t.pos < t.stop := by
  have := List.length_pos_iff.2 (h.1 t ht)
  simp only [TokN.stop]
  omega

theorem spans_up {l : L} {cs : List (Node α L A)} (ho : Ordered (toksL cs)) {pos i : Nat} {m : Node α L A} (hi : cs[i]? = some m) (h : Spans m pos) :
    Spans (.ctx l cs) pos := by
  obtain ⟨a, b, h1, h2, h3, h4⟩ := h
  have ha := mem_toksL hi (List.mem_of_head? h1)
  have hb := mem_toksL hi (List.mem_of_getLast? h2)
  have hne : toksL cs ≠ [] := by intro e; rw [e] at ha; simp at ha
  obtain ⟨a0, ha0⟩ : ∃ a0, (toksL cs).head? = some a0 := by
    cases h : toksL cs with
    | nil => exact absurd h hne
    | cons x xs => exact ⟨x, rfl⟩
  obtain ⟨b0, hb0⟩ : ∃ b0, (toksL cs).getLast? = some b0 := ⟨_, List.getLast?_eq_some_getLast hne⟩
  refine ⟨a0, b0, ha0, hb0, ?_, ?_⟩
  · have := ho.downward (Q := fun t => decide (t.pos ≤ pos)) (fun x y hxy hy => by
      have hy := of_decide_eq_true hy
      refine decide_eq_true ?_
      simp only [TokN.stop] at hxy
      omega) ha0 ha (decide_eq_true h3)
    exact of_decide_eq_true this
  · have := ho.upward (P := fun t => decide (pos < t.stop)) (fun x y hxy hx => pos_mono_stop pos x y hxy hx) hb0 hb (decide_eq_true h4)
    exact of_decide_eq_true this

theorem spans_at : ∀ (q : List Nat) {n m : Node α L A} {pos : Nat}, n.Full → Ordered n.toks → n.at q = some m → Spans m pos → Spans n pos
  | [], n, m, pos, _, _, h, hs => by
    obtain rfl : n = m := by simpa [Node.at] using h
    exact hs
  | i :: q, .tok t, m, pos, _, _, h, _ => by simp [Node.at, Node.kids] at h
  | i :: q, .ctx l cs, m, pos, hf, ho, h, hs => by
    simp only [Node.at, Node.kids, Option.bind_eq_some_iff] at h
    obtain ⟨c, h1, h2⟩ := h
    exact spans_up ho h1 (spans_at q (hf.2.get h1) (Ordered.get ho h1) h2 hs)

theorem find_only {cs : List (Node α L A)} (hf : FullL cs) (ho : Ordered (toksL cs)) (pos : Nat) :
    (ctxFind cs pos = none ∧ ∀ (j : Nat) m, cs[j]? = some m → ¬ Spans m pos) ∨
    (∃ i n last, ctxFind cs pos = some i ∧ cs[i]? = some n ∧ n.toks.getLast? = some last ∧ pos < last.stop ∧
      ∀ (j : Nat) m, cs[j]? = some m → Spans m pos → j = i) := by
  rcases find_step hf ho pos with ⟨h1, h2⟩ | ⟨i, n, last, h1, h2, h3, h4, h5⟩
  · refine .inl ⟨h1, ?_⟩
    rintro j m hj ⟨a, b, _, hb, _, hlt⟩
    have := List.find?_eq_none.1 h2 b (mem_toksL hj (List.mem_of_getLast? hb))
    simp only [decide_eq_true_eq] at this
    omega
  · refine .inr ⟨i, n, last, h1, h2, h3, h4, ?_⟩
    rintro j m hj ⟨a, b, ha, hb, hle, hlt⟩
    have hma := List.mem_of_head? ha
    have hmb := List.mem_of_getLast? hb
    rcases Nat.lt_trichotomy j i with hji | rfl | hji
    · obtain ⟨t, ht⟩ : ∃ t, n.toks.find? (fun t => decide (pos < t.stop)) = some t := by
        cases h : n.toks.find? (fun t => decide (pos < t.stop)) with
        | some t => exact ⟨t, rfl⟩
        | none =>
          have := List.find?_eq_none.1 h last (List.mem_of_getLast? h3)
          simp only [decide_eq_true_eq] at this
          omega
      have htn := List.mem_of_find?_eq_some ht
      have hbt := ho.between hj h2 hji hmb htn
      have htt := TokN.lt_stop (ho.get h2) htn
      have hbb := TokN.lt_stop (ho.get hj) hmb
      rw [ht] at h5
      obtain ⟨_, as, bs, e, has⟩ := List.find?_eq_some_iff_append.1 h5
      have hbm := mem_toksL hj hmb
      rw [e] at hbm ho
      rcases List.mem_append.1 hbm with hx | hx
      · have := has b hx
        simp only [Bool.not_eq_true', decide_eq_false_iff_not] at this
        omega
      · rcases List.mem_cons.1 hx with rfl | hx
        · omega
        · have := List.rel_of_pairwise_cons ho.right.2 hx
          omega
    · rfl
    · have := ho.between h2 hj hji (List.mem_of_getLast? h3) hma
      omega

theorem spans_pos {n : Node α L A} (hf : n.Full) {pos : Nat} {last : TokN α A} (hl : n.toks.getLast? = some last) (hlt : pos < last.stop) :
    n.pos ≤ pos ↔ Spans n pos := by
  obtain ⟨h1, h2, h3⟩ := full_toks n hf
  obtain ⟨a, r, e⟩ := List.exists_cons_of_ne_nil h1
  have he : n.toks.head? = some a := by rw [e]; rfl
  have hp : n.pos = a.pos := by simp [Node.pos, h2, he]
  rw [hp]
  constructor
  · exact fun h => ⟨a, last, he, hl, h, hlt⟩
  · rintro ⟨a', b', h4, _, h6, _⟩
    rw [he] at h4
    rw [Option.some.inj h4]
    exact h6

theorem findContextLoop_eq (pos : Nat) : ∀ (fuel : Nat) (n : Node α L A), n.size ≤ fuel → n.Full → Ordered n.toks →
    (∃ last, n.toks.getLast? = some last ∧ pos < last.stop) → ∀ (self path : List Nat),
    (CtxAt n pos [] → ∃ r, findContextLoop pos fuel n self path = path ++ r ∧ CtxAt n pos r ∧ ∀ q, CtxAt n pos q → q <+: r) ∧
    (¬ CtxAt n pos [] → findContextLoop pos fuel n self path = self) := by
  intro fuel
  induction fuel with
  | zero =>
    intro n h
    have := size_pos n
    omega
  | succ k ih =>
    intro n hk hf ho hl self path
    obtain ⟨last, hl1, hl2⟩ := hl
    cases n with
    | tok t =>
      refine ⟨?_, fun _ => rfl⟩
      rintro ⟨l, cs, h, _⟩
      simp [Node.at] at h
    | ctx l cs =>
      have hiff := spans_pos hf hl1 hl2
      have hroot : CtxAt (.ctx l cs) pos [] ↔ Spans (.ctx l cs) pos := by
        constructor
        · rintro ⟨l', cs', h, hs⟩
          simp only [Node.at, Option.some.injEq] at h
          rw [h]
          exact hs
        · exact fun h => ⟨l, cs, rfl, h⟩
      have hno : ¬ CtxAt (.ctx l cs) pos [] → findContextLoop pos (k + 1) (.ctx l cs) self path = self := by
        intro h
        have : ¬ (Node.ctx l cs).pos ≤ pos := fun hp => h (hroot.2 (hiff.1 hp))
        simp only [findContextLoop, this, if_false]
      refine ⟨fun h => ?_, hno⟩
      · have hp := hiff.2 (hroot.1 h)
        have ho' : Ordered (toksL cs) := ho
        rcases find_step hf.2 ho' pos with ⟨_, h2⟩ | _
        · have := List.find?_eq_none.1 h2 last (List.mem_of_getLast? hl1)
          simp only [decide_eq_true_eq] at this
          omega
        rcases find_only hf.2 ho' pos with ⟨h1, _⟩ | ⟨i, n, last', h1, h2, h3, h4, h5⟩
        · rcases find_step hf.2 ho' pos with ⟨_, h2⟩ | ⟨i, n, last', h1', _⟩
          · have := List.find?_eq_none.1 h2 last (List.mem_of_getLast? hl1)
            simp only [decide_eq_true_eq] at this
            omega
          · rw [h1] at h1'
            cases h1'
        have hsz := size_get h2
        simp only [Node.size] at hk
        obtain ⟨k1, k2⟩ := ih n (by omega) (hf.2.get h2) (ho'.get h2) ⟨last', h3, h4⟩ path (path ++ [i])
        have hrun : findContextLoop pos (k + 1) (.ctx l cs) self path = findContextLoop pos k n path (path ++ [i]) := by
          simp only [findContextLoop, hp, if_true, h1, pyIdx, h2, Option.map_some]
        have hsub : ∀ q, CtxAt (.ctx l cs) pos q → q = [] ∨ ∃ q', q = i :: q' ∧ CtxAt n pos q' := by
          rintro q ⟨l', cs', hq, hs⟩
          cases q with
          | nil => exact .inl rfl
          | cons j q =>
            simp only [Node.at, Node.kids, Option.bind_eq_some_iff] at hq
            obtain ⟨m, hm, hq⟩ := hq
            have hsm := spans_at q (hf.2.get hm) (ho'.get hm) hq hs
            obtain rfl := h5 j m hm hsm
            obtain rfl : n = m := by rw [h2] at hm; exact Option.some.inj hm
            exact .inr ⟨q, rfl, l', cs', hq, hs⟩
        rw [hrun]
        by_cases hn : CtxAt n pos []
        · obtain ⟨r, r1, ⟨l', cs', r2, r2'⟩, r3⟩ := k1 hn
          refine ⟨i :: r, by rw [r1]; simp, ⟨l', cs', ?_, r2'⟩, ?_⟩
          · simp [Node.at, Node.kids, h2, r2]
          · intro q hq
            rcases hsub q hq with rfl | ⟨q', rfl, hq'⟩
            · exact List.nil_prefix
            · exact (List.prefix_cons_inj i).2 (r3 q' hq')
        · refine ⟨[], by rw [k2 hn, List.append_nil], h, ?_⟩
          intro q hq
          rcases hsub q hq with rfl | ⟨q', rfl, l', cs', hq1, hq2⟩
          · exact List.nil_prefix
          · refine absurd ?_ hn
            cases n with
            | tok t =>
              cases q' with
              | nil => simp [Node.at] at hq1
              | cons a q' => simp [Node.at, Node.kids] at hq1
            | ctx l2 cs2 => exact ⟨l2, cs2, rfl, spans_at q' (hf.2.get h2) (ho'.get h2) hq1 hq2⟩

end Parce

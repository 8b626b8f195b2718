import Verif.Lemmas.TokenAt
/-!
# Properties of the token at a position (C113)
-/
namespace Parce
variable {α L A : Type} [DecidableEq α]

/-- In ordered tokens the first one that ends after `pos` is the one around `pos`. -/
private theorem first_around {ts pre post : List (TokN α A)} {t u : TokN α A} {pos : Nat} (ho : Ordered ts) (hs : ts = pre ++ t :: post)
    (hpre : ∀ v ∈ pre, v.stop ≤ pos) (hlt : pos < t.stop) (hu : u ∈ ts) (h1 : u.pos ≤ pos) (h2 : pos < u.stop) : t = u := by
  rw [hs] at hu ho
  rcases List.mem_append.1 hu with h | h
  · have := hpre u h; omega
  · rcases List.mem_cons.1 h with h | h
    · exact h.symm
    · have hp := (List.pairwise_cons.1 (List.pairwise_append.1 ho.2).2.1).1 u h
      omega

/-- C113, a token around the position. If a token starts at the position, or starts before it and ends after it, then `token` returns
    that token. -/
theorem C113_starts (text : List α) (sep : α) (l : L) (cs : List (Node α L A)) (hf : FullL cs) (ho : Ordered (toksL cs))
    (pos : Nat) (t : TokN α A) (ht : t ∈ toksL cs) (h1 : t.pos ≤ pos) (h2 : pos < t.stop) :
    docToken text sep (.ctx l cs) pos = some t := by
  rcases docToken_list text sep l cs hf ho pos with ⟨_, h⟩ | ⟨pre, u, post, hs, hpre, hlt, h⟩
  · have := h t ht; omega
  · have := first_around ho hs hpre hlt ht h1 h2
    subst this
    rw [h, if_pos h1]

/-- C113, a token that ends at the position (partial: a token that ends at the position is returned if no token starts there and some
    token comes later; at the end of the last token it is not, see `C113_end_violated`). -/
theorem C113_ends_partial (text : List α) (sep : α) (l : L) (cs : List (Node α L A)) (hf : FullL cs) (ho : Ordered (toksL cs))
    (pos : Nat) (t u : TokN α A) (ht : t ∈ toksL cs) (h1 : t.stop = pos) (hno : ∀ v ∈ toksL cs, v.pos ≠ pos)
    (hu : u ∈ toksL cs) (h2 : pos < u.stop) :
    docToken text sep (.ctx l cs) pos = some t := by
  rcases docToken_list text sep l cs hf ho pos with ⟨_, h⟩ | ⟨pre, v, post, hs, hpre, hlt, h⟩
  · have := h u hu; omega
  · have hne := List.length_pos_iff.2 (ho.1 t ht)
    rw [hs] at ht ho
    have hv : ¬ v.pos ≤ pos := by
      intro hc
      have hvp := hno v (by rw [hs]; simp)
      rcases List.mem_append.1 ht with h' | h'
      · have := (List.pairwise_append.1 ho.2).2.2 _ h' _ (List.mem_cons_self ..)
        omega
      · rcases List.mem_cons.1 h' with h' | h'
        · subst h'; omega
        · have := (List.pairwise_cons.1 (List.pairwise_append.1 ho.2).2.1).1 t h'
          simp only [TokN.stop] at *
          omega
    rw [h, if_neg hv]
    rcases List.mem_append.1 ht with h' | h'
    · rcases List.eq_nil_or_concat pre with hn | ⟨pre', x, hx⟩
      · rw [hn] at h'; cases h'
      · subst hx
        simp only [List.concat_eq_append, List.getLast?_concat]
        rw [List.concat_eq_append] at h' hpre ho
        rcases List.mem_append.1 h' with h'' | h''
        · have hx2 := hpre x (by simp)
          have := (List.pairwise_append.1 (List.pairwise_append.1 ho.2).1).2.2 _ h'' x (by simp)
          have hxn := List.length_pos_iff.2 (ho.1 x (by simp))
          simp only [TokN.stop] at *
          omega
        · rw [List.mem_singleton] at h''
          subst h''
          rw [if_pos h1]
    · rcases List.mem_cons.1 h' with h' | h'
      · subst h'; omega
      · have := (List.pairwise_cons.1 (List.pairwise_append.1 ho.2).2.1).1 t h'
        simp only [TokN.stop] at *
        omega

/-- C113, only these (partial: a token that ends with the block separator is returned for the position after it, see
    `C113_block_violated`). A token that is returned is in the block of the position, if no token ends with the block separator. -/
theorem C113_block_partial (text : List α) (sep : α) (l : L) (cs : List (Node α L A)) (hf : FullL cs)
    (ho : Tokenized text (toksL cs)) (hsep : ∀ t ∈ toksL cs, t.text.getLast? ≠ some sep)
    (pos a b : Nat) (hl : IsLine text sep a b) (ha : a ≤ pos) (hb : pos ≤ b) (t : TokN α A)
    (h : docToken text sep (.ctx l cs) pos = some t) : t ∈ toksL cs ∧ t.InBlock a b := by
  rcases docToken_list text sep l cs hf ho.ordered pos with ⟨hn, _⟩ | ⟨pre, v, post, hs, hpre, hlt, hd⟩
  · rw [hn] at h; cases h
  · rw [hd] at h
    have hvm : v ∈ toksL cs := by rw [hs]; simp
    have right : ¬ v.pos ≤ pos → tokenRight text sep v pos = some t → t ∈ toksL cs ∧ t.InBlock a b := by
      intro hv hr
      unfold tokenRight at hr
      split at hr
      · cases hr
      · next hns =>
        have hr := Option.some.inj hr
        subst hr
        refine ⟨hvm, ?_, by omega⟩
        refine Nat.le_of_not_lt (fun hc => hns ?_)
        have hne := List.length_pos_iff.2 (ho.ordered.1 v hvm)
        have hp0 := ho.piece v hvm 0 hne
        have hlen : v.pos < text.length := by
          rw [Nat.add_zero] at hp0
          rw [List.getElem?_eq_getElem hne] at hp0
          exact (List.getElem?_eq_some_iff.1 hp0).1
        rcases hl.right with hr | hr
        · omega
        · refine List.mem_iff_getElem?.2 ⟨b - pos, ?_⟩
          unfold slice
          rw [List.getElem?_drop, List.getElem?_take, if_pos (by omega), show pos + (b - pos) = b by omega]
          exact hr
    split at h
    · next hv =>
      cases h
      exact ⟨hvm, by omega, by omega⟩
    · next hv =>
      split at h
      · exact right hv h
      · next u hu =>
        split at h
        · next hstop =>
          have h := Option.some.inj h
          subst h
          have hum : u ∈ toksL cs := by
            rw [hs]; exact List.mem_append_left _ (List.mem_of_getLast? hu)
          have hne := List.length_pos_iff.2 (ho.ordered.1 u hum)
          refine ⟨hum, by simp only [TokN.stop] at hstop; omega, ?_⟩
          refine Nat.lt_of_not_le (fun hc => ?_)
          have hpa : pos = a := by omega
          rcases hl.left with h0 | h0
          · simp only [TokN.stop] at hstop; omega
          · have hp := ho.piece u hum (u.text.length - 1) (by omega)
            refine hsep u hum ?_
            rw [List.getLast?_eq_getElem?, ← hp, ← h0]
            congr 1
            simp only [TokN.stop] at hstop
            omega
        · exact right hv h

/-- C113, nothing in the block (partial, the same restriction). If no token is in the block of the position, nothing is returned. -/
theorem C113_none_partial (text : List α) (sep : α) (l : L) (cs : List (Node α L A)) (hf : FullL cs)
    (ho : Tokenized text (toksL cs)) (hsep : ∀ t ∈ toksL cs, t.text.getLast? ≠ some sep)
    (pos a b : Nat) (hl : IsLine text sep a b) (ha : a ≤ pos) (hb : pos ≤ b) (hno : ∀ t ∈ toksL cs, ¬ t.InBlock a b) :
    docToken text sep (.ctx l cs) pos = none := by
  cases h : docToken text sep (.ctx l cs) pos with
  | none => rfl
  | some t =>
    have := C113_block_partial text sep l cs hf ho hsep pos a b hl ha hb t h
    exact absurd this.2 (hno t this.1)

/-- C113, something in the block (partial: for tokens that are not entirely before the position; see `C113_left_violated`). If a token
    of the block ends after the position, some token is returned. -/
theorem C113_some_partial (text : List α) (sep : α) (l : L) (cs : List (Node α L A)) (hf : FullL cs)
    (ho : Ordered (toksL cs)) (pos a b : Nat) (hl : IsLine text sep a b) (ha : a ≤ pos) (t : TokN α A)
    (ht : t ∈ toksL cs) (hin : t.InBlock a b) (hpos : pos < t.stop) :
    ∃ u ∈ toksL cs, docToken text sep (.ctx l cs) pos = some u := by
  rcases docToken_list text sep l cs hf ho pos with ⟨_, h⟩ | ⟨pre, v, post, hs, hpre, hlt, hd⟩
  · have := h t ht; omega
  · have hvm : v ∈ toksL cs := by rw [hs]; simp
    have hvt : v.pos ≤ t.pos := by
      rw [hs] at ht ho
      rcases List.mem_append.1 ht with h' | h'
      · have := hpre t h'; omega
      · rcases List.mem_cons.1 h' with h' | h'
        · subst h'; exact Nat.le_refl _
        · have := (List.pairwise_cons.1 (List.pairwise_append.1 ho.2).2.1).1 t h'
          simp only [TokN.stop] at *
          omega
    have right : tokenRight text sep v pos = some v := by
      unfold tokenRight
      rw [if_neg]
      intro hm
      obtain ⟨i, hi⟩ := List.mem_iff_getElem?.1 hm
      unfold slice at hi
      rw [List.getElem?_drop, List.getElem?_take] at hi
      split at hi
      · next hlt' =>
        have := hin.1
        exact hl.inside (pos + i) (by omega) (by omega) hi
      · cases hi
    rw [hd]
    split
    · exact ⟨v, hvm, rfl⟩
    · split
      · exact ⟨v, hvm, right⟩
      · next u hu =>
        split
        · exact ⟨u, by rw [hs]; exact List.mem_append_left _ (List.mem_of_getLast? hu), rfl⟩
        · exact ⟨v, hvm, right⟩

/-- C113 is violated by the code: at the end of the last token nothing is returned, although that token ends at the position. This is
    so in every document that has a token. -/
theorem C113_end_violated (text : List α) (sep : α) (l : L) (cs : List (Node α L A)) (hf : FullL cs) (ho : Ordered (toksL cs))
    (t : TokN α A) (ht : (toksL cs).getLast? = some t) : docToken text sep (.ctx l cs) t.stop = none := by
  rcases docToken_list text sep l cs hf ho t.stop with ⟨h, _⟩ | ⟨pre, v, post, hs, hpre, hlt, hd⟩
  · exact h
  · exfalso
    have hvm : v ∈ toksL cs := by rw [hs]; simp
    obtain ⟨ini, hini⟩ := List.getLast?_eq_some_iff.1 ht
    rw [hini] at hvm ho
    rcases List.mem_append.1 hvm with h | h
    · have := (List.pairwise_append.1 ho.2).2.2 _ h t (by simp)
      simp only [TokN.stop] at *
      omega
    · rw [List.mem_singleton] at h
      subst h
      omega

/-- The text `a⏎⏎⏎b`, where the first token is `a⏎`. -/
private def kidsN : List (Node Char Nat Nat) := [.tok ⟨0, ['a', '\n'], 0, none⟩, .ctx 1 [.tok ⟨4, ['b'], 0, none⟩]]

/-- The text `⏎a  ⏎b`. -/
private def kidsS : List (Node Char Nat Nat) := [.tok ⟨1, ['a'], 0, none⟩, .ctx 1 [.tok ⟨5, ['b'], 0, none⟩]]

/-- C113 is violated by the code: a token in a different block is returned, when it ends with the block separator. Here the token is
    the first line with its newline, and the position is in the second line, which has no tokens. -/
theorem C113_block_violated : ∃ (text : List Char) (l : Nat) (cs : List (Node Char Nat Nat)) (pos : Nat) (t : TokN Char Nat),
    FullL cs ∧ Ordered (toksL cs) ∧ IsLine text '\n' pos pos ∧ (∀ u ∈ toksL cs, ¬ u.InBlock pos pos) ∧
    docToken text '\n' (.ctx l cs) pos = some t := by
  refine ⟨['a', '\n', '\n', '\n', 'b'], 0, kidsN, 2, ⟨0, ['a', '\n'], 0, none⟩, ?_, ?_, ?_, ?_, by decide⟩
  · simp [FullL, kidsN, Node.Full]
  · simp [Ordered, toksL, kidsN, Node.toks, TokN.stop]
  · exact ⟨by decide, by decide, .inr (by decide), .inr (by decide), fun m h1 h2 => by omega⟩
  · simp [toksL, kidsN, Node.toks, TokN.InBlock, TokN.stop]

/-- C113 is violated by the code: nothing is returned although there is a token in the block. Here the position is behind white space
    after the token. -/
theorem C113_left_violated : ∃ (text : List Char) (l : Nat) (cs : List (Node Char Nat Nat)) (pos a b : Nat) (t : TokN Char Nat),
    FullL cs ∧ Ordered (toksL cs) ∧ IsLine text '\n' a b ∧ a ≤ pos ∧ pos ≤ b ∧ t ∈ toksL cs ∧ t.InBlock a b ∧
    docToken text '\n' (.ctx l cs) pos = none := by
  refine ⟨['\n', 'a', ' ', ' ', '\n', 'b'], 0, kidsS, 3, 1, 4, ⟨1, ['a'], 0, none⟩, ?_, ?_, ?_, by decide, by decide, ?_, ?_, by decide⟩
  · simp [FullL, kidsS, Node.Full]
  · simp [Ordered, toksL, kidsS, Node.toks, TokN.stop]
  · refine ⟨by decide, by decide, .inr (by decide), .inr (by decide), fun m h1 h2 => ?_⟩
    have : m = 1 ∨ m = 2 ∨ m = 3 := by omega
    rcases this with rfl | rfl | rfl <;> decide
  · simp [toksL, kidsS, Node.toks]
  · simp [TokN.InBlock, TokN.stop]

/-- The hypotheses are met by that document: the first token is found at its start, and at its end; the second one at the start of its
    line; and nothing in the first line. -/
example : Tokenized ['\n', 'a', ' ', ' ', '\n', 'b'] (toksL kidsS) ∧ FullL kidsS ∧
    (∀ t ∈ toksL kidsS, t.text.getLast? ≠ some '\n') ∧
    docToken ['\n', 'a', ' ', ' ', '\n', 'b'] '\n' (.ctx 0 kidsS) 1 = some ⟨1, ['a'], 0, none⟩ ∧
    docToken ['\n', 'a', ' ', ' ', '\n', 'b'] '\n' (.ctx 0 kidsS) 2 = some ⟨1, ['a'], 0, none⟩ ∧
    docToken ['\n', 'a', ' ', ' ', '\n', 'b'] '\n' (.ctx 0 kidsS) 5 = some ⟨5, ['b'], 0, none⟩ ∧
    docToken ['\n', 'a', ' ', ' ', '\n', 'b'] '\n' (.ctx 0 kidsS) 0 = none := by
  refine ⟨⟨by simp [Ordered, toksL, kidsS, Node.toks, TokN.stop], ?_⟩, by simp [FullL, kidsS, Node.Full],
    by simp [toksL, kidsS, Node.toks], by decide, by decide, by decide, by decide⟩
  intro t ht i hi
  simp only [toksL, kidsS, Node.toks, List.append_nil, List.cons_append, List.nil_append, List.mem_cons, List.not_mem_nil, or_false] at ht
  rcases ht with rfl | rfl <;> (simp at hi; subst hi; decide)

/-- The last token ends at 6, and nothing is found there. -/
example : (toksL kidsS).getLast? = some ⟨5, ['b'], 0, none⟩ ∧
    docToken ['\n', 'a', ' ', ' ', '\n', 'b'] '\n' (.ctx 0 kidsS) 6 = none := by
  refine ⟨by simp [toksL, kidsS, Node.toks], by decide⟩

end Parce

import Verif.Lemmas.RangeBounds
/-!
# C125: the position and the end of a range
-/
namespace Parce
variable {α L A : Type}

/-- **C125.** The `pos` of every range that is made from a tree is the position of the first token that ends after `start`, and its `end` is the
    end of the last token that begins before `stop`, or of the last token; no index is out of range. -/
theorem C125_bounds (l : L) (cs : List (Node α L A)) (hf : FullL cs) (ho : Ordered (toksL cs)) (start : Nat) (stop : Option Nat) (r : Rng)
    (h : Rng.fromTree l cs start stop = some r) :
    (∃ t1 a t2, toksL cs = t1 ++ a :: t2 ∧ start < a.stop ∧ (∀ t ∈ t1, t.stop ≤ start) ∧ r.pos (.ctx l cs) = some a.pos) ∧
    ∃ t1 b t2, toksL cs = t1 ++ b :: t2 ∧ (∀ e, stop = some e → b.pos < e) ∧ (∀ t ∈ t2, ∃ e, stop = some e ∧ e ≤ t.pos) ∧
      r.stop (.ctx l cs) = some b.stop := by
  obtain ⟨a, b, ha, hb, h1, h2⟩ := bounds_eq l hf ho h
  rw [List.find?_eq_some_iff_append] at ha hb
  obtain ⟨ha0, x1, x2, hax, ha1⟩ := ha
  obtain ⟨hb0, y1, y2, hby, hb1⟩ := hb
  refine ⟨⟨x1, a, x2, hax, of_decide_eq_true ha0, ?_, h1⟩, y2.reverse, b, y1.reverse, ?_, ?_, ?_, h2⟩
  · intro t ht
    have := ha1 t ht
    simp only [Bool.not_eq_true', decide_eq_false_iff_not] at this
    omega
  · rw [← List.reverse_reverse (toksL cs), hby]
    simp
  · rintro e rfl
    simpa using hb0
  · intro t ht
    have := hb1 t (List.mem_reverse.1 ht)
    cases stop with
    | none => simp at this
    | some e => exact ⟨e, rfl, by simpa using this⟩

/-- **C125.** When a token is between the bounds asked for, the range begins at or before it and ends at or after it. -/
theorem C125_covers (l : L) (cs : List (Node α L A)) (hf : FullL cs) (ho : Ordered (toksL cs)) (start : Nat) (stop : Option Nat) (r : Rng)
    (h : Rng.fromTree l cs start stop = some r) (t : TokN α A) (ht : t ∈ toksL cs) (h1 : start < t.stop) (h2 : ∀ e, stop = some e → t.pos < e) :
    ∃ p q, r.pos (.ctx l cs) = some p ∧ r.stop (.ctx l cs) = some q ∧ p ≤ t.pos ∧ t.stop ≤ q := by
  obtain ⟨⟨x1, a, x2, hax, _, ha, hp⟩, y1, b, y2, hby, _, hb, hq⟩ := C125_bounds l cs hf ho start stop r h
  refine ⟨_, _, hp, hq, ?_, ?_⟩
  · have ho1 := ho
    rw [hax] at ho1 ht
    rcases List.mem_append.1 ht with h3 | h3
    · have := ha t h3; omega
    · rcases List.mem_cons.1 h3 with rfl | h3
      · exact Nat.le_refl _
      · have : a.stop ≤ t.pos := by
          have h4 := ho1.2
          rw [List.pairwise_append, List.pairwise_cons] at h4
          exact h4.2.1.1 t h3
        simp only [TokN.stop] at this
        omega
  · have ho1 := ho
    rw [hby] at ho1 ht
    rcases List.mem_append.1 ht with h3 | h3
    · have : t.stop ≤ b.pos := by
        have h4 := ho1.2
        rw [List.pairwise_append] at h4
        exact h4.2.2 t h3 b (by simp)
      simp only [TokN.stop] at this ⊢
      omega
    · rcases List.mem_cons.1 h3 with rfl | h3
      · exact Nat.le_refl _
      · obtain ⟨e, he, h4⟩ := hb t h3
        have := h2 e he
        omega

private def tk (p : Nat) (s : String) : Node Char Nat Nat := .tok ⟨p, s.toList, 0, none⟩
private def kids1 : List (Node Char Nat Nat) := [tk 0 "ab", .ctx 1 [tk 3 "cd", .ctx 2 [tk 5 "e"], tk 7 "fgh"], tk 12 "i"]

example : FullL kids1 ∧ Ordered (toksL kids1) ∧ Rng.fromTree 0 kids1 4 (some 8) = some ⟨[1], [0], [2]⟩ ∧
    Rng.pos (.ctx 0 kids1) ⟨[1], [0], [2]⟩ = some 3 ∧ Rng.stop (.ctx 0 kids1) ⟨[1], [0], [2]⟩ = some 10 ∧
    (Rng.fromTree 0 kids1 6 none).bind (fun r => r.pos (.ctx 0 kids1)) = some 7 ∧
    (Rng.fromTree 0 kids1 6 none).bind (fun r => r.stop (.ctx 0 kids1)) = some 13 := by
  refine ⟨by simp [FullL, kids1, Node.Full, tk], ?_, by decide, by decide, by decide, by decide, by decide⟩
  simp [Ordered, toksL, kids1, Node.toks, tk, TokN.stop]

/-- A range in a gap between two contexts begins after its end (see also `C31_violated`). -/
example : (Rng.fromTree 0 [Node.ctx 1 [tk 0 "a"], .ctx 1 [tk 5 "b"]] 2 (some 3)).map
    (fun r => (r.pos (.ctx 0 [Node.ctx 1 [tk 0 "a"], .ctx 1 [tk 5 "b"]]), r.stop (.ctx 0 [Node.ctx 1 [tk 0 "a"], .ctx 1 [tk 5 "b"]]))) =
      some (some 5, some 1) := by decide

end Parce

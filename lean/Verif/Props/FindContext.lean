import Verif.Lemmas.FindContext
import Verif.Props.Tree
import Verif.Model.Nodes
/-!
# C122: the youngest context at a position
-/
namespace Parce
variable {α L A : Type}

private def tk (pos : Nat) (s : String) (g : Option Int := none) : Node Char Nat Nat := .tok ⟨pos, s.toList, 7, g⟩

private def kids0 : List (Node Char Nat Nat) :=
  [tk 0 "a", .ctx 1 [tk 2 "bc", .ctx 2 [tk 4 "d"], tk 5 "e"], tk 8 "g"]

private theorem kids0_full : FullL kids0 := by
  simp [FullL, kids0, Node.Full, tk]

private theorem kids0_ordered : Ordered (toksL kids0) := by
  simp [Ordered, toksL, kids0, Node.toks, tk, TokN.stop]

/-- **C122.** In a tree without empty contexts where the tokens do not overlap, `find_context(pos)` returns the context itself or a
    context in it that begins at the position or before it and ends after it; and every such context in it is the returned one or
    one of its ancestors. -/
theorem C122_find_context (l : L) (cs : List (Node α L A)) (hf : FullL cs) (ho : Ordered (toksL cs)) (pos : Nat) :
    (findContext cs pos = [] ∨ CtxAt (.ctx l cs) pos (findContext cs pos)) ∧
    ∀ q, CtxAt (.ctx l cs) pos q → q <+: findContext cs pos := by
  have hsub : ∀ {i : Nat} {n : Node α L A} {q : List Nat}, cs[i]? = some n → ∀ j, CtxAt (.ctx l cs) pos (j :: q) →
      ∃ m, cs[j]? = some m ∧ Spans m pos ∧ CtxAt m pos q := by
    rintro i n q _ j ⟨l', cs', hq, hs⟩
    simp only [Node.at, Node.kids, Option.bind_eq_some_iff] at hq
    obtain ⟨m, hm, hq⟩ := hq
    exact ⟨m, hm, spans_at q (hf.get hm) (ho.get hm) hq hs, l', cs', hq, hs⟩
  rcases find_only hf ho pos with ⟨h1, h2⟩ | ⟨i, n, last, h1, h2, h3, h4, h5⟩
  · have e : findContext cs pos = [] := by simp only [findContext, h1]
    rw [e]
    refine ⟨.inl rfl, ?_⟩
    rintro q ⟨l', cs', hq, hs⟩
    cases q with
    | nil => exact List.nil_prefix
    | cons j q =>
      simp only [Node.at, Node.kids, Option.bind_eq_some_iff] at hq
      obtain ⟨m, hm, hq⟩ := hq
      exact absurd (spans_at q (hf.get hm) (ho.get hm) hq hs) (h2 j m hm)
  · obtain ⟨k1, k2⟩ := findContextLoop_eq pos (sizeL cs + 1) n (by have := size_get h2; omega) (hf.get h2) (ho.get h2) ⟨last, h3, h4⟩ [] [i]
    have e : findContext cs pos = findContextLoop pos (sizeL cs + 1) n [] [i] := by simp only [findContext, h1, h2]
    rw [e]
    by_cases hn : CtxAt n pos []
    · obtain ⟨r, r1, ⟨l', cs', r2, r2'⟩, r3⟩ := k1 hn
      rw [r1]
      refine ⟨.inr ⟨l', cs', ?_, r2'⟩, ?_⟩
      · simp [Node.at, Node.kids, h2, r2]
      · intro q hq
        cases q with
        | nil => exact List.nil_prefix
        | cons j q =>
          obtain ⟨m, hm, hsm, hq'⟩ := hsub h2 j hq
          obtain rfl := h5 j m hm hsm
          obtain rfl : n = m := by rw [h2] at hm; exact Option.some.inj hm
          exact (List.prefix_cons_inj j).2 (r3 q hq')
    · rw [k2 hn]
      refine ⟨.inl rfl, ?_⟩
      intro q hq
      cases q with
      | nil => exact List.nil_prefix
      | cons j q =>
        obtain ⟨m, hm, hsm, l', cs', hq1, hq2⟩ := hsub h2 j hq
        obtain rfl := h5 j m hm hsm
        obtain rfl : n = m := by rw [h2] at hm; exact Option.some.inj hm
        refine absurd ?_ hn
        cases n with
        | tok t =>
          cases q with
          | nil => simp [Node.at] at hq1
          | cons a q => simp [Node.at, Node.kids] at hq1
        | ctx l2 cs2 => exact ⟨l2, cs2, rfl, hsm⟩

example : FullL kids0 ∧ Ordered (toksL kids0) ∧ findContext kids0 4 = [1, 1] ∧ findContext kids0 5 = [1] ∧ findContext kids0 0 = [] :=
  ⟨kids0_full, kids0_ordered, by decide, by decide, by decide⟩

/-- **C28.** `forward_including(upto)` yields the token and those after it, `backward_including(upto)` the token and those before it in
    reverse order. -/
theorem C28_including [DecidableEq α] (root : Node α L A) (hf : FullL root.kids) (ho : Ordered root.toks) (base path : List Nat)
    (anc : Node α L A) (t : TokN α A) (hb : root.at base = some anc) (hp : anc.at path = some (.tok t)) :
    ∃ before after, anc.leavesAt base = before ++ (base ++ path, t) :: after ∧
      Nd.forwardIncluding root base path t = (base ++ path, t) :: after ∧
      Nd.backwardIncluding root base path t = (base ++ path, t) :: before.reverse := by
  have h := C28_forward_backward root hf ho base path anc _ hb hp
  refine ⟨(backward root base path).reverse, forward root base path, ?_, rfl, ?_⟩
  · rw [h]
    simp [Node.leavesAt]
  · rw [List.reverse_reverse]
    rfl

example : FullL (Node.ctx 0 kids0).kids ∧ Ordered (Node.ctx 0 kids0).toks ∧ ∃ t, (Node.ctx 0 kids0).at [1, 0] = some (.tok t) ∧
    (Nd.forwardIncluding (.ctx 0 kids0) [] [1, 0] t).map (·.1) = [[1, 0], [1, 1, 0], [1, 2], [2]] :=
  ⟨kids0_full, kids0_ordered, _, rfl, by decide⟩

end Parce

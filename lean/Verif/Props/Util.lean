import Verif.Lemmas.Util
/-!
# Properties C38, C41, C42: list helpers
-/
namespace Parce
variable {R β : Type}

/-! ## C38 -/

/-- **C38.** For a stream of ranges one after the other, `merge_adjacent` (with a factory that
    works) covers the same positions with the same values, keeps the order, and leaves no two
    ranges that could be merged. -/
theorem C38_merge [DecidableEq R] (a : Nat) (rs : List (Rg R)) (h : Asc a rs) :
    (∀ p v, InRg (mergeAdjacent rs) p v ↔ InRg rs p v) ∧ Asc a (mergeAdjacent rs) ∧ Merged (mergeAdjacent rs) := by
  cases rs with
  | nil => exact ⟨fun p v => Iff.rfl, trivial, trivial⟩
  | cons r rs =>
    obtain ⟨h1, h2, h3⟩ := h
    obtain ⟨i1, i2, i3, _⟩ := mergeLoop_spec rs a r.pos r.stop r.rest h1 h2 h3
    exact ⟨i2, i1, i3⟩

/-- **C38.** With a factory that works, all of this is yielded. -/
theorem C38_factory [DecidableEq R] (factory : Rg R → β) (rs : List (Rg R)) :
    runFactory (fun r => some (factory r)) (mergeAdjacent rs) = ((mergeAdjacent rs).map factory, true) := by
  generalize mergeAdjacent rs = l
  induction l with
  | nil => rfl
  | cons r l ih => simp [runFactory, ih]

/-- **C38 is violated by the code** with the default factory: nothing is yielded for any stream
    that is not empty, an exception is raised. -/
theorem C38_violated_default [DecidableEq R] (r : Rg R) (rs : List (Rg R)) :
    runFactory tupleFactory (mergeAdjacent (r :: rs)) = ([], false) := by
  have : ∃ x xs, mergeAdjacent (r :: rs) = x :: xs := by
    unfold mergeAdjacent
    cases rs with
    | nil => exact ⟨_, _, rfl⟩
    | cons n s =>
      have key : ∀ (s : List (Rg R)) (pos stop : Nat) (rest : R), ∃ x xs, mergeLoop pos stop rest s = x :: xs := by
        intro s
        induction s with
        | nil => intro _ _ _; exact ⟨_, _, rfl⟩
        | cons m t ih =>
          intro pos stop rest
          unfold mergeLoop
          split
          · exact ⟨_, _, rfl⟩
          · exact ih _ _ _
      exact key _ _ _ _
  obtain ⟨x, xs, h⟩ := this
  rw [h]
  rfl

example : Asc 0 [⟨0, 2, 'a'⟩, ⟨2, 3, 'a'⟩, ⟨3, 5, 'b'⟩, ⟨6, 7, 'b'⟩] ∧
    mergeAdjacent [⟨0, 2, 'a'⟩, ⟨2, 3, 'a'⟩, ⟨3, 5, 'b'⟩, ⟨6, 7, 'b'⟩] = [⟨0, 3, 'a'⟩, ⟨3, 5, 'b'⟩, ⟨6, 7, 'b'⟩] := by
  simp [Asc, mergeAdjacent, mergeLoop]

/-- **C38.** For a stream of ranges one after the other that all touch `start, stop`,
    `fix_boundaries` restricts them to that range exactly. -/
theorem C38_fix (start : Nat) (stop : Option Nat) (rs : List (Rg R)) (h : Asc 0 rs)
    (htouch : ∀ r ∈ rs, start < r.stop ∧ ∀ e, stop = some e → r.pos < e) (hse : ∀ e, stop = some e → start < e) :
    Asc start (fixBoundaries start stop rs) ∧
    (∀ e, stop = some e → ∀ r ∈ fixBoundaries start stop rs, r.stop ≤ e) ∧
    ∀ p v, InRg (fixBoundaries start stop rs) p v ↔ InRg rs p v ∧ start ≤ p ∧ ∀ e, stop = some e → p < e := by
  unfold fixBoundaries
  by_cases h0 : start = 0 ∧ stop = none
  · rw [if_pos h0]
    obtain ⟨rfl, rfl⟩ := h0
    exact ⟨h, by simp, fun p v => by simp⟩
  · rw [if_neg h0]
    cases rs with
    | nil => exact ⟨trivial, by simp, fun p v => by simp [InRg]⟩
    | cons i s =>
      obtain ⟨g1, g2, g3⟩ := h
      obtain ⟨t1, t2⟩ := htouch i (by simp)
      have hs : ∀ r ∈ s, start ≤ r.pos := by
        intro r hr
        have := (asc_mem g3 r hr).1
        omega
      have hfirst : ∃ i' : Rg R, (if i.pos < start then ⟨start, i.stop, i.rest⟩ else i) = i' ∧ start ≤ i'.pos ∧
          i'.pos ≤ i'.stop ∧ i'.stop = i.stop ∧ (∀ e, stop = some e → i'.pos < e) ∧
          ∀ p v, (i'.pos ≤ p ∧ p < i'.stop ∧ i'.rest = v) ↔ (i.pos ≤ p ∧ p < i.stop ∧ i.rest = v) ∧ start ≤ p := by
        by_cases hi : i.pos < start
        · rw [if_pos hi]
          refine ⟨_, rfl, Nat.le_refl _, by simp only; omega, rfl, fun e he => hse e he, ?_⟩
          intro p v
          simp only
          constructor
          · rintro ⟨q1, q2, q3⟩; exact ⟨⟨by omega, q2, q3⟩, q1⟩
          · rintro ⟨⟨q1, q2, q3⟩, q4⟩; exact ⟨q4, q2, q3⟩
        · rw [if_neg hi]
          refine ⟨i, rfl, by omega, g2, rfl, t2, ?_⟩
          intro p v
          constructor
          · rintro ⟨q1, q2, q3⟩; exact ⟨⟨q1, q2, q3⟩, by omega⟩
          · rintro ⟨q, _⟩; exact q
      obtain ⟨i', e1, e2, e3, e4, e5, e6⟩ := hfirst
      simp only [e1]
      have hall : ∀ p v, InRg (i' :: s) p v ↔ InRg (i :: s) p v ∧ start ≤ p := by
        intro p v
        rw [inRg_cons, e6, inRg_cons]
        constructor
        · rintro (⟨q1, q2⟩ | ⟨r, hr, q1, q2⟩)
          · exact ⟨Or.inl q1, q2⟩
          · exact ⟨Or.inr ⟨r, hr, q1, q2⟩, by have := hs r hr; omega⟩
        · rintro ⟨q1 | q1, q2⟩
          · exact Or.inl ⟨q1, q2⟩
          · exact Or.inr q1
      cases stop with
      | none =>
        rw [fixTail_none]
        exact ⟨⟨e2, e3, by rw [e4]; exact g3⟩, by simp, fun p v => by rw [hall]; simp⟩
      | some e =>
        obtain ⟨f1, f2, f3⟩ := fixTail_spec e s start i' e2 e3 (by rw [e4]; exact g3) (e5 e rfl)
          (fun r hr => (htouch r (by simp [hr])).2 e rfl)
        refine ⟨f1, fun e' he' => by cases he'; exact f2, ?_⟩
        intro p v
        rw [f3, hall]
        constructor
        · rintro ⟨⟨q1, q2⟩, q3⟩; exact ⟨q1, q2, fun e' he' => by cases he'; exact q3⟩
        · rintro ⟨q1, q2, q3⟩; exact ⟨⟨q1, q2⟩, q3 e rfl⟩

example : fixBoundaries 1 (some 6) [⟨0, 2, 'a'⟩, ⟨2, 5, 'b'⟩, ⟨5, 9, 'c'⟩] = [⟨1, 2, 'a'⟩, ⟨2, 5, 'b'⟩, ⟨5, 6, 'c'⟩] := by
  decide

/-- A range that does not touch `start, stop` is not removed, but gets impossible numbers. -/
example : fixBoundaries 5 (some 6) [⟨0, 2, 'a'⟩] = [⟨5, 2, 'a'⟩] := by decide

/-! ## C41 -/

/-- **C41** (partial: except UTF-32-LE, see `C41_violated`). Data with a byte order mark is reported
    with its encoding and the rest of the data. -/
theorem C41_bom_partial (e : Enc) (rest : List UInt8) (he : e ≠ .utf32le) :
    getBomEncoding (e.bom ++ rest) = (some e, rest) := by
  cases e <;> simp [getBomEncoding, bomLoop, Enc.bom] at he ⊢

/-- **C41 is violated by the code** for every data in UTF-32-LE: the mark of UTF-16-LE is a prefix
    of the mark of UTF-32-LE and is tested first. -/
theorem C41_violated (rest : List UInt8) :
    getBomEncoding (Enc.bom .utf32le ++ rest) = (some .utf16le, 0 :: 0 :: rest) := by
  simp [getBomEncoding, bomLoop, Enc.bom]

/-- **C41.** Data without a byte order mark is returned unchanged, without encoding. -/
theorem C41_none (data : List UInt8) (h : ∀ e : Enc, ¬ e.bom <+: data) : getBomEncoding data = (none, data) := by
  have h' : ∀ e : Enc, e.bom.isPrefixOf data = false := by
    intro e
    cases hb : e.bom.isPrefixOf data with
    | false => rfl
    | true => exact absurd (List.isPrefixOf_iff_prefix.1 hb) (h e)
  simp [getBomEncoding, bomLoop, h']

/-- **C41.** Whatever is reported, the mark and the data returned are the data. -/
theorem C41_lossless (data : List UInt8) :
    match getBomEncoding data with
    | (none, d) => d = data
    | (some e, d) => e.bom ++ d = data := by
  have key : ∀ es : List Enc, match bomLoop data es with
    | (none, d) => d = data
    | (some e, d) => e.bom ++ d = data := by
    intro es
    induction es with
    | nil => rfl
    | cons e es ih =>
      unfold bomLoop
      split
      · next h =>
        split at h <;> simp_all
      · next d h =>
        split at h
        · next hp =>
          simp only [Prod.mk.injEq, Option.some.injEq] at h
          obtain ⟨rfl, rfl⟩ := h
          obtain ⟨t, ht⟩ := List.isPrefixOf_iff_prefix.1 hp
          rw [← ht]
          simp
        · rw [h] at ih
          exact ih
  exact key _

example : getBomEncoding [0xFE, 0xFF, 0, 65] = (some .utf16be, [0, 65]) ∧
    getBomEncoding [0xFF, 0xFE, 0, 0, 65, 0, 0, 0] = (some .utf16le, [0, 0, 65, 0, 0, 0]) ∧
    getBomEncoding [65, 66] = (none, [65, 66]) := by decide

/-! ## C42 -/

/-- **C42.** `split_list` yields pieces without the separator that, joined with the separator, are
    the list; one piece more than there are separators. -/
theorem C42_split_list [DecidableEq β] (l : List β) (sep : β) :
    joinSep sep (splitList l sep) = l ∧ (∀ p ∈ splitList l sep, sep ∉ p) ∧
    (splitList l sep).length = l.count sep + 1 := by
  obtain ⟨h1, h2, _, h4⟩ := splitLoop_spec l sep (l.length + 1) 0 (Nat.zero_le _) (by omega)
  rw [List.drop_zero] at h1 h4
  exact ⟨h1, h2, h4⟩

/-- **C42.** `unroll` yields the members of nested tuples and lists, in order. -/
theorem C42_unroll (o : Obj β) : unroll o = o.leaves := by
  cases o with
  | leaf b => rfl
  | seq os =>
    rw [unroll, unrollLoop_spec _ _ _ (by simp)]
    simp [Obj.leaves]

example : splitList [1, 0, 2, 3, 0, 0, 4] 0 = [[1], [2, 3], [], [4]] ∧
    unroll (.seq [.leaf 1, .seq [.leaf 2, .seq [], .seq [.leaf 3]], .leaf 4] : Obj Nat) = [1, 2, 3, 4] := by decide

end Parce

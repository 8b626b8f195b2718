import Verif.Model.Translate
import Verif.Spec.Translate
import Verif.Props.Longest
import Verif.Lemmas.Replace
/-!
# Lemmas for translating keys
-/
namespace Parce

theorem prefix_slice {t w : List Char} {a b i : Nat} (hb : b ≤ t.length) (hi : a + i ≤ b) :
    w <+: (slice t a b).drop i ↔ w <+: t.drop (a + i) ∧ a + i + w.length ≤ b := by
  have he : (slice t a b).drop i = (t.drop (a + i)).take (b - (a + i)) := by
    unfold slice
    rw [List.drop_drop, List.drop_take]
  rw [he, List.prefix_take_iff]
  constructor
  · rintro ⟨h1, h2⟩; exact ⟨h1, by omega⟩
  · rintro ⟨h1, h2⟩; exact ⟨h1, by omega⟩

/-! ### Word edges -/

theorem atEdge_iff (isWord : Char → Bool) (t : List Char) (p : Nat) : atEdge isWord t p = true ↔ WordEdge isWord t p := by
  have h1 : (p != 0 && t[p - 1]?.any isWord) = true ↔ ∃ i c, i + 1 = p ∧ t[i]? = some c ∧ isWord c = true := by
    cases p with
    | zero => simp
    | succ p =>
      cases h : t[p]? with
      | none => simp [h]
      | some c => simp [h]
  have h2 : t[p]?.any isWord = true ↔ ∃ c, t[p]? = some c ∧ isWord c = true := by
    cases h : t[p]? <;> simp
  unfold atEdge WordEdge
  rw [← h1, ← h2]
  cases (p != 0 && t[p - 1]?.any isWord) <;> cases t[p]?.any isWord <;> simp

theorem edge_slice {isWord : Char → Bool} {t : List Char} {a b i : Nat} (hb : b ≤ t.length) (hi : a + i ≤ b)
    (hc : CleanEdges isWord t a b) : WordEdge isWord (slice t a b) i ↔ WordEdge isWord t (a + i) := by
  have hget : ∀ j, (slice t a b)[j]? = if a + j < b then t[a + j]? else none := by
    intro j
    unfold slice
    rw [List.getElem?_drop, List.getElem?_take]
  have h1 : (∃ j c, j + 1 = i ∧ (slice t a b)[j]? = some c ∧ isWord c = true) ↔
      ∃ j c, j + 1 = a + i ∧ t[j]? = some c ∧ isWord c = true := by
    constructor
    · rintro ⟨j, c, rfl, h, hw⟩
      rw [hget, if_pos (by omega)] at h
      exact ⟨a + j, c, by omega, h, hw⟩
    · rintro ⟨j, c, hj, h, hw⟩
      by_cases h0 : i = 0
      · rw [hc.1 j c (by omega) h] at hw
        cases hw
      · refine ⟨i - 1, c, by omega, ?_, hw⟩
        rw [hget, if_pos (by omega), show a + (i - 1) = j by omega]
        exact h
  have h2 : (∃ c, (slice t a b)[i]? = some c ∧ isWord c = true) ↔ ∃ c, t[a + i]? = some c ∧ isWord c = true := by
    rw [hget]
    split
    · rfl
    · constructor
      · rintro ⟨c, h, _⟩; cases h
      · rintro ⟨c, h, hw⟩
        rw [show a + i = b by omega] at h
        rw [hc.2 c h] at hw
        cases hw
  unfold WordEdge
  rw [h1, h2]

theorem whole_mat {isWord : Char → Bool} {a : Pat Char} {r : List Char} {i q : Nat} : (wholePat isWord a).mat r i q ↔
    atEdge isWord r i = true ∧ a.mat r i q ∧ atEdge isWord r q = true := by
  unfold wholePat
  simp only [Pat.mat]
  constructor
  · rintro ⟨_, ⟨rfl, h1⟩, _, h2, rfl, h3⟩
    exact ⟨h1, h2, h3⟩
  · rintro ⟨h1, h2, h3⟩
    exact ⟨i, ⟨rfl, h1⟩, q, h2, rfl, h3⟩

theorem whole_first {isWord : Char → Bool} {a : Pat Char} {r : List Char} {i q : Nat} {c : Caps} {P : Nat → Prop}
    (hP : ∀ q, P q) (h : (wholePat isWord a).First r P i q c) :
    atEdge isWord r i = true ∧ ∃ c', a.First r (fun q => atEdge isWord r q = true) i q c' := by
  classical
  rw [← run_first] at h
  have hrun : (wholePat isWord a).run r i [] = if atEdge isWord r i = true then
      ((a.run r i []).map (fun x => (x.1, (1, i, x.1) :: x.2))).flatMap (fun x => if atEdge isWord r x.1 = true then [x] else [])
      else [] := by
    simp only [wholePat, Pat.run]
    split <;> simp
  rw [hrun] at h
  split at h
  · next he =>
    refine ⟨he, ?_⟩
    have key : ∀ l : List (Nat × Caps),
        ((l.map (fun x => (x.1, (1, i, x.1) :: x.2))).flatMap (fun x => if atEdge isWord r x.1 = true then [x] else [])).find?
          (fun x => decide (P x.1)) = some (q, c) →
        ∃ c', l.find? (fun x => decide (atEdge isWord r x.1 = true)) = some (q, c') := by
      intro l
      induction l with
      | nil => intro h; simp at h
      | cons x l ih =>
        intro h
        simp only [List.map_cons, List.flatMap_cons] at h
        by_cases hx : atEdge isWord r x.1 = true
        · rw [if_pos hx] at h
          simp only [List.cons_append, List.nil_append, List.find?_cons, hP, decide_true, Option.some.injEq, Prod.mk.injEq] at h
          exact ⟨x.2, by simp only [List.find?_cons, hx, decide_true, ← h.1]⟩
        · rw [if_neg hx, List.nil_append] at h
          obtain ⟨c', hc'⟩ := ih h
          exact ⟨c', by rw [List.find?_cons_of_neg (by simpa using hx)]; exact hc'⟩
    obtain ⟨c', hc'⟩ := key _ h
    exact ⟨c', run_first.1 hc'⟩
  · simp at h

/-! ### The matches -/

/-- The pattern finds keys, and the longest one. -/
structure FindsKeys (A : Pat Char) (r : List Char) (a : Nat) (K : Nat → List Char → Prop) : Prop where
  mat : ∀ i q, i ≤ r.length → (A.mat r i q ↔ ∃ w, K (a + i) w ∧ q = i + w.length)
  first : ∀ i q c P, (∀ q, P q) → i ≤ r.length → A.First r P i q c → ∃ w, K (a + i) w ∧ q = i + w.length ∧ slice r i q = w ∧
    ∀ u, K (a + i) u → u.length ≤ w.length

theorem keys_mat [Rx.TupleOrder] {ks : List (List Char)} (hne : ks ≠ []) {A : Pat Char} (hA : Rx.Reads .alt (Rx.words2regexp ks) A)
    {r : List Char} {i q : Nat} (hi : i ≤ r.length) : A.mat r i q ↔ ∃ w ∈ ks, w <+: r.drop i ∧ q = i + w.length := by
  have hsem := Rx.reads_sem hA (Rx.words2regexp_spec ks hne)
  rw [← C70_meaning, Rx.run_rems r A (Rx.reads_plain hA) i hi]
  simp only [List.mem_map, Prod.mk.injEq, exists_and_left]
  constructor
  · rintro ⟨c, x, hx, rfl, _⟩
    obtain ⟨w, hw, hk⟩ := (hsem _ _).1 hx
    refine ⟨w, hk, ⟨x, hw.symm⟩, ?_⟩
    have : r.length - i = w.length + x.length := by rw [← List.length_drop, hw, List.length_append]
    omega
  · rintro ⟨w, hk, ⟨x, hx⟩, rfl⟩
    have : r.length - i = w.length + x.length := by rw [← List.length_drop, ← hx, List.length_append]
    exact ⟨[], x, (hsem _ _).2 ⟨w, hx.symm, hk⟩, by omega, rfl⟩

theorem finds_keys [Rx.TupleOrder] (isWord : Char → Bool) {mapping : List (List Char × List Char)} (hne : mapping ≠ []) {A : Pat Char}
    (hA : Rx.Reads .alt (Rx.words2regexp (mapping.map Prod.fst)) A) {t : List Char} {a b : Nat} (hab : a ≤ b) (hb : b ≤ t.length)
    (whole : Bool) (hc : whole = true → CleanEdges isWord t a b) :
    FindsKeys (if whole then wholePat isWord A else A) (slice t a b) a (KeyAt isWord mapping t b whole) := by
  have hks : mapping.map Prod.fst ≠ [] := by simpa using hne
  have hlen : (slice t a b).length = b - a := by rw [slice_length, Nat.min_eq_left hb]
  have hmat : ∀ i q, i ≤ (slice t a b).length → (A.mat (slice t a b) i q ↔ ∃ w ∈ mapping.map Prod.fst, w <+: t.drop (a + i) ∧
      a + i + w.length ≤ b ∧ q = i + w.length) := by
    intro i q hi
    rw [keys_mat hks hA hi]
    rw [hlen] at hi
    simp only [prefix_slice hb (show a + i ≤ b by omega), and_assoc]
  have hlong := fun i q c P hi => Rx.C77_longest _ hks A hA (slice t a b) P i q c hi
  have hpre : ∀ i q, i ≤ q → q ≤ (slice t a b).length → slice (slice t a b) i q <+: t.drop (a + i) ∧
      (slice (slice t a b) i q).length = q - i := by
    intro i q h1 h2
    rw [hlen] at h2
    rw [slice_slice t hab h2]
    refine ⟨?_, by rw [slice_length]; omega⟩
    unfold slice
    rw [List.drop_take]
    exact List.take_prefix _ _
  cases whole with
  | false =>
    refine ⟨?_, ?_⟩
    · intro i q hi
      simp only [Bool.false_eq_true, if_false]
      rw [hmat i q hi]
      simp only [KeyAt, Bool.false_eq_true, false_implies, and_true, and_assoc]
    · intro i q c P hP hi h
      simp only [Bool.false_eq_true, if_false] at h
      obtain ⟨⟨h1, h2, h3, h4, h5⟩, rfl⟩ := (hlong i q c P hi).1 h
      obtain ⟨h6, h7⟩ := hpre i q h1 h2
      refine ⟨_, ⟨h3, h6, by rw [h7]; omega, by simp⟩, by rw [h7]; omega, rfl, ?_⟩
      rintro u ⟨g1, g2, g3, _⟩
      rw [h7]
      exact h5 u g1 ((prefix_slice hb (by omega)).2 ⟨g2, g3⟩) (hP _)
  | true =>
    have hedge : ∀ i, a + i ≤ b → (atEdge isWord (slice t a b) i = true ↔ WordEdge isWord t (a + i)) := by
      intro i hi
      rw [atEdge_iff, edge_slice hb hi (hc rfl)]
    refine ⟨?_, ?_⟩
    · intro i q hi
      simp only [if_true]
      rw [whole_mat, hmat i q hi, hedge i (by omega)]
      constructor
      · rintro ⟨h1, ⟨w, h2, h3, h4, rfl⟩, h5⟩
        rw [hedge _ (by omega), ← Nat.add_assoc] at h5
        exact ⟨w, ⟨h2, h3, h4, fun _ => ⟨h1, h5⟩⟩, rfl⟩
      · rintro ⟨w, ⟨h2, h3, h4, h5⟩, rfl⟩
        refine ⟨(h5 rfl).1, ⟨w, h2, h3, h4, rfl⟩, ?_⟩
        rw [hedge _ (by omega), ← Nat.add_assoc]
        exact (h5 rfl).2
    · intro i q c P hP hi h
      simp only [if_true] at h
      obtain ⟨h0, c', h⟩ := whole_first hP h
      obtain ⟨⟨h1, h2, h3, h4, h5⟩, rfl⟩ := (hlong i q c' _ hi).1 h
      obtain ⟨h6, h7⟩ := hpre i q h1 h2
      rw [hedge _ (by omega)] at h0 h4
      refine ⟨_, ⟨h3, h6, by rw [h7]; omega, fun _ => ⟨h0, ?_⟩⟩, by rw [h7]; omega, rfl, ?_⟩
      · rw [h7, show a + i + (q - i) = a + q by omega]
        exact h4
      · rintro u ⟨g1, g2, g3, g4⟩
        rw [h7]
        refine h5 u g1 ((prefix_slice hb (by omega)).2 ⟨g2, g3⟩) ?_
        show atEdge isWord (slice t a b) (i + u.length) = true
        rw [hedge _ (by omega), ← Nat.add_assoc]
        exact (g4 rfl).2

theorem lookup_key {mapping : List (List Char × List Char)} {w : List Char} (h : w ∈ mapping.map Prod.fst) :
    ∃ v, mapping.lookup w = some v := by
  induction mapping with
  | nil => simp at h
  | cons p l ih =>
    obtain ⟨k, v⟩ := p
    rw [List.lookup_cons]
    by_cases hk : w = k
    · subst hk; exact ⟨v, by simp⟩
    · have : (w == k) = false := by simpa using hk
      rw [this]
      exact ih (by simpa [hk] using h)

/-- The value of the key that is matched. -/
def valueOf (mapping : List (List Char × List Char)) (r : List Char) (m : Mtch RM) : List Char :=
  (mapping.lookup (slice r m.start m.stop)).getD []

/-- At most so many. -/
def firstOf {β : Type} (n : Option Nat) (l : List β) : List β := match n with | none => l | some n => l.take n

theorem firstOf_nil {β : Type} (n : Option Nat) : firstOf n ([] : List β) = [] := by cases n <;> simp [firstOf]

theorem firstOf_cons {β : Type} (n : Option Nat) (h : n ≠ some 0) (x : β) (l : List β) :
    firstOf n (x :: l) = x :: firstOf (n.map (· - 1)) l := by
  match n, h with
  | none, _ => rfl
  | some (n + 1), _ => rfl

theorem found_translated {mapping : List (List Char × List Char)} {A : Pat Char} {t : List Char} {a b : Nat} (hab : a ≤ b)
    (hb : b ≤ t.length) {K : Nat → List Char → Prop} (hA : FindsKeys A (slice t a b) a K)
    (hK : ∀ i w, K i w → w ∈ mapping.map Prod.fst ∧ w ≠ [] ∧ i + w.length ≤ b) {p : Nat} {must : Bool} {ms : List (Mtch RM)}
    (h : FoundAll A (slice t a b) p must ms) : must = false → p ≤ (slice t a b).length → ∀ n : Option Nat,
    (∀ m ∈ ms, ∃ v, mapping.lookup (slice (slice t a b) m.start m.stop) = some v) ∧
    Translated mapping K t b n (a + p) (updateFrom (slice t a b) p
      ((firstOf n ms).map (fun m => ⟨m.start, m.stop, valueOf mapping (slice t a b) m⟩))) := by
  have hlen : (slice t a b).length = b - a := by rw [slice_length, Nat.min_eq_left hb]
  have hrest : ∀ p, p ≤ (slice t a b).length → (slice t a b).drop p = slice t (a + p) b := by
    intro p _
    unfold slice
    rw [List.drop_drop]
  induction h with
  | @done p must h =>
    rintro rfl hp n
    refine ⟨by simp, ?_⟩
    simp only [firstOf_nil]
    simp only [List.map_nil, updateFrom]
    rw [hrest p hp]
    refine .nothing (fun i w hi hKi => ?_)
    have h3 := (hK i w hKi).2.2
    have := h (i - a) (i - a + w.length) (by omega) (by omega)
      ((hA.mat _ _ (by omega)).2 ⟨w, by rw [show a + (i - a) = i by omega]; exact hKi, rfl⟩)
    exact Bool.noConfusion this.1
  | @next p must m ms hm _ ih =>
    rintro rfl hp n
    have hP : ∀ q, ¬ Again false p m.start q := fun q h => Bool.noConfusion h.1
    obtain ⟨c, hf, _⟩ := hm.first
    obtain ⟨w, h1, h2, h3, h4⟩ := hA.first _ _ c _ hP hm.inside hf
    obtain ⟨g1, g2, g3⟩ := hK _ _ h1
    obtain ⟨v, hv⟩ := lookup_key g1
    have hwl : 0 < w.length := List.length_pos_iff.2 g2
    have hih := ih (by simp; omega) (by omega)
    refine ⟨?_, ?_⟩
    · intro m' hm'
      rcases List.mem_cons.1 hm' with rfl | hm'
      · rw [h3]; exact ⟨v, hv⟩
      · exact (hih none).1 m' hm'
    · by_cases hn : n = some 0
      · subst hn
        simp only [firstOf, List.take_zero, List.map_nil, updateFrom]
        rw [hrest p hp]
        exact .enough _
      · rw [firstOf_cons n hn, List.map_cons]
        simp only [updateFrom]
        have hval : valueOf mapping (slice t a b) m = v := by rw [valueOf, h3, hv]; rfl
        have hpre : (if m.start > p then slice (slice t a b) p m.start else []) = slice t (a + p) (a + m.start) := by
          split
          · rw [slice_slice t hab (by omega)]
          · have := hm.ge
            rw [show m.start = p by omega]
            simp [slice]
        rw [hval, hpre]
        refine .next hn (by have := hm.ge; omega) ?_ h1 h4 hv ?_
        · intro j u h5 h6 h7
          have := hm.leftmost (j - a) (j - a + u.length) (by omega) (by omega)
            ((hA.mat _ _ (by omega)).2 ⟨u, by rw [show a + (j - a) = j by omega]; exact h7, rfl⟩)
          exact Bool.noConfusion this.1
        · have := (hih (n.map (· - 1))).2
          rw [h2] at this
          rw [Nat.add_assoc, ← h2]
          rw [← h2] at this
          exact this

/-- The specification allows one result only. -/
theorem Translated.unique {mapping : List (List Char × List Char)} {K : Nat → List Char → Prop} {t : List Char} {b : Nat}
    (hK : ∀ i w, K i w → w <+: t.drop i) {n : Option Nat} {p : Nat} {x y : List Char}
    (h1 : Translated mapping K t b n p x) (h2 : Translated mapping K t b n p y) : x = y := by
  induction h1 generalizing y with
  | enough p =>
    cases h2 with
    | enough => rfl
    | nothing => rfl
    | next h => exact absurd rfl h
  | nothing h =>
    cases h2 with
    | enough => rfl
    | nothing => rfl
    | next _ h3 _ h4 => exact absurd h4 (h _ _ h3)
  | @next n p i w v z g1 g2 g3 g4 g5 g6 _ ih =>
    cases h2 with
    | enough => exact absurd rfl g1
    | nothing h => exact absurd g4 (h _ _ g2)
    | @next _ _ i' w' v' z' k1 k2 k3 k4 k5 k6 k7 =>
      have hi : i = i' := by
        rcases Nat.lt_trichotomy i i' with h | h | h
        · exact absurd g4 (k3 _ _ g2 h)
        · exact h
        · exact absurd k4 (g3 _ _ k2 h)
      subst hi
      have hw : w = w' := by
        have := k5 _ g4
        have := g5 _ k4
        exact (List.prefix_of_prefix_length_le (hK _ _ g4) (hK _ _ k4) (by omega)).eq_of_length (by omega)
      subst hw
      rw [g6] at k6
      cases k6
      rw [ih k7]

end Parce

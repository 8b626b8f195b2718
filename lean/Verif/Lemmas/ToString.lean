import Verif.Model.ToString
import Verif.Spec.ToString

/-! Lemmas about `to_string`. -/

namespace Parce.ToS

theorem special_iff (c : Nat) : (special c = true ∨ c = 92) ↔ Quotable c := by
  simp only [special, Quotable, Meta, List.contains_cons, List.contains_nil, Bool.or_false,
    Bool.or_eq_true, beq_iff_eq]
  omega

theorem quotable_not_alnum {c : Nat} (h : Quotable c) : ¬ Alnum c := by
  simp only [Quotable, Meta, Alnum] at *; omega

theorem special_not_alnum {c : Nat} (h : special c = true) : ¬ Alnum c :=
  quotable_not_alnum ((special_iff c).1 (.inl h))

theorem hex_iff {c v : Nat} : hex? c = some v ↔ Hex c v := by
  constructor
  · intro h
    unfold hex? at h
    split at h
    · obtain rfl := Option.some.inj h
      have := Hex.dec (c - 48) (by omega)
      rwa [show 48 + (c - 48) = c by omega] at this
    · split at h
      · obtain rfl := Option.some.inj h
        have := Hex.lower (c - 97) (by omega)
        rwa [show 97 + (c - 97) = c by omega, show 10 + (c - 97) = c - 87 by omega] at this
      · split at h
        · obtain rfl := Option.some.inj h
          have := Hex.upper (c - 65) (by omega)
          rwa [show 65 + (c - 65) = c by omega, show 10 + (c - 65) = c - 55 by omega] at this
        · cases h
  · intro h
    cases h with
    | dec v h => unfold hex?; rw [if_pos (by omega)]; congr 1; omega
    | lower v h => unfold hex?; rw [if_neg (by omega), if_pos (by omega)]; congr 1; omega
    | upper v h =>
      unfold hex?; rw [if_neg (by omega), if_neg (by omega), if_pos (by omega)]; congr 1; omega

theorem hexN_iff : ∀ (n v : Nat) (l : List Nat) (w : Nat), hexN n v l = some w ↔
    ∃ ds r, l = ds ++ r ∧ ds.length = n ∧ HexNum v ds w
  | 0, v, l, w => by
    simp only [hexN, Option.some.injEq]
    constructor
    · rintro rfl; exact ⟨[], l, rfl, rfl, .nil _⟩
    · rintro ⟨ds, r, -, hl, h⟩
      obtain rfl := List.length_eq_zero_iff.1 hl
      cases h; rfl
  | n + 1, v, [], w => by
    simp only [hexN]
    constructor
    · intro h; cases h
    · rintro ⟨ds, r, h, hl, -⟩
      have := congrArg List.length h
      simp at this; omega
  | n + 1, v, c :: l, w => by
    simp only [hexN, Option.bind_eq_some_iff]
    constructor
    · rintro ⟨x, hx, h⟩
      obtain ⟨ds, r, rfl, hl, hn⟩ := (hexN_iff n _ l w).1 h
      exact ⟨c :: ds, r, rfl, by simp [hl], .cons (hex_iff.1 hx) hn⟩
    · rintro ⟨ds, r, h, hl, hn⟩
      cases hn with
      | nil => cases hl
      | @cons _ d x ds _ hx hn =>
        obtain ⟨rfl, rfl⟩ := List.cons.inj h
        exact ⟨x, hex_iff.2 hx, (hexN_iff n _ _ w).2 ⟨ds, r, rfl, by simpa using hl, hn⟩⟩

theorem hex_range {d x : Nat} (h : Hex d x) :
    x < 16 ∧ ((48 ≤ d ∧ d ≤ 57) ∨ (65 ≤ d ∧ d ≤ 90) ∨ (97 ≤ d ∧ d ≤ 122)) := by
  cases h <;> omega

theorem hexNum_lt {v : Nat} {ds : List Nat} {w : Nat} (h : HexNum v ds w) :
    w < 16 ^ ds.length * (v + 1) := by
  induction h with
  | nil v => simp
  | @cons v d x ds w hx _ ih =>
    have := hex_range hx
    refine Nat.lt_of_lt_of_le ih ?_
    rw [List.length_cons, Nat.pow_succ, Nat.mul_assoc]
    exact Nat.mul_le_mul_left _ (by omega)

theorem hexNum_alnum {v : Nat} {ds : List Nat} {w : Nat} (h : HexNum v ds w) :
    ∀ d ∈ ds, Alnum d := by
  induction h with
  | nil v => intro d h; cases h
  | cons hx _ ih =>
    intro d hd
    rcases List.mem_cons.1 hd with rfl | hd
    · exact (hex_range hx).2
    · exact ih d hd

theorem upTo_iff : ∀ (l n : List Nat), upTo l = some n ↔
    ∃ r, l = n ++ 125 :: r ∧ 10 ∉ n ∧ 125 ∉ n
  | [], n => by simp [upTo]
  | c :: l, n => by
    simp only [upTo]
    split
    · rename_i hc
      subst hc
      constructor
      · intro h
        obtain rfl := Option.some.inj h
        exact ⟨l, rfl, by simp, by simp⟩
      · rintro ⟨r, h, -, h2⟩
        cases n with
        | nil => rfl
        | cons a n =>
          obtain ⟨rfl, -⟩ := List.cons.inj h
          exact absurd (by simp) h2
    · rename_i hc
      split
      · rename_i h10
        subst h10
        constructor
        · intro h; cases h
        · rintro ⟨r, h, h1, -⟩
          cases n with
          | nil => cases h
          | cons a n =>
            obtain ⟨rfl, -⟩ := List.cons.inj h
            exact absurd (by simp) h1
      · rename_i h10
        constructor
        · intro h
          obtain ⟨m, hm, rfl⟩ := Option.map_eq_some_iff.1 h
          obtain ⟨r, rfl, h1, h2⟩ := (upTo_iff l m).1 hm
          refine ⟨r, rfl, ?_, ?_⟩
          · intro h; rcases List.mem_cons.1 h with h | h
            · exact h10 h.symm
            · exact h1 h
          · intro h; rcases List.mem_cons.1 h with h | h
            · exact hc h.symm
            · exact h2 h
        · rintro ⟨r, h, h1, h2⟩
          cases n with
          | nil => exact absurd (List.cons.inj h).1 hc
          | cons a n =>
            obtain ⟨rfl, rfl⟩ := List.cons.inj h
            rw [show n.append (125 :: r) = n ++ 125 :: r from rfl, (upTo_iff _ n).2 ⟨r, rfl, fun h => h1 (List.mem_cons_of_mem _ h),
              fun h => h2 (List.mem_cons_of_mem _ h)⟩]
            rfl

theorem oct_some {c x : Nat} (h : oct? c = some x) : x < 8 ∧ c = 48 + x := by
  unfold oct? at h; split at h
  · obtain rfl := Option.some.inj h; omega
  · cases h

theorem oct_none {c : Nat} (h : oct? c = none) : ¬ (48 ≤ c ∧ c ≤ 55) := by
  unfold oct? at h; split at h
  · cases h
  · assumption

theorem oct_val {x : Nat} (h : x < 8) : oct? (48 + x) = some x := by
  unfold oct?; rw [if_pos (by omega)]; congr 1; omega

theorem oct_not {c : Nat} (h : ¬ (48 ≤ c ∧ c ≤ 55)) : oct? c = none := by
  unfold oct?; rw [if_neg h]

/-- The escapes that the model reads are those of the documentation. -/
theorem octal_sound (lookup : List Nat → Option (List Nat)) {l : List Nat} {v n : Nat} (h : octal l = some (v, n)) :
    v > 255 ∨ ∃ w r, l = w ++ r ∧ w.length = n ∧ Escape lookup w r v ∧ ∃ a w', w = a :: w' ∧ Alnum a := by
  match l, h with
  | [], h => cases h
  | a :: r, h =>
    by_cases ha : a = 48
    · subst ha
      right
      cases r with
      | nil =>
        cases h
        exact ⟨[48], [], rfl, rfl, .zero (by intro d h; cases h), _, _, rfl, by simp [Alnum]⟩
      | cons a r =>
        simp only [octal] at h
        cases ha : oct? a with
        | none =>
          simp only [ha] at h
          cases h
          refine ⟨[48], _, rfl, rfl, .zero ?_, _, _, rfl, by simp [Alnum]⟩
          intro d h; cases h; exact oct_none ha
        | some x =>
          obtain ⟨hx, rfl⟩ := oct_some ha
          simp only [ha] at h
          cases r with
          | nil =>
            cases h
            exact ⟨[48, 48 + v], [], rfl, rfl, .zero1 hx (by intro d h; cases h), _, _, rfl,
              by simp [Alnum]⟩
          | cons b r =>
            cases hb : oct? b with
            | none =>
              simp only [hb] at h
              cases h
              refine ⟨[48, 48 + v], _, rfl, rfl, .zero1 hx ?_, _, _, rfl, by simp [Alnum]⟩
              intro d h; cases h; exact oct_none hb
            | some y =>
              obtain ⟨hy, rfl⟩ := oct_some hb
              simp only [hb] at h
              cases h
              exact ⟨[48, 48 + x, 48 + y], _, rfl, rfl, .zero2 hx hy, _, _, rfl, by simp [Alnum]⟩
    · match r, h with
      | b :: c :: r, h =>
        have h' := h
        unfold octal at h'
        split at h'
        · rename_i he; injection he; contradiction
        rotate_left
        · rename_i he; exact absurd rfl (he _ _ _ _)
        rename_i he
        obtain ⟨rfl, rfl, rfl, rfl⟩ : a = _ ∧ b = _ ∧ c = _ ∧ r = _ := by
          simpa only [List.cons.injEq] using he
        cases hx : oct? a with
        | none => simp [hx] at h'
        | some x =>
          cases hy : oct? b with
          | none => simp [hx, hy] at h'
          | some y =>
            cases hz : oct? c with
            | none => simp [hx, hy, hz] at h'
            | some z =>
              simp only [hx, hy, hz, Option.some.injEq, Prod.mk.injEq] at h'
              obtain ⟨rfl, rfl⟩ := h'
              obtain ⟨hx1, rfl⟩ := oct_some hx
              obtain ⟨hy1, rfl⟩ := oct_some hy
              obtain ⟨hz1, rfl⟩ := oct_some hz
              by_cases h4 : x < 4
              · exact .inr ⟨[48 + x, 48 + y, 48 + z], _, rfl, rfl,
                  .octal (by omega) h4 hy1 hz1, _, _, rfl, by simp only [Alnum]; omega⟩
              · exact .inl (by omega)
      | [], h =>
        unfold octal at h; split at h
        · rename_i he; injection he; contradiction
        · rename_i he; cases he
        · cases h
      | [b], h =>
        unfold octal at h; split at h
        · rename_i he; injection he; contradiction
        · rename_i he; cases he
        · cases h

theorem octal_head {c : Nat} {r : List Nat} (h : ¬ (48 ≤ c ∧ c ≤ 55)) : octal (c :: r) = none := by
  unfold octal
  split
  · rename_i he; cases he; omega
  · rename_i he; cases he; rw [oct_not h]
  · rfl

theorem backref_head {c : Nat} {r : List Nat} (h : ¬ (49 ≤ c ∧ c ≤ 57)) : backref (c :: r) = none := by
  have : nonzero c = false := by simp [nonzero]; omega
  simp [backref, this]

theorem control_head {c : Nat} (h : ¬ Alnum c) : control? c = none := by
  simp only [Alnum] at h
  unfold control?
  rw [if_neg (by omega), if_neg (by omega), if_neg (by omega), if_neg (by omega),
    if_neg (by omega), if_neg (by omega)]

theorem chr_put {v n m : Nat} {s : List Nat} {b bad : Bool} (h : chr v n b = .put s m bad) :
    v < 1114112 ∧ s = [v] ∧ m = n ∧ bad = b := by
  unfold chr at h; split at h
  · cases h; exact ⟨by assumption, rfl, rfl, rfl⟩
  · cases h

/-- `esc` reads only escapes of the documentation. -/
theorem esc_sound (lookup : List Nat → Option (List Nat)) {l s : List Nat} {n : Nat}
    (h : esc lookup l = .put s n false) :
    ∃ w r c, l = w ++ r ∧ w.length = n ∧ s = [c] ∧ Escape lookup w r c ∧
      (∀ p, w = [p] → ¬ Alnum p → Quotable p) := by
  cases l with
  | nil => cases h
  | cons c r =>
    simp only [esc] at h
    split at h
    · rename_i v hv
      split at hv
      · rename_i hc
        subst hc
        obtain ⟨ds, r', rfl, hl, hn⟩ := (hexN_iff _ _ _ _).1 hv
        obtain ⟨-, rfl, rfl, -⟩ := chr_put h
        refine ⟨120 :: ds, r', v, rfl, by simp [hl], rfl, .hex2 hl hn, ?_⟩
        rintro p hp hna
        obtain ⟨rfl, -⟩ := List.cons.inj hp
        exact absurd (by simp [Alnum]) hna
      · cases hv
    · split at h
      · rename_i v hv
        obtain ⟨-, rfl, rfl, -⟩ := chr_put h
        unfold control? at hv
        split at hv
        · rename_i hc; subst hc; cases hv
          exact ⟨[97], r, 7, rfl, rfl, rfl, .bell, by rintro p hp hna; cases hp; exact absurd (by simp [Alnum]) hna⟩
        split at hv
        · rename_i hc; subst hc; cases hv
          exact ⟨[102], r, 12, rfl, rfl, rfl, .formfeed, by rintro p hp hna; cases hp; exact absurd (by simp [Alnum]) hna⟩
        split at hv
        · rename_i hc; subst hc; cases hv
          exact ⟨[110], r, 10, rfl, rfl, rfl, .newline, by rintro p hp hna; cases hp; exact absurd (by simp [Alnum]) hna⟩
        split at hv
        · rename_i hc; subst hc; cases hv
          exact ⟨[114], r, 13, rfl, rfl, rfl, .ret, by rintro p hp hna; cases hp; exact absurd (by simp [Alnum]) hna⟩
        split at hv
        · rename_i hc; subst hc; cases hv
          exact ⟨[116], r, 9, rfl, rfl, rfl, .tab, by rintro p hp hna; cases hp; exact absurd (by simp [Alnum]) hna⟩
        split at hv
        · rename_i hc; subst hc; cases hv
          exact ⟨[118], r, 11, rfl, rfl, rfl, .vtab, by rintro p hp hna; cases hp; exact absurd (by simp [Alnum]) hna⟩
        · cases hv
      · split at h
        · rename_i v m hv
          obtain ⟨-, rfl, rfl, hb⟩ := chr_put h
          rcases octal_sound lookup hv with h255 | ⟨w, r', h1, h2, h3, a, w', rfl, ha⟩
          · simp [h255] at hb
          · refine ⟨_, r', v, h1, h2, rfl, h3, ?_⟩
            rintro p hp hna
            obtain ⟨rfl, -⟩ := List.cons.inj hp
            exact absurd ha hna
        · split at h
          · cases h
          · split at h
            · rename_i v hv
              split at hv
              · rename_i hc
                subst hc
                obtain ⟨ds, r', rfl, hl, hn⟩ := (hexN_iff _ _ _ _).1 hv
                obtain ⟨-, rfl, rfl, -⟩ := chr_put h
                refine ⟨117 :: ds, r', v, rfl, by simp [hl], rfl, .hex4 hl hn, ?_⟩
                rintro p hp hna
                obtain ⟨rfl, -⟩ := List.cons.inj hp
                exact absurd (by simp [Alnum]) hna
              · cases hv
            · split at h
              · rename_i v hv
                split at hv
                · rename_i hc
                  subst hc
                  obtain ⟨ds, r', rfl, hl, hn⟩ := (hexN_iff _ _ _ _).1 hv
                  obtain ⟨hlt, rfl, rfl, -⟩ := chr_put h
                  refine ⟨85 :: ds, r', v, rfl, by simp [hl], rfl, .hex8 hl hn hlt, ?_⟩
                  rintro p hp hna
                  obtain ⟨rfl, -⟩ := List.cons.inj hp
                  exact absurd (by simp [Alnum]) hna
                · cases hv
              · unfold lastEsc at h
                simp only at h
                split at h
                · rename_i hc
                  cases h
                  have hq := (special_iff c).1 hc
                  exact ⟨[c], r, c, rfl, rfl, rfl, .char (quotable_not_alnum hq),
                    by rintro p hp -; cases hp; exact hq⟩
                · split at h
                  · rename_i hc
                    subst hc
                    split at h
                    · rename_i r'
                      split at h
                      · rename_i nm hnm
                        split at h
                        · rename_i t ht
                          obtain ⟨r'', rfl, h1, h2⟩ := (upTo_iff _ _).1 hnm
                          simp only [Esc.put.injEq, bne_eq_false_iff_eq] at h
                          obtain ⟨rfl, rfl, h3⟩ := h
                          obtain ⟨c, rfl⟩ := List.length_eq_one_iff.1 h3
                          refine ⟨78 :: 123 :: nm ++ [125], r'', c, by simp, by simp, rfl,
                            .name h1 h2 ht, ?_⟩
                          rintro p hp -; cases hp
                        · cases h
                      · cases h
                    · cases h
                  · cases h

theorem chr_lt {v n : Nat} {b : Bool} (h : v < 1114112) : chr v n b = .put [v] n b := by
  unfold chr; rw [if_pos h]

theorem hexN_of {n : Nat} {ds r : List Nat} {v : Nat} (hl : ds.length = n) (h : HexNum 0 ds v) :
    hexN n 0 (ds ++ r) = some v := (hexN_iff _ _ _ _).2 ⟨ds, r, rfl, hl, h⟩

theorem octal_of (r : List Nat) {x y z : Nat} (h0 : 0 < x) (hx : x < 8) (hy : y < 8) (hz : z < 8) :
    octal ((48 + x) :: (48 + y) :: (48 + z) :: r) = some (64 * x + 8 * y + z, 3) := by
  unfold octal
  split
  · rename_i he; injection he; omega
  · rename_i he; cases he; rw [oct_val hx, oct_val hy, oct_val hz]
  · rename_i h; exact absurd rfl (h _ _ _ _)

theorem noOctal_cases {r : List Nat} (h : NoOctal r) : r = [] ∨ ∃ a r', r = a :: r' ∧ oct? a = none := by
  cases r with
  | nil => exact .inl rfl
  | cons a r => exact .inr ⟨a, r, rfl, oct_not (h a rfl)⟩

/-- `esc` reads all escapes of the documentation, but for a backslash before a character
that needs none. -/
theorem esc_complete (lookup : List Nat → Option (List Nat)) {w r : List Nat} {c : Nat}
    (h : Escape lookup w r c) (hq : ∀ p, w = [p] → ¬ Alnum p → Quotable p) :
    esc lookup (w ++ r) = .put [c] w.length false := by
  cases h with
  | hex2 hl hn =>
    have := hexNum_lt hn
    rw [hl] at this
    simp only [List.cons_append, esc, if_true, hexN_of hl hn, List.length_cons, hl]
    exact chr_lt (by omega)
  | hex4 hl hn =>
    have := hexNum_lt hn
    rw [hl] at this
    simp only [List.cons_append, esc, show ¬ 117 = 120 by decide, if_false, control?,
      octal_head (c := 117) (by decide), backref_head (c := 117) (by decide), if_true,
      hexN_of hl hn, List.length_cons, hl]
    exact chr_lt (by omega)
  | hex8 hl hn hlt =>
    simp only [List.cons_append, esc, show ¬ 85 = 120 by decide, if_false, control?,
      octal_head (c := 85) (by decide), backref_head (c := 85) (by decide), if_true,
      hexN_of hl hn, List.length_cons, hl]
    exact chr_lt hlt
  | bell => rfl
  | formfeed => rfl
  | newline => rfl
  | ret => rfl
  | tab => rfl
  | vtab => rfl
  | zero hno =>
    rcases noOctal_cases hno with rfl | ⟨a, r', rfl, ha⟩
    · rfl
    · simp [esc, control?, octal, ha, chr]
  | @zero1 x r hx hno =>
    have h1 : c < 1114112 := by omega
    rcases noOctal_cases hno with rfl | ⟨a, r', rfl, ha⟩
    · simp [esc, control?, octal, oct_val hx, chr, h1]; omega
    · simp [esc, control?, octal, oct_val hx, ha, chr, h1]; omega
  | @zero2 x y r hx hy =>
    have h1 : 8 * x + y < 1114112 := by omega
    simp [esc, control?, octal, oct_val hx, oct_val hy, chr, h1]; omega
  | @octal x y z r h0 hx hy hz =>
    have h1 : 64 * x + 8 * y + z < 1114112 := by omega
    have h2 : control? (48 + x) = none := by
      unfold control?
      rw [if_neg (by omega), if_neg (by omega), if_neg (by omega), if_neg (by omega),
        if_neg (by omega), if_neg (by omega)]
    have h3 : ¬ 48 + x = 120 := by omega
    simp only [List.cons_append, List.nil_append, esc, h3, if_false, h2,
      octal_of r h0 (by omega) hy hz]
    rw [chr_lt h1]
    simp; omega
  | @name n c r h1 h2 h3 =>
    have hu : upTo (n ++ 125 :: r) = some n := (upTo_iff _ _).2 ⟨r, rfl, h1, h2⟩
    simp [esc, control?, octal_head (c := 78) (by decide),
      backref_head (c := 78) (by decide), lastEsc, special, hu, h3]
  | char hna =>
    have hs := (special_iff c).2 (hq c rfl hna)
    have h1 := control_head hna
    simp only [Alnum] at hna
    simp only [List.cons_append, List.nil_append, esc, h1,
      octal_head (r := r) (show ¬ (48 ≤ c ∧ c ≤ 55) by omega),
      backref_head (r := r) (show ¬ (49 ≤ c ∧ c ≤ 57) by omega),
      show ¬ c = 120 by omega, show ¬ c = 117 by omega, show ¬ c = 85 by omega, if_false,
      lastEsc, hs, if_true]
    rfl

theorem replaceEsc_skip (lookup : List Nat → Option (List Nat)) : ∀ (w r : List Nat),
    replaceEsc lookup w.length (w ++ r) = replaceEsc lookup 0 r
  | [], r => rfl
  | a :: w, r => by
    simp only [List.length_cons, List.cons_append, replaceEsc]
    exact replaceEsc_skip lookup w r

theorem strip_plain (c : Nat) (r : List Nat) (h : c ≠ 92) :
    strip .plain (c :: r) = c :: strip .plain r := by
  simp [strip, h]

theorem strip_alnum (w r : List Nat) (h : ∀ c ∈ w, Alnum c) :
    strip .plain (w ++ r) = w ++ strip .plain r := by
  induction w with
  | nil => rfl
  | cons a w ih =>
    have ha := h a (by simp)
    rw [List.cons_append, strip_plain _ _ (by simp only [Alnum] at ha; omega),
      ih (fun c hc => h c (by simp [hc]))]
    rfl

theorem strip_name (n r : List Nat) (h : 125 ∉ n) :
    strip .name (n ++ 125 :: r) = strip .plain r := by
  induction n with
  | nil => simp [strip]
  | cons a n ih =>
    simp only [List.mem_cons, not_or] at h
    rw [List.cons_append, strip, if_neg (fun e => h.1 e.symm), ih h.2]

theorem strip_one (a : Nat) (r : List Nat) (h : a ≠ 10) (h2 : a ≠ 78) :
    strip .plain (92 :: a :: r) = strip .plain r := by
  have : escaped (a :: r) = some .one := by
    unfold escaped
    split
    · rename_i he; cases he
    · rename_i he; cases he; exact absurd rfl h2
    · rename_i he; cases he; rw [if_neg h]
  simp [strip, this]

/-- What is left of an escape has no special characters. -/
theorem strip_escape (lookup : List Nat → Option (List Nat)) {w r : List Nat} {c : Nat}
    (h : Escape lookup w r c) (hq : ∀ p, w = [p] → ¬ Alnum p → Quotable p) :
    ∃ j, strip .plain (92 :: (w ++ r)) = j ++ strip .plain r ∧ ∀ c ∈ j, Alnum c := by
  have hex : ∀ (a : Nat) (ds r : List Nat) (v : Nat), Alnum a → a ≠ 78 → HexNum 0 ds v →
      ∃ j, strip .plain (92 :: (a :: ds ++ r)) = j ++ strip .plain r ∧ ∀ c ∈ j, Alnum c := by
    intro a ds r v ha h78 hn
    refine ⟨ds, ?_, hexNum_alnum hn⟩
    rw [List.cons_append, strip_one _ _ (by simp only [Alnum] at ha; omega) h78,
      strip_alnum _ _ (hexNum_alnum hn)]
  have one : ∀ (a : Nat), a ≠ 10 → a ≠ 78 →
      ∃ j, strip .plain (92 :: ([a] ++ r)) = j ++ strip .plain r ∧ ∀ c ∈ j, Alnum c := by
    intro a h1 h2
    exact ⟨[], strip_one _ _ h1 h2, by simp⟩
  have dig : ∀ (a : Nat) (w r : List Nat), a ≠ 10 → a ≠ 78 → (∀ c ∈ w, Alnum c) →
      ∃ j, strip .plain (92 :: (a :: w ++ r)) = j ++ strip .plain r ∧ ∀ c ∈ j, Alnum c := by
    intro a w r h1 h2 h3
    refine ⟨w, ?_, h3⟩
    rw [List.cons_append, strip_one _ _ h1 h2, strip_alnum _ _ h3]
  cases h with
  | hex2 hl hn => exact hex _ _ _ _ (by simp [Alnum]) (by decide) hn
  | hex4 hl hn => exact hex _ _ _ _ (by simp [Alnum]) (by decide) hn
  | hex8 hl hn _ => exact hex _ _ _ _ (by simp [Alnum]) (by decide) hn
  | bell => exact one _ (by decide) (by decide)
  | formfeed => exact one _ (by decide) (by decide)
  | newline => exact one _ (by decide) (by decide)
  | ret => exact one _ (by decide) (by decide)
  | tab => exact one _ (by decide) (by decide)
  | vtab => exact one _ (by decide) (by decide)
  | zero hno => exact one _ (by decide) (by decide)
  | zero1 hx hno =>
    refine dig _ [_] _ (by decide) (by decide) ?_
    intro c hc; simp only [List.mem_singleton] at hc; subst hc; simp only [Alnum]; omega
  | zero2 hx hy =>
    refine dig _ [_, _] _ (by decide) (by decide) ?_
    intro c hc
    simp only [List.mem_cons, List.not_mem_nil, or_false] at hc
    simp only [Alnum]; omega
  | octal h0 hx hy hz =>
    refine dig _ [_, _] _ (by omega) (by omega) ?_
    intro c hc
    simp only [List.mem_cons, List.not_mem_nil, or_false] at hc
    simp only [Alnum]; omega
  | @name n c r h1 h2 h3 =>
    have hu : upTo (n ++ 125 :: r) = some n := (upTo_iff _ _).2 ⟨r, rfl, h1, h2⟩
    refine ⟨[], ?_, by simp⟩
    have := strip_name (78 :: 123 :: n) r (by simp [h2])
    simp only [List.cons_append, List.append_assoc] at this ⊢
    simp only [strip, if_true, escaped, hu, Option.isSome_some, List.nil_append] at this ⊢
    simpa using this
  | char hna =>
    have := hq c rfl hna
    refine one _ ?_ ?_ <;> (simp only [Quotable, Meta] at this; omega)

theorem any_alnum {j : List Nat} (h : ∀ c ∈ j, Alnum c) : j.any special = false := by
  rw [List.any_eq_false]
  intro c hc hs
  exact special_not_alnum hs (h c hc)

/-- A row of characters and escapes is turned into the string. -/
theorem toString_complete (lookup : List Nat → Option (List Nat)) {e s : List Nat}
    (h : Common lookup e s) :
    (strip .plain e).any special = false ∧ replaceEsc lookup 0 e = .str s false := by
  induction h with
  | nil => exact ⟨rfl, rfl⟩
  | @plain c r s hc _ ih =>
    have h92 : c ≠ 92 := fun e => hc (.inl (.inl e))
    rw [strip_plain _ _ h92]
    have hs : special c = false := by
      cases h : special c with
      | false => rfl
      | true => exact absurd ((special_iff c).1 (.inl h)) hc
    refine ⟨by simp [hs, ih.1], ?_⟩
    simp only [replaceEsc, h92, if_false, ih.2]; rfl
  | @escape w r c s he hq _ ih =>
    obtain ⟨j, hj, ha⟩ := strip_escape lookup he hq
    refine ⟨?_, ?_⟩
    · rw [hj, List.any_append, ih.1, any_alnum ha]; rfl
    · simp only [replaceEsc, if_true, esc_complete lookup he hq, replaceEsc_skip, ih.2]; rfl

theorem after_str {s t : List Nat} {b : Bool} {o : Out} (h : o.after s b = .str t false) :
    ∃ u, o = .str u false ∧ t = s ++ u ∧ b = false := by
  cases o with
  | none => cases h
  | raise => cases h
  | str u b' =>
    simp only [Out.after, Out.str.injEq, Bool.or_eq_false_iff] at h
    exact ⟨u, by rw [h.2.2], h.1.symm, h.2.1⟩

theorem toString_sound (lookup : List Nat → Option (List Nat)) : ∀ (k : Nat) {e s : List Nat},
    e.length ≤ k → (strip .plain e).any special = false →
    replaceEsc lookup 0 e = .str s false → Common lookup e s
  | _, [], s, _, _, h => by cases h; exact .nil
  | 0, _ :: _, _, hk, _, _ => by simp at hk
  | k + 1, c :: r, s, hk, hs, h => by
    simp only [replaceEsc] at h
    split at h
    · rename_i hc
      subst hc
      split at h
      · cases h
      · cases h
      · rename_i t n bad he
        obtain ⟨u, h1, rfl, rfl⟩ := after_str h
        obtain ⟨w, r', c, rfl, rfl, rfl, hE, hq⟩ := esc_sound lookup he
        rw [replaceEsc_skip] at h1
        obtain ⟨j, hj, -⟩ := strip_escape lookup hE hq
        rw [hj, List.any_append, Bool.or_eq_false_iff] at hs
        exact .escape hE hq (toString_sound lookup k (by simp at hk; omega) hs.2 h1)
    · rename_i hc
      obtain ⟨u, h1, rfl, -⟩ := after_str h
      rw [strip_plain _ _ hc, List.any_cons, Bool.or_eq_false_iff] at hs
      refine .plain ?_ (toString_sound lookup k (by simpa using hk) hs.2 h1)
      intro hq
      rcases (special_iff c).2 hq with h | h
      · rw [h] at hs; exact absurd hs.1 (by decide)
      · exact hc h

theorem common_reads (lookup : List Nat → Option (List Nat)) {e s : List Nat}
    (h : Common lookup e s) : Reads lookup false e s := by
  induction h with
  | nil => exact .nil
  | plain hc _ ih => exact .plain (fun h => hc (.inl h)) (by simp) ih
  | escape he _ _ ih => exact .escape he ih

theorem reads_verbose (lookup : List Nat → Option (List Nat)) {e s : List Nat}
    (h : Reads lookup false e s) (hb : ∀ c ∈ e, ¬ Blank c ∧ c ≠ 35) : Reads lookup true e s := by
  induction h with
  | nil => exact .nil
  | @plain c r s hc _ _ ih =>
    exact .plain hc (fun _ => hb c (by simp)) (ih (fun d hd => hb d (by simp [hd])))
  | escape he _ ih => exact .escape he (ih (fun d hd => hb d (by simp [hd])))
  | blank hv => cases hv
  | comment hv => cases hv
  | lastComment hv => cases hv

theorem escape_head (lookup : List Nat → Option (List Nat)) {w r : List Nat} {c : Nat}
    (h : Escape lookup w r c) : (w = [c] ∧ ¬ Alnum c) ∨ ∃ a w', w = a :: w' ∧ Alnum a := by
  cases h with
  | char h => exact .inl ⟨rfl, h⟩
  | octal h0 hx _ _ => exact .inr ⟨_, _, rfl, by simp only [Alnum]; omega⟩
  | _ => exact .inr ⟨_, _, rfl, by simp [Alnum]⟩

theorem escape_unique (lookup : List Nat → Option (List Nat)) {w w' r r' : List Nat} {c c' : Nat}
    (h : Escape lookup w r c) (h' : Escape lookup w' r' c') (he : w ++ r = w' ++ r') :
    r = r' ∧ c = c' := by
  rcases escape_head lookup h with ⟨rfl, hn⟩ | ⟨a, t, rfl, ha⟩
  · rcases escape_head lookup h' with ⟨rfl, hn'⟩ | ⟨b, t', rfl, hb⟩
    · simp at he; exact ⟨he.2, he.1⟩
    · simp at he; rw [he.1] at hn; exact absurd hb hn
  · rcases escape_head lookup h' with ⟨rfl, hn'⟩ | ⟨b, t', rfl, hb⟩
    · simp at he; rw [← he.1] at hn'; exact absurd ha hn'
    · have h1 := esc_complete lookup h (by rintro p hp hna; cases hp; exact absurd ha hna)
      have h2 := esc_complete lookup h' (by rintro p hp hna; cases hp; exact absurd hb hna)
      rw [he, h2] at h1
      simp only [Esc.put.injEq, List.cons.injEq, and_true] at h1
      exact ⟨(List.append_inj he h1.2.symm).2, h1.1.symm⟩

theorem reads_unique (lookup : List Nat → Option (List Nat)) {e s s' : List Nat}
    (h : Reads lookup false e s) (h' : Reads lookup false e s') : s = s' := by
  induction h generalizing s' with
  | nil =>
    cases h' with
    | nil => rfl
  | plain hc _ _ ih =>
    cases h' with
    | plain _ _ h => rw [ih h]
    | escape he h => exact absurd (.inl rfl) hc
    | blank hv => cases hv
    | comment hv => cases hv
    | lastComment hv => cases hv
  | @escape w r c s he _ ih =>
    generalize hx : 92 :: (w ++ r) = x at h'
    cases h' with
    | nil => cases hx
    | plain hc _ h => obtain ⟨rfl, -⟩ := List.cons.inj hx; exact absurd (.inl rfl) hc
    | escape he' h =>
      obtain ⟨rfl, rfl⟩ := escape_unique lookup he he' (List.cons.inj hx).2
      rw [ih h]
    | blank hv => cases hv
    | comment hv => cases hv
    | lastComment hv => cases hv
  | blank hv => cases hv
  | comment hv => cases hv
  | lastComment hv => cases hv

end Parce.ToS

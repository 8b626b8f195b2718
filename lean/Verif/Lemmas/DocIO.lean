import Verif.Spec.DocIO
/-!
# Lemmas: codecs and newlines
-/
namespace Parce.DocIO

theorem ofBytes_toBytes {l : List Nat} (h : ∀ x ∈ l, x < 256) : ofBytes (toBytes l) = l := by
  induction l with
  | nil => rfl
  | cons a l ih =>
    have ha := h a (by simp)
    have := ih (fun x hx => h x (by simp [hx]))
    simp only [ofBytes, toBytes, List.map_cons] at this ⊢
    rw [this]
    congr 1
    simp only [UInt8.toNat_ofNat']
    omega

theorem latin1_roundTrips : RoundTrips latin1 := by
  intro t d h
  simp only [latin1] at h
  split at h
  · rename_i h'
    cases h
    simp only [latin1]
    rw [ofBytes_toBytes (by simpa using h')]
  · cases h

/-! ### UTF-8 -/

theorem utf8Char_lt {c : Nat} {b : List Nat} (h : utf8Char c = some b) : ∀ x ∈ b, x < 254 := by
  unfold utf8Char at h
  intro x hx
  split at h
  · cases h; simp at hx; omega
  split at h
  · cases h; simp at hx; omega
  split at h
  · cases h
  split at h
  · cases h; simp at hx; omega
  split at h
  · cases h; simp at hx; omega
  · cases h

theorem utf8First_cons (a : Nat) (d : List Nat) (n c : Nat) (hn : utf8Len a = n) (hc : utf8Val a n d = c)
    (h : utf8Char c = some ((a :: d).take n)) : utf8First (a :: d) = some (c, n) := by
  simp only [utf8First, hn, hc, h, if_true]

theorem utf8First_append {c : Nat} {b : List Nat} (h : utf8Char c = some b) (r : List Nat) : utf8First (b ++ r) = some (c, b.length) := by
  have h0 := h
  unfold utf8Char at h
  split at h
  · rename_i h1
    cases h
    exact utf8First_cons c r 1 c (by unfold utf8Len; rw [if_pos h1]) rfl (by simpa using h0)
  split at h
  · rename_i h1 h2
    cases h
    refine utf8First_cons _ _ 2 c ?_ ?_ (by simpa using h0)
    · unfold utf8Len; rw [if_neg (by omega), if_pos (by omega)]
    · show (0xC0 + c / 64 - 0xC0) * 64 + (0x80 + c % 64 - 0x80) = c
      omega
  split at h
  · cases h
  split at h
  · rename_i h1 h2 h3 h4
    cases h
    refine utf8First_cons _ _ 3 c ?_ ?_ (by simpa using h0)
    · unfold utf8Len; rw [if_neg (by omega), if_neg (by omega), if_pos (by omega)]
    · show (0xE0 + c / 4096 - 0xE0) * 4096 + (0x80 + c / 64 % 64 - 0x80) * 64 + (0x80 + c % 64 - 0x80) = c
      omega
  split at h
  · rename_i h1 h2 h3 h4 h5
    cases h
    refine utf8First_cons _ _ 4 c ?_ ?_ (by simpa using h0)
    · unfold utf8Len; rw [if_neg (by omega), if_neg (by omega), if_neg (by omega)]
    · show (0xF0 + c / 262144 - 0xF0) * 262144 + (0x80 + c / 4096 % 64 - 0x80) * 4096 + (0x80 + c / 64 % 64 - 0x80) * 64 + (0x80 + c % 64 - 0x80) = c
      omega
  · cases h

theorem utf8Char_ne_nil {c : Nat} {b : List Nat} (h : utf8Char c = some b) : b ≠ [] := by
  intro hb
  subst hb
  unfold utf8Char at h
  split at h <;> (try split at h) <;> (try split at h) <;> (try split at h) <;> (try split at h) <;> simp at h

theorem utf8Loop_encode (ig : Bool) {t : Txt} {b : List Nat} (h : encodeWith utf8Char t = some b) :
    ∀ fuel, b.length ≤ fuel → utf8Loop ig fuel b = some t := by
  induction t generalizing b with
  | nil =>
    simp only [encodeWith] at h
    cases h
    intro fuel _
    cases fuel <;> rfl
  | cons c t ih =>
    simp only [encodeWith] at h
    split at h
    · rename_i b1 r hb hr
      cases h
      intro fuel hf
      have hn := utf8Char_ne_nil hb
      have hl := List.length_pos_iff.2 hn
      rw [List.length_append] at hf
      obtain ⟨fuel, rfl⟩ : ∃ n, fuel = n + 1 := ⟨fuel - 1, by omega⟩
      obtain ⟨x, b2, rfl⟩ := List.exists_cons_of_ne_nil hn
      have hfst := utf8First_append hb r
      simp only [List.cons_append] at hfst ⊢
      simp only [utf8Loop, hfst]
      have : List.drop (x :: b2).length (x :: (b2 ++ r)) = r := by simp
      rw [this, ih hr fuel (by simp only [List.length_cons] at hf hl; omega)]
      rfl
    · cases h

theorem encode8_lt {t : Txt} {b : List Nat} (h : encodeWith utf8Char t = some b) : ∀ x ∈ b, x < 254 := by
  induction t generalizing b with
  | nil => simp only [encodeWith] at h; cases h; simp
  | cons c t ih =>
    simp only [encodeWith] at h
    split at h
    · rename_i b1 r hb hr
      cases h
      intro x hx
      rcases List.mem_append.1 hx with hx | hx
      · exact utf8Char_lt hb x hx
      · exact ih hr x hx
    · cases h

theorem toBytes_length (l : List Nat) : (toBytes l).length = l.length := by simp [toBytes]

theorem utf8_roundTrips : RoundTrips utf8 := by
  intro t d h
  simp only [utf8, Option.map_eq_some_iff] at h
  obtain ⟨b, hb, rfl⟩ := h
  simp only [utf8]
  rw [ofBytes_toBytes (fun x hx => by have := encode8_lt hb x hx; omega), toBytes_length]
  exact utf8Loop_encode false hb _ (Nat.le_refl _)

theorem utf8_encodes {t : Txt} (h : ∀ c ∈ t, Scalar c) : ∃ b, encodeWith utf8Char t = some b := by
  induction t with
  | nil => exact ⟨[], rfl⟩
  | cons c t ih =>
    obtain ⟨b, hb⟩ := ih (fun x hx => h x (by simp [hx]))
    have hc := h c (by simp)
    have : ∃ b1, utf8Char c = some b1 := by
      unfold utf8Char
      unfold Scalar at hc
      split
      · exact ⟨_, rfl⟩
      split
      · exact ⟨_, rfl⟩
      split
      · exfalso; omega
      split
      · exact ⟨_, rfl⟩
      split
      · exact ⟨_, rfl⟩
      · exfalso; omega
    obtain ⟨b1, hb1⟩ := this
    exact ⟨b1 ++ b, by simp [encodeWith, hb1, hb]⟩

/-- Only U+FEFF begins like the byte order mark of UTF-8. -/
theorem utf8Char_bom {c : Nat} {b : List Nat} {r : List Nat} (h : utf8Char c = some b) (hp : [0xEF, 0xBB, 0xBF] <+: b ++ r) : c = 0xFEFF := by
  have h0 := utf8First_append h r
  obtain ⟨s, hs⟩ := hp
  rw [← hs] at h0
  have : utf8First ([0xEF, 0xBB, 0xBF] ++ s) = some (0xFEFF, 3) := utf8First_append (by decide) s
  rw [this] at h0
  simp only [Option.some.injEq, Prod.mk.injEq] at h0
  exact h0.1.symm

theorem utf8_noBom {t : Txt} {d : Bytes} (h : utf8.encode t = some d) (h1 : t.head? ≠ some 0xFEFF) : NoBom d := by
  simp only [utf8, Option.map_eq_some_iff] at h
  obtain ⟨b, hb, rfl⟩ := h
  have hlt := encode8_lt hb
  have key : ∀ e : Enc, e.bom <+: toBytes b → (e.bom.map UInt8.toNat) <+: b := by
    intro e he
    obtain ⟨s, hs⟩ := he
    have h2 : ofBytes (toBytes b) = b := ofBytes_toBytes (fun x hx => by have := hlt x hx; omega)
    refine ⟨ofBytes s, ?_⟩
    rw [← h2, ← hs]
    simp [ofBytes]
  intro e he
  have hk := key e he
  have hmem : ∀ x ∈ e.bom.map UInt8.toNat, x < 254 := fun x hx => hlt x (hk.subset hx)
  cases e with
  | utf8 =>
    cases t with
    | nil => simp only [encodeWith] at hb; cases hb; simp [Enc.bom] at hk
    | cons c t =>
      simp only [encodeWith] at hb
      split at hb
      · rename_i b1 r hb1 hr
        cases hb
        have : [0xEF, 0xBB, 0xBF] <+: b1 ++ r := by simpa [Enc.bom] using hk
        have := utf8Char_bom hb1 this
        subst this
        simp at h1
      · cases hb
  | utf16le => simp [Enc.bom] at hmem
  | utf16be => simp [Enc.bom] at hmem
  | utf32le => simp [Enc.bom] at hmem
  | utf32be => simp [Enc.bom] at hmem

/-! ### UTF-16 -/

theorem bytesUnits_unitBytes (l : List Nat) : bytesUnits (unitBytes l) = some l := by
  induction l with
  | nil => rfl
  | cons a l ih =>
    have e : a % 256 + 256 * (a / 256) = a := by omega
    simp only [unitBytes, List.flatMap_cons] at ih ⊢
    simp only [List.cons_append, List.nil_append, bytesUnits, ih, Option.map_some, e]

theorem utf16Char_lt {c : Nat} {b : List Nat} (h : utf16Char c = some b) : ∀ x ∈ b, x < 65536 := by
  unfold utf16Char at h
  intro x hx
  split at h
  · cases h
  split at h
  · cases h; simp at hx; omega
  split at h
  · cases h; simp at hx; omega
  · cases h

theorem encode16_lt {t : Txt} {b : List Nat} (h : encodeWith utf16Char t = some b) : ∀ x ∈ b, x < 65536 := by
  induction t generalizing b with
  | nil => simp only [encodeWith] at h; cases h; simp
  | cons c t ih =>
    simp only [encodeWith] at h
    split at h
    · rename_i b1 r hb hr
      cases h
      intro x hx
      rcases List.mem_append.1 hx with hx | hx
      · exact utf16Char_lt hb x hx
      · exact ih hr x hx
    · cases h

theorem utf16Loop_encode (ig : Bool) {t : Txt} {b : List Nat} (h : encodeWith utf16Char t = some b) :
    ∀ fuel, b.length ≤ fuel → utf16Loop ig fuel b = some t := by
  induction t generalizing b with
  | nil =>
    simp only [encodeWith] at h
    cases h
    intro fuel _
    cases fuel <;> rfl
  | cons c t ih =>
    simp only [encodeWith] at h
    split at h
    · rename_i b1 r hb hr
      cases h
      intro fuel hf
      unfold utf16Char at hb
      split at hb
      · cases hb
      split at hb
      · cases hb
        rename_i h1 h2
        simp only [List.cons_append, List.nil_append, List.length_cons] at hf ⊢
        obtain ⟨fuel, rfl⟩ : ∃ n, fuel = n + 1 := ⟨fuel - 1, by omega⟩
        have : c < 0xD800 ∨ 0xE000 ≤ c := by omega
        simp only [utf16Loop, this, if_true]
        rw [ih hr fuel (by omega)]
        rfl
      split at hb
      · cases hb
        rename_i h1 h2 h3
        simp only [List.cons_append, List.nil_append, List.length_cons] at hf ⊢
        obtain ⟨fuel, rfl⟩ : ∃ n, fuel = n + 1 := ⟨fuel - 1, by omega⟩
        have e1 : ¬ (0xD800 + (c - 0x10000) / 1024 < 0xD800 ∨ 0xE000 ≤ 0xD800 + (c - 0x10000) / 1024) := by omega
        have e2 : 0xD800 + (c - 0x10000) / 1024 < 0xDC00 ∧ 0xDC00 ≤ 0xDC00 + (c - 0x10000) % 1024 ∧ 0xDC00 + (c - 0x10000) % 1024 < 0xE000 := by omega
        have e3 : 0x10000 + (0xD800 + (c - 0x10000) / 1024 - 0xD800) * 1024 + (0xDC00 + (c - 0x10000) % 1024 - 0xDC00) = c := by omega
        simp only [utf16Loop, e1, if_false, e2, e3, and_self, if_true]
        rw [ih hr fuel (by omega)]
        rfl
      · cases hb
    · cases h

theorem utf16le_roundTrips : RoundTrips utf16le := by
  intro t d h
  simp only [utf16le, Option.map_eq_some_iff] at h
  obtain ⟨b, hb, rfl⟩ := h
  have hl : ∀ x ∈ unitBytes b, x < 256 := by
    intro x hx
    simp only [unitBytes, List.mem_flatMap] at hx
    obtain ⟨u, hu, hx⟩ := hx
    have := encode16_lt hb u hu
    simp at hx
    omega
  simp only [utf16le]
  rw [ofBytes_toBytes hl, bytesUnits_unitBytes]
  exact utf16Loop_encode false hb _ (Nat.le_refl _)

theorem codecs_roundTrips {n : Name} {c : Codec} (h : codecs n = some c) : RoundTrips c := by
  unfold codecs at h
  split at h
  · cases h; exact utf8_roundTrips
  split at h
  · cases h; exact latin1_roundTrips
  split at h
  · cases h; exact utf16le_roundTrips
  split at h
  · cases h; exact latin1_roundTrips
  · cases h

/-! ### Newlines -/

theorem universal_id {t : Txt} (h : 13 ∉ t) : universal false t = t := by
  induction t with
  | nil => rfl
  | cons c t ih =>
    have hc : c ≠ 13 := fun h' => h (by simp [h'])
    have := ih (fun h' => h (by simp [h']))
    simp [universal, hc, this]

theorem universal_crlf {t : Txt} (h : 13 ∉ t) : universal false (t.flatMap (fun c => if c = 10 then [13, 10] else [c])) = t := by
  induction t with
  | nil => rfl
  | cons c t ih =>
    have hc : c ≠ 13 := fun h' => h (by simp [h'])
    have := ih (fun h' => h (by simp [h']))
    by_cases h10 : c = 10
    · subst h10; simp [universal, this]
    · simp [universal, hc, this, h10]

theorem universal_cr {t : Txt} (h : 13 ∉ t) : ∀ b,
    universal b (t.flatMap (fun c => if c = 10 then [13] else [c])) = t := by
  induction t with
  | nil => intros; rfl
  | cons c t ih =>
    intro b
    have hc : c ≠ 13 := fun h' => h (by simp [h'])
    have := fun b => ih (fun h' => h (by simp [h'])) b
    by_cases h10 : c = 10
    · subst h10; simp [universal, this]
    · simp [universal, hc, this, h10]

theorem flatMap_self (t : Txt) : t.flatMap (fun c => if c = 10 then [10] else [c]) = t := by
  induction t with
  | nil => rfl
  | cons c t ih => simp only [List.flatMap_cons, ih]; split <;> simp_all

theorem newlines {sep : List Nat} {nl : Newline} {t : Txt} (h : NewlineSafe sep nl t) : readNl nl (writeNl sep nl t) = t := by
  cases nl with
  | none =>
    obtain ⟨h1, h2⟩ := h
    simp only [readNl, writeNl]
    rcases h1 with rfl | rfl | rfl
    · rw [flatMap_self, universal_id h2]
    · exact universal_crlf h2
    · exact universal_cr h2 false
  | some nl =>
    rcases h with rfl | rfl
    · rfl
    · simp only [readNl, writeNl, flatMap_self]

end Parce.DocIO

import Verif.Lemmas.NumbersAny
import Verif.Props.Longest
import Verif.Props.Csv
/-!
# C82–C84: English numbers
-/
namespace Parce.Num
variable {u : Uni} {t : List Char}

/-! ## C82: a number is read -/

/-- **C82.** The model of `words` takes the same match as the expression that `words2regexp` makes (C77): where a match
    may end, the longest of the words. The characters of the text are compared as IGNORECASE does. -/
theorem C82_words [Rx.TupleOrder] (ws : List Word) (hne : ws ≠ []) (a : Pat Char) (ha : Rx.Reads .alt (Rx.words2regexp ws) a) (P : Nat → Prop)
    (p q : Nat) (c : Caps) (hp : p ≤ t.length) : (words u ws).First t P p q c ↔ a.First (t.map u.fold) P p q c := by
  rw [words_first hp, Rx.C77_longest ws hne a ha (t.map u.fold) P p q c (by rw [List.length_map]; exact hp)]

theorem spell_with {S : Nat → List Kind} {T : List Kind → Nat → Prop} {h : Kind} {f B : Nat} (hS : ∀ n, n < B → T (S n) n) (hf : 0 < f) (hB : f ≤ B) (n : Nat)
    (hn : n < f * B) : With T h f (spellWith S h f n) n := by
  have hq : n / f < B := Nat.div_lt_of_lt_mul hn
  have hm : n % f < B := Nat.lt_of_lt_of_le (Nat.mod_lt n hf) hB
  have hd := Nat.div_add_mod n f
  unfold spellWith
  split
  · exact .plain (hS n (by omega))
  · split
    · next h0 =>
      have := With.times (h := h) (f := f) (hS _ hq)
      rw [h0, Nat.add_zero] at hd
      rwa [hd] at this
    · have := With.timesAnd (h := h) (f := f) (hS _ hq) (hS _ hm)
      rwa [hd] at this

theorem spell99_ok (n : Nat) (hn : n < 100) : To99 (spell99 n) n := by
  unfold spell99
  split
  · split
    · next h => subst h; exact .teen 0
    · exact .unit n
  · split
    · exact .teen n
    · split
      · exact .tens n
      · have := To99.both (n / 10 * 10) (n % 10)
        have h2 : n / 10 * 10 + n % 10 = n := by omega
        rwa [h2] at this

/-- **C82.** The words of a number stand for that number. -/
theorem C82_spelled (n : Nat) (hn : n < 10 ^ 12) : Phrase (spell n) n :=
  spell_with (B := 1000000) (fun _ h1 => spell_with (B := 1000) (fun _ h2 => spell_with (B := 100) spell99_ok (by omega) (by omega) _ (by omega))
    (by omega) (by omega) _ (by omega)) (by omega) (by omega) n (by omega)

/-- **C82.** The English lexicons come to an end with such texts. -/
theorem C82_finishes (hu : u.Ascii) (ns : List Nat) (h : Texts u Clear ns t) : ∃ n, RB.Finished (lang u (english u)) .root t n := by
  obtain ⟨m, P, h1, h2, _⟩ := gm_texts (t := t) hu h (p := 0) (m := ⟨[], []⟩) (d := []) (Nat.zero_le _) rfl
    ⟨List.Pairwise.nil, by simp, by simp⟩ ⟨rfl, fun _ => rfl⟩ (by simp)
  obtain ⟨k, evs, kids, h4, _⟩ := gm_finish (h1.mono (Q := (· = [])) (by rintro c rfl e he; cases he) (fun _ h => h)) h2 no_more
  exact ⟨k, by unfold RB.Finished; rw [h4]; rfl⟩

theorem env_meth {g : Tongue} (l : NL) : (env u g).meth l ≠ none := by simp [TrEnv.meth, env]

/-- What the transform gives when all is read. -/
theorem gm_value {g : Tongue} {m : M} {P : Circ → Prop} (h : GM u g t 0 ⟨[], []⟩ (· = []) t.length m P) (hw : Wf m.fs)
    (he : ∀ l, rxMatch ((rules u g l).map (·.pat)) t t.length = none) (n : Nat) (hn : RB.Finished (lang u g) .root t n) :
    transformText (env u g) (lang u g) .root t 0 n = .ok (some (.list m.close)) := by
  obtain ⟨k, evs, kids, h1, h2, h3⟩ := gm_finish h hw he
  unfold transformText
  rw [C47_events_partial (env u g) (Or.inr env_meth) .root _ (C18_root_kept (lang u g) t [.root] (by simp) 0 n).1
    (C22_lexemes_ne (lang u g) t [.root] 0 n) (Or.inr (fun l _ => env_meth l))]
  have h4 : RB.Ends (lang u g) t n (LState.start [.root] 0) (lexRun (lang u g) t n (LState.start [.root] 0)).1 := by
    unfold RB.Ends
    unfold RB.Finished at hn
    exact Prod.ext rfl (Option.isNone_iff_eq_none.1 hn)
  rw [h4.unique h1, h2]
  show Except.ok (some (rootOf (itmL (env u g) false kids))) = _
  rw [rootOf, h3]

/-- **C83** (partial: a unit that begins the next word must not be taken for a unit of the tens before it, see `C83_violated`).
    Of a text with numbers, and other characters but no other words between them, the value is the list of the numbers. -/
theorem C83_texts_partial (hu : u.Ascii) (ns : List Nat) (t : List Char) (h : Texts u Clear ns t) (n : Nat)
    (hn : RB.Finished (lang u (english u)) .root t n) :
    transformText (env u (english u)) (lang u (english u)) .root t 0 n = .ok (some (.list ns)) := by
  obtain ⟨m, P, h1, h2, h3⟩ := gm_texts (t := t) hu h (p := 0) (m := ⟨[], []⟩) (d := []) (Nat.zero_le _) rfl
    ⟨List.Pairwise.nil, by simp, by simp⟩ ⟨rfl, fun _ => rfl⟩ (by simp)
  have := gm_value (h1.mono (Q := (· = [])) (by rintro c rfl e he; cases he) (fun _ h => h)) h2 no_more n hn
  rw [this, h3, List.nil_append]

theorem texts_phrase {ks : List Kind} {n : Nat} (h : Phrase ks n) (ht : Written u ks t) : Texts u Clear [n] t := by
  have := Texts.last (u := u) (R := Clear) (s := []) (by simp) (Numbers.cons (R := Clear) h .nil (by simp)) (by rw [List.append_nil]; exact ht)
  exact this

/-- **C82.** The text of a number has the list with that number as value: for all words that stand for the number, in upper or
    lower case, with blanks or hyphens between them, or nothing. -/
theorem C82_phrase (hu : u.Ascii) (ks : List Kind) (n : Nat) (h : Phrase ks n) (t : List Char) (ht : Written u ks t) (m : Nat)
    (hm : RB.Finished (lang u (english u)) .root t m) :
    transformText (env u (english u)) (lang u (english u)) .root t 0 m = .ok (some (.list [n])) :=
  C83_texts_partial hu [n] t (texts_phrase h ht) m hm

/-- **C82.** In particular for the usual words of all numbers below 10¹². -/
theorem C82_number (hu : u.Ascii) (n : Nat) (hn : n < 10 ^ 12) (t : List Char) (ht : Written u (spell n) t) (m : Nat)
    (hm : RB.Finished (lang u (english u)) .root t m) :
    transformText (env u (english u)) (lang u (english u)) .root t 0 m = .ok (some (.list [n])) :=
  C82_phrase hu (spell n) n (C82_spelled n hn) t ht m hm

/-- The words that the numbers are written with. -/
def Known (k : Kind) : Prop := ∃ w, (w, k) ∈ enWords

theorem known_check : (List.range 100).all (fun n => (spell99 n).all (fun k => enWords.any (·.2 == k))) = true := by decide +kernel

theorem known_with {S : Nat → List Kind} {h : Kind} {f B : Nat} (hS : ∀ n, n < B → ∀ k ∈ S n, Known k) (hh : Known h) (hf : 0 < f) (hB : f ≤ B) (n : Nat)
    (hn : n < f * B) : ∀ k ∈ spellWith S h f n, Known k := by
  have hq : n / f < B := Nat.div_lt_of_lt_mul hn
  have hm : n % f < B := Nat.lt_of_lt_of_le (Nat.mod_lt n hf) hB
  intro k hk
  unfold spellWith at hk
  split at hk
  · exact hS n (by omega) k hk
  · split at hk
    · rcases List.mem_append.1 hk with hk | hk
      · exact hS _ hq k hk
      · simp only [List.mem_cons, List.not_mem_nil, or_false] at hk
        exact hk ▸ hh
    · rcases List.mem_append.1 hk with hk | hk
      · exact hS _ hq k hk
      · rcases List.mem_cons.1 hk with rfl | hk
        · exact hh
        · exact hS _ hm k hk

/-- **C82.** All numbers below 10¹² can be written. -/
theorem C82_writable (n : Nat) (hn : n < 10 ^ 12) : ∃ t, Written u (spell n) t := by
  have h99 : ∀ n, n < 100 → ∀ k ∈ spell99 n, Known k := by
    intro n hn k hk
    have := List.all_eq_true.1 (List.all_eq_true.1 known_check n (List.mem_range.2 hn)) k hk
    obtain ⟨⟨w, k'⟩, h1, h2⟩ := List.any_eq_true.1 this
    have h2 : k' = k := by simpa using h2
    exact ⟨w, h2 ▸ h1⟩
  have hk : ∀ k ∈ spell n, Known k :=
    known_with (B := 1000000) (fun _ h1 => known_with (B := 1000) (fun _ h2 => known_with (B := 100) h99 ⟨"hundred", by decide⟩ (by omega) (by omega) _ (by omega))
      ⟨"thousand", by decide⟩ (by omega) (by omega) _ (by omega)) ⟨"million", by decide⟩ (by omega) (by omega) n (by omega)
  generalize spell n = ks at hk
  induction ks with
  | nil => exact ⟨[], .nil⟩
  | cons k ks ih =>
    obtain ⟨w, hw⟩ := hk k (List.mem_cons_self ..)
    obtain ⟨t, ht⟩ := ih (fun x hx => hk x (List.mem_cons_of_mem _ hx))
    have hlow := List.all_eq_true.1 check_alpha w.toList (word_mem hw)
    simp only [Bool.and_eq_true, List.all_eq_true, beq_iff_eq] at hlow
    refine ⟨_, .word (v := w.toList) (s := []) hw ?_ (by simp) ht⟩
    conv => rhs; rw [← List.map_id w.toList]
    exact List.map_congr_left (fun c hc => (hlow.2 c hc).2)

/-- **C82.** Two numbers that are written in the same way are equal. -/
theorem C82_unique (hu : u.Ascii) (n m : Nat) (hn : n < 10 ^ 12) (hm : m < 10 ^ 12) (t : List Char) (h1 : Written u (spell n) t)
    (h2 : Written u (spell m) t) : n = m := by
  obtain ⟨k, hk⟩ := C82_finishes hu [n] (texts_phrase (C82_spelled n hn) h1)
  have h3 := C82_number hu n hn t h1 k hk
  rw [C82_number hu m hm t h2 k hk] at h3
  simp only [Except.ok.injEq, Option.some.injEq, NV.list.injEq, List.cons.injEq, and_true] at h3
  exact h3.symm

/-! ## C84: the result is a list -/

/-- **C84** (partial: for the letters that the words have, `re` and `lower` must agree, see `C84_violated`). The English lexicons
    come to an end with any text. -/
theorem C84_finishes_partial (he : ∀ c : Char, (u.fold c).isAlpha = true → u.low c = [u.fold c]) (t : List Char) :
    ∃ n, RB.Finished (lang u (english u)) .root t n := by
  obtain ⟨m, P, h1, h2⟩ := gm_any he t
  obtain ⟨k, evs, kids, h4, _⟩ := gm_finish h1 h2 no_more
  exact ⟨k, by unfold RB.Finished; rw [h4]; rfl⟩

/-- **C84** (partial, as above). The value of any text is a list of numbers. -/
theorem C84_list_partial (he : ∀ c : Char, (u.fold c).isAlpha = true → u.low c = [u.fold c]) (t : List Char) (n : Nat)
    (hn : RB.Finished (lang u (english u)) .root t n) :
    ∃ ns, transformText (env u (english u)) (lang u (english u)) .root t 0 n = .ok (some (.list ns)) := by
  obtain ⟨m, P, h1, h2⟩ := gm_any he t
  exact ⟨_, gm_value h1 h2 no_more n hn⟩

/-! ## Violations -/

/-- ASCII, where the long s is the same as an s for `re`, but not for `lower`. -/
def ascii : Uni := ⟨fun c => c.isWhitespace, fun c => if c = 'ſ' then 's' else c.toLower, fun c => [c.toLower]⟩

theorem ascii_ok : ascii.Ascii where
  fold c h := by
    have : c ≠ 'ſ' := by rintro rfl; revert h; decide
    simp [ascii, this]
  low c h := rfl
  space c h := by
    cases hs : ascii.space c with
    | false => rfl
    | true =>
      simp only [ascii, Char.isWhitespace, Bool.or_eq_true, decide_eq_true_eq] at hs
      rcases hs with (((rfl | rfl) | rfl) | rfl) <;> revert h <;> decide
  sep c h := by
    rcases h with hs | rfl
    · simp only [ascii, Char.isWhitespace, Bool.or_eq_true, decide_eq_true_eq] at hs
      rcases hs with (((rfl | rfl) | rfl) | rfl) <;> decide
    · decide

/-- The value of an English text. -/
def englishValue (s : String) (n : Nat) : Option (Option NV) :=
  (transformText (env ascii (english ascii)) (lang ascii (english ascii)) .root s.toList 0 n).toOption

/-- **C83** is violated: `twenty seventeen` is 27. -/
theorem C83_violated : Texts ascii Apart [20, 17] "twenty seventeen".toList ∧
    RB.Finished (lang ascii (english ascii)) .root "twenty seventeen".toList 200 ∧ englishValue "twenty seventeen" 200 = some (some (.list [27])) := by
  refine ⟨?_, by unfold RB.Finished; decide +kernel, by decide +kernel⟩
  exact .last (s := []) (ks := [.tens 20, .teen 17]) (by simp)
    (.cons (ks := [.tens 20]) (.plain (.plain (.plain (.tens 20)))) (.cons (ks := [.teen 17]) (.plain (.plain (.plain (.teen 17)))) .nil (by simp))
      (by simp [Apart]))
    (.word (w := "twenty") (v := "twenty".toList) (s := [' ']) (t := "seventeen".toList) (by decide) (by decide) (by simp [Sep, ascii])
      (.word (w := "seventeen") (v := "seventeen".toList) (s := []) (t := []) (by decide) (by decide) (by simp) .nil))

/-- **C84** is violated: a long s makes the transform fail. -/
theorem C84_violated : RB.Finished (lang ascii (english ascii)) .root "ſix".toList 30 ∧ englishValue "ſix" 30 = some (some .error) := by
  refine ⟨by unfold RB.Finished; decide +kernel, by decide +kernel⟩

/-! ## Examples -/

/-- ASCII only. -/
def plainAscii : Uni := ⟨fun c => c.isWhitespace, Char.toLower, fun c => [c.toLower]⟩

example : ∀ c : Char, (plainAscii.fold c).isAlpha = true → plainAscii.low c = [plainAscii.fold c] := fun _ _ => rfl

example : spell 1000000 = [.unit 1, .million] := by decide
example : spell 342017 = [.unit 3, .hundred, .tens 40, .unit 2, .thousand, .teen 17] := by decide

example (t : List Char) (h : t = "Forty-TWO thousandseventeen".toList) : Written ascii (spell 42017) t := by
  subst h
  exact .word (w := "forty") (v := "Forty".toList) (s := ['-']) (t := "TWO thousandseventeen".toList) (by decide) (by decide) (by simp [Sep])
    (.word (w := "two") (v := "TWO".toList) (s := [' ']) (t := "thousandseventeen".toList) (by decide) (by decide) (by simp [Sep, ascii])
      (.word (w := "thousand") (v := "thousand".toList) (s := []) (t := "seventeen".toList) (by decide) (by decide) (by simp)
        (.word (w := "seventeen") (v := "seventeen".toList) (s := []) (t := []) (by decide) (by decide) (by simp) .nil)))

/-- Twelve hundred is a number, too. -/
example : Phrase [.teen 12, .hundred] 1200 := .plain (.plain (.times (S := To99) (f := 100) (a := 12) (.teen 12)))

/-- Two numbers, a comma, and another one. -/
example : Texts ascii Clear [19, 84, 5] "nineteen eighty-four, Five".toList := by
  refine .more (ns := [19, 84]) (ms := [5]) (s := []) (t := "nineteen eighty-four".toList) (r := " Five".toList) (c := ',') (ks := [.teen 19, .tens 80, .unit 4])
    (by simp) ?_ ?_ ?_ ?_
  · refine .cons (ks := [.teen 19]) (ls := [.tens 80, .unit 4]) (.plain (.plain (.plain (.teen 19))))
      (.cons (ks := [.tens 80, .unit 4]) (.plain (.plain (.plain (.both 80 4)))) .nil (by simp)) ?_
    intro a ha b hb
    simp only [List.getLast?_singleton, Option.mem_def, Option.some.injEq, List.head?_cons] at ha hb
    subst ha hb
    exact ⟨trivial, fun ⟨v, hv⟩ => by cases hv⟩
  · exact .word (w := "nineteen") (v := "nineteen".toList) (s := [' ']) (t := "eighty-four".toList) (by decide) (by decide) (by simp [Sep, ascii])
      (.word (w := "eighty") (v := "eighty".toList) (s := ['-']) (t := "four".toList) (by decide) (by decide) (by simp [Sep])
        (.word (w := "four") (v := "four".toList) (s := []) (t := []) (by decide) (by decide) (by simp) .nil))
  · exact ⟨by simp [Sep, ascii], by decide⟩
  · exact .last (s := [' ']) (t := "Five".toList) (ks := [.unit 5]) (by simp [Sep, ascii])
      (.cons (ks := [.unit 5]) (.plain (.plain (.plain (.unit 5)))) .nil (by simp))
      (.word (w := "five") (v := "Five".toList) (s := []) (t := []) (by decide) (by decide) (by simp) .nil)

example : englishValue "nineteen eighty-four, Five" 200 = some (some (.list [19, 84, 5])) := by decide +kernel

end Parce.Num

import Verif.Lemmas.IniLoop
/-!
# C86: INI texts
-/
namespace Parce.Ini
variable {word : Nat → Bool} {hex : List Nat → Option Nat}

/-- **C86.** Lexing any text with the INI lexicons ends (if a line end is not a word character). -/
theorem C86_finishes (hw : word 10 = false) (t : List Nat) : ∃ n, RB.Finished (lang word) .root t n := finishes hw t

/-- **C86** (partial: the characters `:`, `=` and `[` must be escaped in keys and values, letters are not escaped, and names of sections
    do not start with a backslash; see the theorems below). Transforming the tree of an INI file gives the dictionary of its sections. -/
theorem C86_value_partial (hw : word 10 = false) (hh : HexOk hex) (ls : List Line) (hok : ∀ l ∈ ls, l.ok safe) (n : Nat)
    (hn : RB.Finished (lang word) .root (fileText ls) n) :
    ∃ cs, buildTree (lang word) .root (fileText ls) 0 n = .ctx .root cs ∧
      ∀ (I : Type) [DecidableEq I] (ident : List Nat → I), Distinct ident (.ctx .root cs) →
        (transformTree (env hex) ident (fun _ => false) (fun _ => none) .root cs).1 = .done (some (meaning ls)) := by
  obtain ⟨cs, h1, h2, _, _⟩ := file_tree hw hh ls hok n hn
  refine ⟨cs, h1, fun I _ ident hd => ?_⟩
  rw [(C48_fresh (env hex) ident (fun _ => none) .root cs hd (fun _ _ _ _ _ _ h => by cases h)).1]
  have hv : (env hex).value (.ctx .root cs) = some (rootOf (itmL (env hex) false cs)) := rfl
  rw [hv]
  rw [root_meaning h2 (lines_ok h2)]

theorem ends_iff (hw : word 10 = false) (hh : HexOk hex) (ls : List Line) (hok : ∀ l ∈ ls, l.ok safe) (n : Nat)
    (hn : RB.Finished (lang word) .root (fileText ls) n) :
    .comment ∈ replayStack [.root] (lexRun (lang word) (fileText ls) n (LState.start [.root] 0)).1 ↔ EndsInComment ls := by
  obtain ⟨cs, h1, _, h3, h4⟩ := file_tree hw hh ls hok n hn
  have hk := (C18_root_kept (lang word) (fileText ls) [.root] (by simp) 0 n).1
  have hlexs := foldl_lexs _ (⟨⟨.root, []⟩, []⟩ : BState Nat IL IA) hk
  rw [← h4]
  show _ ∈ replayStack (BState.lexs (⟨⟨.root, []⟩, []⟩ : BState Nat IL IA)) _ ↔ _
  rw [← hlexs]
  exact stack_end h1 h3 (events_last _ (C22_lexemes_ne (lang word) (fileText ls) [.root] 0 n) _ (Or.inl rfl))

/-- **C86** (partial, as above, and the file must not end in a comment: `C86_comment_violated`). Transforming the text of an INI file gives
    the dictionary of its sections. -/
theorem C86_text_partial (hw : word 10 = false) (hh : HexOk hex) (ls : List Line) (hok : ∀ l ∈ ls, l.ok safe) (hc : ¬ EndsInComment ls) (n : Nat)
    (hn : RB.Finished (lang word) .root (fileText ls) n) :
    transformText (env hex) (lang word) .root (fileText ls) 0 n = .ok (some (meaning ls)) := by
  obtain ⟨cs, h1, h2, _, _⟩ := file_tree hw hh ls hok n hn
  unfold transformText
  rw [C47_events_partial (env hex) (no_raw hex) .root _ (C18_root_kept (lang word) (fileText ls) [.root] (by simp) 0 n).1
    (C22_lexemes_ne (lang word) (fileText ls) [.root] 0 n) (Or.inr (fun l hl hm => by
      rw [meth_none] at hm
      rw [hm] at hl
      exact hc ((ends_iff hw hh ls hok n hn).1 hl)))]
  unfold buildTree at h1
  rw [h1]
  show Except.ok (some (rootOf (itmL (env hex) false cs))) = _
  rw [root_meaning h2 (lines_ok h2)]

/-- **C86** is violated: when the file ends in a comment, transforming its text raises IndexError. -/
theorem C86_comment_violated (hw : word 10 = false) (hh : HexOk hex) (ls : List Line) (hok : ∀ l ∈ ls, l.ok safe) (hc : EndsInComment ls) (n : Nat)
    (hn : RB.Finished (lang word) .root (fileText ls) n) :
    transformText (env hex) (lang word) .root (fileText ls) 0 n = .error .index :=
  C47_events_index (env hex) (no_raw hex) .root _ (C18_root_kept (lang word) (fileText ls) [.root] (by simp) 0 n).1
    (C22_lexemes_ne (lang word) (fileText ls) [.root] 0 n) (by simp [TrEnv.meth, env, method]) .comment
    ((ends_iff hw hh ls hok n hn).2 hc) (meth_none.2 rfl)

/-! ### Any string can be written -/

/-- A hexadecimal digit. -/
def hexDigit (n : Nat) : Nat := if n < 10 then 48 + n else 87 + n

/-- A character, escaped if it has a meaning or is blank. -/
def encode (c : Nat) : Piece :=
  if c ∈ safe.bad ∨ c = 32 ∨ c = 9 then .hex 120 48 48 (hexDigit (c / 16)) (hexDigit (c % 16)) else .char c

theorem encode_ok (c : Nat) : (encode c).ok safe ∧ (encode c).isBlank = false ∧ (encode c).value = c := by
  unfold encode
  split
  · next h =>
    have : ∀ c ∈ [10, 92, 59, 35, 58, 61, 91, 32, 9], (48 ≤ hexDigit (c / 16) ∧ hexDigit (c / 16) ≤ 57) ∧ IsHexDigit (hexDigit (c % 16)) ∧
        (Piece.hex 120 48 48 (hexDigit (c / 16)) (hexDigit (c % 16))).value = c := by
      unfold IsHexDigit
      decide
    obtain ⟨h1, h2, h3⟩ := this c (by simp only [safe, List.mem_cons, List.not_mem_nil, or_false] at h ⊢; omega)
    exact ⟨⟨Or.inl rfl, Or.inl (by decide), Or.inl (by decide), Or.inl h1, h2⟩, rfl, h3⟩
  · next h =>
    simp only [not_or] at h
    exact ⟨h.1, by simp [Piece.isBlank, h.2.1, h.2.2], rfl⟩

/-- **C86.** Any string can be the value of a key, or a key. -/
theorem C86_writable (s : List Nat) : (∀ p ∈ s.map encode, p.ok safe) ∧ stripped (s.map encode) = s ∧
    (s ≠ [] → (Content.assign (s.map encode) (s.map encode)).ok safe) := by
  have h0 : ∀ p ∈ s.map encode, p.ok safe := by
    intro p hp
    obtain ⟨c, _, rfl⟩ := List.mem_map.1 hp
    exact (encode_ok c).1
  refine ⟨h0, ?_, fun hs => ⟨by simpa using hs, ⟨fun p hp => ⟨h0 p hp, ?_⟩, ?_⟩, h0⟩⟩
  · have hd : ∀ l : List Nat, (l.map encode).dropWhile Piece.isBlank = l.map encode := by
      intro l
      cases l with
      | nil => rfl
      | cons c l => rw [List.map_cons, List.dropWhile_cons, (encode_ok c).2.1]; rfl
    unfold stripped
    rw [hd, ← List.map_reverse, hd, ← List.map_reverse, List.reverse_reverse, List.map_map]
    exact (List.map_congr_left (fun c _ => (encode_ok c).2.2)).trans (List.map_id' s)
  · intro h
    have := h0 p hp
    rw [h] at this
    exact this (by simp [safe])
  · intro h
    have := h0 _ (List.mem_of_mem_head? h)
    exact this (by simp [safe])

/-! ### Examples -/

/-- `\w` for ASCII. -/
def asciiWord (c : Nat) : Bool := (48 ≤ c && c ≤ 57) || (65 ≤ c && c ≤ 90) || (97 ≤ c && c ≤ 122) || c == 95

/-- `chr(int(text, 16))` for four digits. -/
def fourHex : List Nat → Option Nat
  | [a, b, c, d] => some (Piece.hex 120 a b c d).value
  | _ => none

theorem fourHex_ok : HexOk fourHex := fun _ _ _ _ _ _ _ _ => rfl

def chars (s : String) : List Piece := (str s).map .char

/-- A file with two sections, an escape, and a comment. -/
def sample : List Line :=
  [⟨.assign (chars "a ") (chars " b" ++ [.esc 59] ++ chars "c "), some (59, str " TODO")⟩, ⟨.head (str " x ") (chars " "), none⟩,
   ⟨.assign (chars "k") [], none⟩, ⟨.idle [], some (35, str "x")⟩, ⟨.assign (chars "k") (chars " " ++ [.hex 120 48 48 50 48]), none⟩, ⟨.idle [], none⟩]

theorem sample_ok : ∀ l ∈ sample, l.ok safe := by
  have hk : ∀ s : String, ((str s).all fun c => decide (c ∉ safe.bad)) = true → ∀ p ∈ chars s, p.ok safe := by
    intro s h p hp
    obtain ⟨c, hc, rfl⟩ := List.mem_map.1 hp
    exact of_decide_eq_true (p := c ∉ _) (List.all_eq_true.1 h c hc)
  intro l hl
  simp only [sample, List.mem_cons, List.not_mem_nil, or_false] at hl
  rcases hl with rfl | rfl | rfl | rfl | rfl | rfl
  · refine ⟨⟨by decide, ⟨fun p hp => ⟨hk "a " (by decide) p hp, ?_⟩, by decide⟩, fun p hp => ?_⟩, fun c w h => ?_⟩
    · revert p; decide
    · simp only [List.mem_append, List.mem_singleton] at hp
      rcases hp with (hp | rfl) | hp
      · exact hk " b" (by decide) p hp
      · show 59 ∈ safe.esc; decide
      · exact hk "c " (by decide) p hp
    · cases h; exact ⟨Or.inl rfl, by decide⟩
  · exact ⟨⟨by decide, by decide, by decide⟩, fun c w h => by cases h⟩
  · refine ⟨⟨by decide, ⟨fun p hp => ⟨hk "k" (by decide) p hp, ?_⟩, by decide⟩, by simp⟩, fun c w h => by cases h⟩
    revert p; decide
  · exact ⟨⟨by simp, by simp⟩, fun c w h => by cases h; exact ⟨Or.inr rfl, by decide⟩⟩
  · refine ⟨⟨by decide, ⟨fun p hp => ⟨hk "k" (by decide) p hp, ?_⟩, by decide⟩, fun p hp => ?_⟩, fun c w h => by cases h⟩
    · revert p; decide
    · simp only [List.mem_append, List.mem_singleton] at hp
      rcases hp with hp | rfl
      · exact hk " " (by decide) p hp
      · exact ⟨Or.inl rfl, Or.inl (by decide), Or.inl (by decide), Or.inl (by decide), Or.inl (by decide)⟩
  · exact ⟨⟨by simp, by simp⟩, fun c w h => by cases h⟩

example : asciiWord 10 = false ∧ HexOk fourHex ∧ (∀ l ∈ sample, l.ok safe) ∧ fileText sample = str "a = b\\;c ; TODO\n[ x ] \nk=\n#x\nk= \\x0020\n" ∧
    meaning sample = .dict [(none, [(str "a", some (str "b;c"))]), (some (str "x"), [(str "k", some (str " "))])] :=
  ⟨by decide, fourHex_ok, sample_ok, by decide, by decide⟩

example : ¬ EndsInComment sample := by
  rintro ⟨l, c, w, h1, h2, _⟩
  have : (sample.filter (·.text ≠ [])).getLast? = some ⟨.assign (chars "k") (chars " " ++ [.hex 120 48 48 50 48]), none⟩ := by decide
  rw [this] at h1
  cases h1
  cases h2

example : RB.Finished (lang asciiWord) .root (str "k= \\x0020") 9 ∧
    transformText (env fourHex) (lang asciiWord) .root (str "k= \\x0020") 0 9 = .ok (some (.dict [(none, [(str "k", some (str " "))])])) :=
  ⟨by unfold RB.Finished; decide +kernel, rfl⟩

/-- A file that ends in a comment. -/
example : EndsInComment [⟨.idle [], some (35, str "x")⟩, ⟨.idle [], none⟩] ∧ fileText [⟨.idle [], some (35, str "x")⟩, ⟨.idle [], none⟩] = str "#x\n" ∧
    RB.Finished (lang asciiWord) .root (str "#x\n") 9 ∧
    (transformText (env fourHex) (lang asciiWord) .root (str "#x\n") 0 9).toOption = none :=
  ⟨⟨_, 35, str "x", rfl, rfl, by decide⟩, by decide, by unfold RB.Finished; decide +kernel, rfl⟩

/-! ### What the restrictions are needed for -/

theorem chars_ok {s : String} (h : ((str s).all fun c => decide (c ∉ full.bad)) = true) : ∀ p ∈ chars s, p.ok full := by
  intro p hp
  obtain ⟨c, hc, rfl⟩ := List.mem_map.1 hp
  exact of_decide_eq_true (p := c ∉ _) (List.all_eq_true.1 h c hc)

/-- **C86** is violated: a value ends at a colon. -/
theorem C86_colon_violated : (Line.mk (.assign (chars "u") (chars "http://x")) none).ok full ∧
    fileText [⟨.assign (chars "u") (chars "http://x"), none⟩] = str "u=http://x" ∧
    meaning [⟨.assign (chars "u") (chars "http://x"), none⟩] = .dict [(none, [(str "u", some (str "http://x"))])] ∧
    RB.Finished (lang asciiWord) .root (str "u=http://x") 20 ∧
    transformText (env fourHex) (lang asciiWord) .root (str "u=http://x") 0 20 = .ok (some (.dict [(none, [(str "u", some (str "http"))])])) := by
  refine ⟨⟨⟨by decide, ⟨fun p hp => ⟨chars_ok (s := "u") (by decide) p hp, ?_⟩, by decide⟩, chars_ok (by decide)⟩, fun c w h => by cases h⟩,
    by decide, by decide, by unfold RB.Finished; decide +kernel, rfl⟩
  revert p; decide

/-- **C86** is violated: of a key with a colon only the last part is used. -/
theorem C86_key_violated : (Line.mk (.assign (chars "a:b") (chars "c")) none).ok full ∧
    fileText [⟨.assign (chars "a:b") (chars "c"), none⟩] = str "a:b=c" ∧
    meaning [⟨.assign (chars "a:b") (chars "c"), none⟩] = .dict [(none, [(str "a:b", some (str "c"))])] ∧
    RB.Finished (lang asciiWord) .root (str "a:b=c") 20 ∧
    transformText (env fourHex) (lang asciiWord) .root (str "a:b=c") 0 20 = .ok (some (.dict [(none, [(str "b", some (str "c"))])])) := by
  refine ⟨⟨⟨by decide, ⟨fun p hp => ⟨chars_ok (s := "a:b") (by decide) p hp, ?_⟩, by decide⟩, chars_ok (by decide)⟩, fun c w h => by cases h⟩,
    by decide, by decide, by unfold RB.Finished; decide +kernel, rfl⟩
  revert p; decide

/-- **C86** is violated: a value ends at a second `=`. -/
theorem C86_equals_violated : (Line.mk (.assign (chars "a") (chars "b=c")) none).ok full ∧
    fileText [⟨.assign (chars "a") (chars "b=c"), none⟩] = str "a=b=c" ∧
    meaning [⟨.assign (chars "a") (chars "b=c"), none⟩] = .dict [(none, [(str "a", some (str "b=c"))])] ∧
    RB.Finished (lang asciiWord) .root (str "a=b=c") 12 ∧
    transformText (env fourHex) (lang asciiWord) .root (str "a=b=c") 0 12 = .ok (some (.dict [(none, [(str "a", some (str "b"))])])) := by
  refine ⟨⟨⟨by decide, ⟨fun p hp => ⟨chars_ok (s := "a") (by decide) p hp, ?_⟩, by decide⟩, chars_ok (by decide)⟩, fun c w h => by cases h⟩,
    by decide, by decide, by unfold RB.Finished; decide +kernel, rfl⟩
  revert p; decide

/-- **C86** is violated: a bracket in a value starts a section. -/
theorem C86_bracket_violated : (Line.mk (.assign (chars "a") (chars "x[1]")) none).ok full ∧
    fileText [⟨.assign (chars "a") (chars "x[1]"), none⟩] = str "a=x[1]" ∧
    meaning [⟨.assign (chars "a") (chars "x[1]"), none⟩] = .dict [(none, [(str "a", some (str "x[1]"))])] ∧
    RB.Finished (lang asciiWord) .root (str "a=x[1]") 12 ∧
    transformText (env fourHex) (lang asciiWord) .root (str "a=x[1]") 0 12 =
      .ok (some (.dict [(none, [(str "a", some (str "x"))]), (some (str "1"), [])])) := by
  refine ⟨⟨⟨by decide, ⟨fun p hp => ⟨chars_ok (s := "a") (by decide) p hp, ?_⟩, by decide⟩, chars_ok (by decide)⟩, fun c w h => by cases h⟩,
    by decide, by decide, by unfold RB.Finished; decide +kernel, rfl⟩
  revert p; decide

/-- **C86** is violated: an escaped letter stands for the letter. -/
theorem C86_letter_violated : (Line.mk (.assign (chars "a") [.esc 110]) none).ok full ∧
    fileText [⟨.assign (chars "a") [.esc 110], none⟩] = str "a=\\n" ∧
    meaning [⟨.assign (chars "a") [.esc 110], none⟩] = .dict [(none, [(str "a", some [10])])] ∧
    RB.Finished (lang asciiWord) .root (str "a=\\n") 12 ∧
    transformText (env fourHex) (lang asciiWord) .root (str "a=\\n") 0 12 = .ok (some (.dict [(none, [(str "a", some (str "n"))])])) := by
  refine ⟨⟨⟨by decide, ⟨fun p hp => ⟨chars_ok (s := "a") (by decide) p hp, ?_⟩, by decide⟩, fun p hp => ?_⟩, fun c w h => by cases h⟩,
    by decide, by decide, by unfold RB.Finished; decide +kernel, rfl⟩
  · revert p; decide
  · rw [List.mem_singleton.1 hp]
    show 110 ∈ full.esc
    decide

/-- **C86** is violated: of the name of a section that starts with a backslash, only the character after the backslash is left. -/
theorem C86_name_violated : (Line.mk (.head (str "\\foo") []) none).ok full ∧
    fileText [⟨.head (str "\\foo") [], none⟩] = str "[\\foo]" ∧
    meaning [⟨.head (str "\\foo") [], none⟩] = .dict [(some (str "\\foo"), [])] ∧
    RB.Finished (lang asciiWord) .root (str "[\\foo]") 12 ∧
    transformText (env fourHex) (lang asciiWord) .root (str "[\\foo]") 0 12 = .ok (some (.dict [(some (str "f"), [])])) :=
  ⟨⟨⟨by decide, by simp [full], by simp⟩, fun c w h => by cases h⟩, by decide, by decide, by unfold RB.Finished; decide +kernel, rfl⟩

/-- **C86** is violated: an exception is raised, if there is nothing after that backslash. -/
theorem C86_raises_violated : (Line.mk (.head (str "\\") []) none).ok full ∧ fileText [⟨.head (str "\\") [], none⟩] = str "[\\]" ∧
    RB.Finished (lang asciiWord) .root (str "[\\]") 12 ∧
    transformText (env fourHex) (lang asciiWord) .root (str "[\\]") 0 12 = .ok (some .error) :=
  ⟨⟨⟨by decide, by simp [full], by simp⟩, fun c w h => by cases h⟩, by decide, by unfold RB.Finished; decide +kernel, rfl⟩

end Parce.Ini

import Verif.Lemmas.ToStringEscape

/-!
C99: a pattern that is searched as a plain string matches that string only.
-/

namespace Parce.ToS

/-- The code points of a Lean string, for the examples. -/
def pts (s : String) : List Nat := s.toList.map Char.toNat

/-- A lookup that knows one name (for the examples). -/
def oneName (n : List Nat) : Option (List Nat) := if n = pts "BULLET" then some [8226] else none

/-- C99: when `to_string` gives a string, the regular expression is a row of characters and
escapes (as the documentation of Python's `re` has them) that stand for the characters of
that string. -/
theorem C99_sound (lookup : List Nat → Option (List Nat)) (e s : List Nat) (b : Bool)
    (h : toString lookup e = .str s b) : Reads lookup false e s := by
  unfold toString at h
  split at h
  · cases h
  · rename_i hs
    split at h
    · rename_i t ht
      cases h
      exact common_reads lookup (toString_sound lookup _ (Nat.le_refl _) (by simpa using hs) ht)
    · cases h
    · cases h
    · cases h

example : toString oneName (pts "a\\.\\x41\\N{BULLET}\\061\\n") =
    .str (pts "a.A•1\n") false := by decide

/-- C99: a regular expression of that kind matches no other string. -/
theorem C99_unique (lookup : List Nat → Option (List Nat)) (e s s' : List Nat)
    (h : Reads lookup false e s) (h' : Reads lookup false e s') : s = s' :=
  reads_unique lookup h h'

example : Reads oneName false (pts "a\\.") (pts "a.") :=
  C99_sound oneName _ _ false (by decide)

/-- C99 (partial: `]` and `}` must have a backslash, and there may be no backslash before
other characters that need none, see `C99_violated`): a row of characters and escapes is
turned into the string it stands for, and no other pattern is turned into a string. -/
theorem C99_complete_partial (lookup : List Nat → Option (List Nat)) (e s : List Nat) (b : Bool) :
    toString lookup e = .str s b ↔ b = false ∧ Common lookup e s := by
  constructor
  · intro h
    unfold toString at h
    split at h
    · cases h
    · rename_i hs
      split at h
      · rename_i t ht
        cases h
        exact ⟨rfl, toString_sound lookup _ (Nat.le_refl _) (by simpa using hs) ht⟩
      · cases h
      · cases h
      · cases h
  · rintro ⟨rfl, h⟩
    obtain ⟨h1, h2⟩ := toString_complete lookup h
    unfold toString
    rw [h1, h2]; rfl

example : Common oneName (pts "\\]\\(") (pts "](") :=
  ((C99_complete_partial oneName _ _ false).1 (by decide)).2

/-- C99 is violated: these regular expressions stand for one string each, but `to_string` gives
None: a hyphen or a blank with a backslash (as `re.escape` writes them) and a closing bracket. -/
theorem C99_violated :
    (Reads oneName false (pts "a\\-b") (pts "a-b") ∧ toString oneName (pts "a\\-b") = .none) ∧
    (Reads oneName false (pts "\\ ") (pts " ") ∧ toString oneName (pts "\\ ") = .none) ∧
    (Reads oneName false (pts "a]") (pts "a]") ∧ toString oneName (pts "a]") = .none) := by
  refine ⟨⟨?_, by decide⟩, ⟨?_, by decide⟩, ⟨?_, by decide⟩⟩
  · rw [show pts "a\\-b" = [97, 92, 45, 98] by decide, show pts "a-b" = [97, 45, 98] by decide]
    exact .plain (by simp [Meta]) (by simp)
      (.escape (w := [45]) (.char (by simp [Alnum]))
        (.plain (by simp [Meta]) (by simp) .nil))
  · exact .escape (w := [32]) (.char (by simp [Alnum])) .nil
  · rw [show pts "a]" = [97, 93] by decide]
    exact .plain (by simp [Meta]) (by simp) (.plain (by simp [Meta]) (by simp) .nil)

/-- C99: the string for a text after `re.escape` (as the rule item `arg` writes it in a pattern)
is that text, unless the text has one of the characters `-&~#` or a blank: then it is None. -/
theorem C99_escape (lookup : List Nat → Option (List Nat)) (w : List Nat) :
    ((∀ c ∈ w, c ∉ [45, 38, 126, 35, 32, 9, 10, 11, 12, 13]) →
      toString lookup (reEscape w) = .str w false) ∧
    ((∃ c ∈ w, c ∈ [45, 38, 126, 35, 32, 9, 10, 11, 12, 13]) →
      toString lookup (reEscape w) = .none) := by
  have ho : ∀ c, odd c = true ↔ c ∈ [45, 38, 126, 35, 32, 9, 10, 11, 12, 13] := by
    intro c
    simp only [odd, List.contains_cons, List.contains_nil, Bool.or_eq_true, beq_iff_eq,
      Bool.or_false, List.mem_cons, List.not_mem_nil, or_false]
    omega
  constructor
  · intro h
    refine (C99_complete_partial lookup _ _ _).2 ⟨rfl, common_escape lookup w ?_⟩
    intro c hc
    cases hb : odd c with
    | false => rfl
    | true => exact absurd ((ho c).1 hb) (h c hc)
  · rintro ⟨c, hc, hm⟩
    unfold toString
    rw [strip_reEscape, replaceEsc_odd lookup w ⟨c, hc, (ho c).2 hm⟩]
    rfl

example : toString oneName (reEscape (pts "(a.b)")) = .str (pts "(a.b)") false := by decide

/-- C99 (partial: with the VERBOSE flag the pattern may have no blanks and no `#`, see
`C99_verbose_violated`): when a lexicon searches for a plain string, it has one pattern, which
has no other match than that string, the flag IGNORECASE is not set, and the string is not empty. -/
theorem C99_needle_partial (lookup : List Nat → Option (List Nat)) (fl : Flags) (dynamic : Bool)
    (patterns : List (List Nat)) (s : List Nat)
    (h : needle lookup fl dynamic patterns = some s)
    (hv : fl.verbose = true → ∀ p ∈ patterns, ∀ c ∈ p, ¬ Blank c ∧ c ≠ 35) :
    ∃ p, patterns = [p] ∧ Reads lookup fl.verbose p s ∧ s ≠ [] ∧ fl.ignorecase = false ∧
      dynamic = false := by
  unfold needle at h
  split at h
  · rename_i p
    split at h
    · rename_i hf
      split at h
      · rename_i c t b ht
        cases h
        have hr := C99_sound lookup _ _ _ ht
        simp only [Bool.and_eq_true, Bool.not_eq_true'] at hf
        refine ⟨p, rfl, ?_, by simp, hf.1, hf.2⟩
        cases hver : fl.verbose with
        | false => exact hr
        | true => exact reads_verbose lookup hr (hv hver p (by simp))
      · cases h
    · cases h
  · cases h

example : needle oneName ⟨false, true⟩ false [pts "\\*/"] = some (pts "*/") := by decide

/-- C99 is violated with the VERBOSE flag: the pattern `a b` matches `ab` only, but the
lexicon searches for `a b`, which the pattern does not match. -/
theorem C99_verbose_violated :
    needle oneName ⟨false, true⟩ false [pts "a b"] = some (pts "a b") ∧
    Reads oneName true (pts "a b") (pts "ab") ∧ ¬ Reads oneName true (pts "a b") (pts "a b") := by
  refine ⟨by decide, ?_, ?_⟩
  · rw [show pts "a b" = [97, 32, 98] by decide, show pts "ab" = [97, 98] by decide]
    exact .plain (by simp [Meta]) (by simp [Blank])
      (.blank rfl (.inl rfl) (.plain (by simp [Meta]) (by simp [Blank]) .nil))
  · intro h
    have e : pts "a b" = [97, 32, 98] := by decide
    rw [e] at h
    cases h with
    | plain _ _ h =>
      cases h with
      | plain _ hb => exact (hb rfl).1 (.inl rfl)
      | blank _ _ h =>
        cases h with
        | blank _ hb => simp [Blank] at hb
    | blank _ hb => simp [Blank] at hb

end Parce.ToS

import Verif.Spec.CssLang
import Verif.Spec.Rebuild
/-!
# C94: CSS texts that are read wrongly
-/
namespace Parce.CssL
open Parce.Json (Uni str)
variable {Q K : Type}

/-- `\d`, `\s` and `\w` for ASCII. -/
def asciiUni : Uni where
  digit c := 48 ≤ c && c ≤ 57
  space c := (9 ≤ c && c ≤ 13) || (28 ≤ c && c ≤ 32)
  word c := (48 ≤ c && c ≤ 57) || (65 ≤ c && c ≤ 90) || c == 95 || (97 ≤ c && c ≤ 122)

theorem asciiUni_ok : asciiUni.Ascii := ⟨fun _ _ => rfl, fun _ _ => rfl, fun _ _ => rfl⟩

/-- Some words. -/
def someWords : Words where
  isProperty w := w == str "color"
  isColor w := w == str "red"

/-- Selectors that are one element. -/
def elemSel (s : String) : Sels := .one [] (some (.name (str s))) .nil .nil []

/-- One declaration. -/
def oneDecl (s : String) (as : Args) : Block := .last [] ⟨str s, [], as, none⟩

/-- A letter is an identifier. -/
theorem ident_letter (c : Nat) (h : IsLetter c) : Ident asciiUni [c] := by
  refine ⟨⟨c, [], rfl, Or.inl h⟩, fun d hd => Or.inl ?_⟩
  simp only [List.mem_singleton] at hd
  subst hd
  unfold IsLetter at h
  simp only [asciiUni, Bool.or_eq_true, Bool.and_eq_true, decide_eq_true_eq, beq_iff_eq]
  omega

/-- A string in quotes. -/
def quotedCss : Css := ⟨[], [(.rule (elemSel "a") (oneDecl "b" (.cons (.str (str "c")) .nil)), [])]⟩

theorem quotedCss_ok : quotedCss.text = str "a{b:\"c\"}" ∧ quotedCss.ok asciiUni someWords true := by
  refine ⟨rfl, by simp [quotedCss, Bok], fun x hx => ?_⟩
  simp only [quotedCss, List.mem_singleton] at hx
  subst hx
  refine ⟨⟨⟨by simp [Bok], ident_letter 97 (by unfold IsLetter; omega), Or.inl (by simp), trivial, trivial, by simp [Bok]⟩, rfl, ?_⟩, by simp [Bok]⟩
  exact ⟨by simp [Bok], ident_letter 98 (by unfold IsLetter; omega), by simp [Bok], ⟨⟨rfl, by decide⟩, trivial⟩, by simp⟩

/-- **C94** is violated: a string in quotes raises an exception. -/
theorem C94_quoted_violated (f : Funcs Q K) : ∃ (s : Css) (n : Nat), s.ok asciiUni someWords true ∧ RB.Finished (lang asciiUni someWords) .root s.text n ∧
    transformText (env someWords f) (lang asciiUni someWords) .root s.text 0 n = .ok (some .error) := by
  refine ⟨quotedCss, 20, quotedCss_ok.2, ?_, ?_⟩
  · unfold RB.Finished
    decide +kernel
  · rfl

/-- The name `transparent` for a colour. -/
def transparentCss : Css := ⟨[], [(.rule (elemSel "a") (oneDecl "b" (.cons (.ident (str "transparent")) .nil)), [])]⟩

theorem transparentCss_ok : transparentCss.text = str "a{b:transparent}" ∧ transparentCss.ok asciiUni someWords true := by
  refine ⟨rfl, by simp [transparentCss, Bok], fun x hx => ?_⟩
  simp only [transparentCss, List.mem_singleton] at hx
  subst hx
  refine ⟨⟨⟨by simp [Bok], ident_letter 97 (by unfold IsLetter; omega), Or.inl (by simp), trivial, trivial, by simp [Bok]⟩, rfl, ?_⟩, by simp [Bok]⟩
  refine ⟨by simp [Bok], ident_letter 98 (by unfold IsLetter; omega), by simp [Bok], ⟨⟨?_, by intro c hc; cases hc; unfold IsName; decide, by decide, Or.inl rfl⟩, trivial⟩, by simp⟩
  exact ⟨⟨116, str "ransparent", rfl, Or.inl (by unfold IsLetter; omega)⟩, by unfold IsName; decide⟩

/-- **C94** is violated: `transparent` is not read as a colour. -/
theorem C94_transparent_violated (f : Funcs Q K) : ∃ (s : Css) (n : Nat), s.ok asciiUni someWords true ∧ RB.Finished (lang asciiUni someWords) .root s.text n ∧
    s.value someWords f = .list [.rule (.list [.list [.sel [(.elementSelector, [.text (str "a")])]]])
      (.dict [(str "b", [Value (color := some (f.named (str "transparent"))) (text := some (str "transparent"))])])] ∧
    transformText (env someWords f) (lang asciiUni someWords) .root s.text 0 n =
      .ok (some (.list [.rule (.list [.list [.sel [(.elementSelector, [.text (str "a")])]]])
        (.dict [(str "b", [Value (text := some (str "transparent"))])])])) := by
  refine ⟨transparentCss, 20, transparentCss_ok.2, ?_, rfl, ?_⟩
  · unfold RB.Finished
    decide +kernel
  · rfl

/-- A slash in the value of a property. -/
def slashCss : Css := ⟨[], [(.rule (elemSel "a") (oneDecl "b" (.cons (.ident (str "c")) (.cons (.op 47) (.cons (.ident (str "d")) .nil)))), [])]⟩

theorem slashCss_ok : slashCss.text = str "a{b:c/d}" ∧ slashCss.ok asciiUni someWords true := by
  refine ⟨rfl, by simp [slashCss, Bok], fun x hx => ?_⟩
  simp only [slashCss, List.mem_singleton] at hx
  subst hx
  refine ⟨⟨⟨by simp [Bok], ident_letter 97 (by unfold IsLetter; omega), Or.inl (by simp), trivial, trivial, by simp [Bok]⟩, rfl, ?_⟩, by simp [Bok]⟩
  refine ⟨by simp [Bok], ident_letter 98 (by unfold IsLetter; omega), by simp [Bok], ?_, by simp⟩
  refine ⟨⟨ident_letter 99 (by unfold IsLetter; omega), ?_, by decide, Or.inl rfl⟩, ⟨Or.inr ⟨rfl, rfl⟩, Or.inr (Or.inr ⟨rfl, by decide⟩)⟩,
    ⟨ident_letter 100 (by unfold IsLetter; omega), ?_, by decide, Or.inl rfl⟩, trivial⟩
  · intro c hc; cases hc; unfold IsName; decide
  · intro c hc; cases hc; unfold IsName; decide

/-- **C94** is violated: a slash ends the declaration, and what follows is read as another property. -/
theorem C94_slash_violated (f : Funcs Q K) : ∃ (s : Css) (n : Nat), s.ok asciiUni someWords true ∧ RB.Finished (lang asciiUni someWords) .root s.text n ∧
    s.value someWords f = .list [.rule (.list [.list [.sel [(.elementSelector, [.text (str "a")])]]])
      (.dict [(str "b", [Value (text := some (str "c")), .text (str "/"), Value (text := some (str "d"))])])] ∧
    transformText (env someWords f) (lang asciiUni someWords) .root s.text 0 n =
      .ok (some (.list [.rule (.list [.list [.sel [(.elementSelector, [.text (str "a")])]]])
        (.dict [(str "b", [Value (text := some (str "c"))]), (str "d", [])])])) := by
  refine ⟨slashCss, 20, slashCss_ok.2, ?_, rfl, ?_⟩
  · unfold RB.Finished
    decide +kernel
  · rfl

/-- The combinator `||` without blanks. -/
def columnCss : Css :=
  ⟨[], [(.rule (.one [] (some (.name (str "a"))) .nil (.cons (.op [] (str "||") []) (some (.name (str "b"))) .nil .nil) []) (.nil []), [])]⟩

theorem columnCss_ok : columnCss.text = str "a||b{}" ∧ columnCss.ok asciiUni someWords true := by
  refine ⟨rfl, by simp [columnCss, Bok], fun x hx => ?_⟩
  simp only [columnCss, List.mem_singleton] at hx
  subst hx
  refine ⟨⟨⟨by simp [Bok], ident_letter 97 (by unfold IsLetter; omega), Or.inl (by simp), trivial, ?_, by simp [Bok]⟩, rfl, by simp [Block.ok, Bok]⟩, by simp [Bok]⟩
  exact ⟨⟨by simp [Bok], by simp [Bok], Or.inr (Or.inr (Or.inr ⟨rfl, Or.inl rfl⟩))⟩, ident_letter 98 (by unfold IsLetter; omega), Or.inl (by simp), trivial, trivial⟩

/-- **C94** is violated: selectors with `||` between them are read as one selector. -/
theorem C94_column_violated (f : Funcs Q K) : ∃ (s : Css) (n : Nat), s.ok asciiUni someWords true ∧ RB.Finished (lang asciiUni someWords) .root s.text n ∧
    s.value someWords f = .list [.rule (.list [.list [.sel [(.elementSelector, [.text (str "a")])], .text (str "||"), .sel [(.elementSelector, [.text (str "b")])]]])
      (.dict [])] ∧
    transformText (env someWords f) (lang asciiUni someWords) .root s.text 0 n =
      .ok (some (.list [.rule (.list [.list [.sel [(.elementSelector, [.text (str "a"), .text (str "b")])]]]) (.dict [])])) := by
  refine ⟨columnCss, 20, columnCss_ok.2, ?_, rfl, ?_⟩
  · unfold RB.Finished
    decide +kernel
  · rfl

/-- **C94** is violated: the rule after an at-rule with nested rules is lost, and so is its end; only the rule after that is read. -/
theorem C94_nested_violated (f : Funcs Q K) : ∃ n, RB.Finished (lang asciiUni someWords) .root (str "@media x{a{}} b{} c{}") n ∧
    transformText (env someWords f) (lang asciiUni someWords) .root (str "@media x{a{}} b{} c{}") 0 n =
      .ok (some (.list [.atrule (.text (str "media")) (.list [Value (text := some (str "x"))])
          (.list [.rule (.list [.list [.sel [(.elementSelector, [.text (str "a")])]]]) (.dict [])]),
        .rule (.list [.list [.sel [(.elementSelector, [.text (str "c")])]]]) (.dict [])])) := by
  refine ⟨60, ?_, ?_⟩
  · unfold RB.Finished
    decide +kernel
  · rfl

end Parce.CssL

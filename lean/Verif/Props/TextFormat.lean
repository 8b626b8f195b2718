import Verif.Lemmas.TextFormat

/-!
C102: a text format that is written as CSS properties and read again is the same text format.
-/

namespace Parce.TF

variable {N C : Type}

/-- C102 (partial: not all formats are kept, see `C102_violated`). A text format that was read from
CSS properties is the same after it is written and read again exactly when it has none of the
attributes that are written in another way than they are read (`Written`). -/
theorem C102_round_partial (plain : String → Bool) (zero : N → Bool) (color : C → C)
    (ps : List (String × List (Val N C))) (f : Fmt N C) (h : read ps = some f) :
    read (reread color (write plain zero f)) = some f ↔ Written plain zero color f := by
  rw [read_write plain zero color f (known_read h), Option.some.injEq]
  exact back_eq plain zero color f (known_read h)

/-- The properties of a rule, for the examples. -/
def exProps : List (String × List (Val Nat Nat)) :=
  [("color", [{ color := some 1 }]),
   ("font", [{ text := some "bold" }, { number := some 12, unit := some "pt" },
     { text := some "Times New Roman", quoted := true }, { text := some "serif" }]),
   ("text-decoration", [{ text := some "wavy" }, { text := some "underline" }, { text := some "overline" }])]

/-- The format that is read from them. -/
def exFmt : Fmt Nat Nat :=
  { color := some 1, weight := some (.word "bold"), size := some (.num 12), sizeUnit := some (some "pt"),
    family := some ["Times New Roman", "serif"], decoLine := some ["underline", "overline"],
    decoStyle := some "wavy" }

example : read exProps = some exFmt := by rfl

example : Written (fun s => s == "serif") (· == 0) id exFmt where
  colors := by simp
  deco := by simp [exFmt]
  family := by intro fs h; cases h; refine ⟨by simp, ?_⟩; intro s hs hp; simp at hp; subst hp; decide
  size := by intro n h; cases h; rfl
  sizeUnit := by intro w h; cases h
  stretch := by intro w h; cases h
  angle := by intro w h; cases h
  weight := by intro w h; cases h

/-- C102. What is written for a format can be read, and these attributes are always kept: the style,
the kerning, the variants, the style of the decoration, and all lines of decoration. -/
theorem C102_words (plain : String → Bool) (zero : N → Bool) (color : C → C)
    (ps : List (String × List (Val N C))) (f : Fmt N C) (h : read ps = some f) :
    ∃ g, read (reread color (write plain zero f)) = some g ∧ g.style = f.style ∧ g.kerning = f.kerning ∧
      g.caps = f.caps ∧ g.position = f.position ∧ g.decoStyle = f.decoStyle ∧
      g.decoLine.getD [] = f.decoLine.getD [] ∧ g.color = f.color.map color ∧
      g.background = f.background.map color ∧ g.caret = f.caret.map color ∧
      g.decoColor = f.decoColor.map color := by
  refine ⟨_, read_write plain zero color f (known_read h), rfl, rfl, rfl, rfl, rfl, ?_, rfl, rfl, rfl, rfl⟩
  simp only [back, backLine]
  split
  · rfl
  · rename_i hn
    simp only [ne_eq, not_or, Classical.not_not] at hn
    simp [hn.1]

example : read exProps = some exFmt := by rfl

/-- A format that has such an attribute is not the same. -/
theorem lost (plain : String → Bool) {ps : List (String × List (Val Nat Nat))} {f : Fmt Nat Nat}
    (h : read ps = some f) (hw : ¬ Written plain (· == 0) id f) :
    ∃ f, read ps = some f ∧ read (reread id (write plain (· == 0) f)) ≠ some f :=
  ⟨f, h, fun hc => hw ((C102_round_partial plain _ id ps f h).1 hc)⟩

/-- C102 is violated: for each of these properties the format that is read is not the same after it
is written and read again: a family name in quotes that gets no quotes when it is written, a system
font, the stretch as a percentage, a size, weight or angle of zero, no decoration, a colour of
decoration without lines, a size with a unit that becomes a word, and an angle that becomes
italic. -/
theorem C102_violated (plain : String → Bool) (hp : plain "Arial" = true) (hq : plain "caption" = true)
    (ps : List (String × List (Val Nat Nat)))
    (h : ps ∈ [
      [("font-family", [{ text := some "Arial", quoted := true }])],
      [("font", [{ text := some "caption" }])],
      [("font-stretch", [{ number := some 75, unit := some "%" }])],
      [("font-size", [{ number := some 0, unit := some "px" }])],
      [("font-weight", [{ number := some 0 }])],
      [("font-style", [{ text := some "oblique" }, { number := some 0, unit := some "deg" }])],
      [("text-decoration", [{ text := some "none" }])],
      [("text-decoration-color", [{ color := some 1 }])],
      [("font-size", [{ number := some 12, unit := some "pt" }]), ("font-size", [{ text := some "large" }])],
      [("font-style", [{ text := some "oblique" }, { number := some 10, unit := some "deg" }]),
       ("font-style", [{ text := some "italic" }])]]) :
    ∃ f, read ps = some f ∧ read (reread id (write plain (· == 0) f)) ≠ some f := by
  simp only [List.mem_cons, List.not_mem_nil, or_false] at h
  rcases h with h | h | h | h | h | h | h | h | h | h <;> subst h <;>
    refine lost plain rfl ?_ <;> intro hc
  · exact absurd ((hc.family _ rfl).2 "Arial" (by decide) hp) (by decide)
  · exact absurd ((hc.family _ rfl).2 "caption" (by decide) hq) (by decide)
  · exact hc.stretch 75 rfl
  · exact absurd (hc.size 0 rfl) (by decide)
  · exact absurd (hc.weight 0 rfl) (by decide)
  · exact absurd (hc.angle 0 rfl).2 (by decide)
  · exact absurd (hc.deco.1 rfl) (by decide)
  · exact absurd (hc.deco.2 (by decide)) (by decide)
  · exact absurd (hc.sizeUnit "large" rfl) (by decide)
  · exact absurd (hc.angle 10 rfl).1 (by decide)

/-- C102. What is written for a size with a stale unit is no size at all: `large` after `12pt` is
written as `largept`. -/
theorem C102_stale_unit_violated (plain : String → Bool) :
    ∃ f, read (N := Nat) (C := Nat) [("font-size", [{ number := some 12, unit := some "pt" }]),
        ("font-size", [{ text := some "large" }])] = some f ∧
      write plain (· == 0) f = [("font-size", [.word "largept"])] ∧
      ∃ g, read (reread id (write plain (· == 0) f)) = some g ∧ g.size.isNone := by
  exact ⟨_, rfl, rfl, _, rfl, rfl⟩

/-- C102 is violated: a `font` or `font-style` property without values raises an exception. -/
theorem C102_empty_violated : read (N := Nat) (C := Nat) [("font-style", [])] = none ∧
    read (N := Nat) (C := Nat) [("font", [])] = none := ⟨rfl, rfl⟩

end Parce.TF

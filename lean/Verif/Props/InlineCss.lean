import Verif.Lemmas.InlineCss
import Verif.Lemmas.TextFormatOrder

/-!
C104: the inline CSS of a text format is read as the properties of the format.
-/

namespace Parce.IC

/-- C104. The declarations of a `style` attribute with the inline CSS are exactly the properties,
ordered by name, for all values whose strings are closed and that have no semicolons outside strings. -/
theorem C104_inline (props : List (List Nat × List Nat)) (h : ∀ p ∈ props, NameOk p.1 ∧ ValueOk p.2) :
    (readDecls (inlineCss props)).Perm props ∧
    (readDecls (inlineCss props)).Pairwise (fun a b => strLe a.1 b.1 = true) := by
  have hr : readDecls (inlineCss props) = sortProps props := by
    unfold readDecls inlineCss
    cases hs : sortProps props with
    | nil => rfl
    | cons p ps =>
      have := read_join (p :: ps) [] (.inl rfl)
        (fun q hq => h q ((sort_perm props).mem_iff.1 (by rw [hs]; exact hq))) (by simp)
      simpa using this
  rw [hr]
  exact ⟨sort_perm props, sort_sorted props⟩

/-- The names and values of two properties: `font-family` with a name that has a semicolon and a quote,
and `color`. -/
def exProps : List (List Nat × List Nat) :=
  [([102, 111], [34, 97, 59, 92, 50, 50, 32, 34, 44, 32, 98]), ([99], [35, 102])]

example : ∀ p ∈ exProps, NameOk p.1 ∧ ValueOk p.2 := by
  intro p hp
  simp only [exProps, List.mem_cons, List.not_mem_nil, or_false] at hp
  rcases hp with rfl | rfl
  · refine ⟨by intro c hc; simp at hc; omega, by decide, by decide, by decide⟩
  · refine ⟨by intro c hc; simp at hc; omega, by decide, by decide, by decide⟩

example : inlineCss exProps = [99, 58, 32, 35, 102, 59, 32, 102, 111, 58, 32, 34, 97, 59, 92, 50, 50, 32, 34, 44, 32, 98, 59] := by
  decide

/-- C104. The names of fonts always give such a value, whatever characters they have. -/
theorem C104_family (word : Nat → Bool) (hw : ∀ c, word c = true → c ≠ 59 ∧ c ≠ 34 ∧ c ≠ 39 ∧ c ≠ 32)
    (names : List (List Nat)) (h : names ≠ []) : ValueOk (familyText word names) := by
  refine (join_ok _ ?_ (by simpa using h)).1
  intro t ht
  obtain ⟨s, -, rfl⟩ := List.mem_map.1 ht
  exact quote_ok word hw s

example : ∀ c, (decide (97 ≤ c ∧ c ≤ 122)) = true → c ≠ 59 ∧ c ≠ 34 ∧ c ≠ 39 ∧ c ≠ 32 := by
  intro c h; simp at h; omega

/-- C104. Words, numbers and colours are such values: they have no quotes, semicolons and blanks at
the ends. -/
theorem C104_words (v : List Nat) (h : ∀ c ∈ v, c ≠ 59 ∧ c ≠ 34 ∧ c ≠ 39)
    (h1 : v.head? ≠ some 32) (h2 : v.getLast? ≠ some 32) : ValueOk v := by
  refine ⟨scan_plain v h, ?_, ?_⟩
  · cases hv : v.head? with
    | none => simp
    | some c => rw [hv] at h1; simp [blank]; simpa using h1
  · cases hv : v.getLast? with
    | none => simp
    | some c => rw [hv] at h2; simp [blank]; simpa using h2

example : ∀ c ∈ [98, 111, 32, 49], c ≠ 59 ∧ c ≠ 34 ∧ c ≠ 39 := by decide

/-- C104. The order of the properties does not matter: the properties of a text format give the same
format in every order (so also ordered by name, as they are written in HTML). -/
theorem C104_order {N C : Type} (plain : String → Bool) (zero : N → Bool) (color : C → C) (f : TF.Fmt N C)
    (qs : List (String × List (TF.W N C))) (h : qs.Perm (TF.write plain zero f)) :
    TF.read (TF.reread color qs) = TF.read (TF.reread color (TF.write plain zero f)) :=
  TF.read_perm plain zero color f qs h

example : [("font-weight", [TF.W.word "bold"]), ("color", [TF.W.hex (N := Nat) 1])].Perm
    (TF.write (fun _ => true) (· == 0) { color := some 1, weight := some (.word "bold") }) :=
  .swap _ _ _

end Parce.IC

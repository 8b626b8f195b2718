import Verif.Props.Numbers
import Verif.Lemmas.NumbersCompoundText
/-!
# C85: Dutch, German and French numbers
-/
namespace Parce.Num

/-! ## Dutch and German -/

/-- The Dutch word lists. -/
def dutchComp : Comp where
  teens := nlTo19.drop 10
  units := (nlTo19.take 10).drop 1
  tens := nlTens
  joins := ["en".toList, "ën".toList]
  rest := [nlTens, ["nul".toList]]
  hundred := "honderd".toList
  thousand := "duizend".toList
  million := "miljoen".toList
  values := values nlTens nlTo19

/-- `[eë]n` -/
def dutchJoin (u : Uni) : Pat Char := .cat (.set fun x => u.fold x == 'e' || u.fold x == 'ë') (chr u 'n')

theorem dutch_eq (u : Uni) : dutch u = dutchComp.tongue u (dutchJoin u) := rfl

theorem dutch_ok : dutchComp.OK dutchLexis := by
  constructor <;> decide +kernel

/-- The German word lists. -/
def germanComp : Comp where
  teens := deTo19.drop 10
  units := (deTo19.take 10).drop 1
  tens := deTens ++ ["dreissig".toList]
  joins := ["und".toList]
  rest := [deTens ++ ["dreissig".toList] ++ deTo19.take 1 ++ ["eins".toList]]
  hundred := "hundert".toList
  thousand := "tausend".toList
  million := "million".toList
  values := values deTens deTo19 [("eins".toList, 1), ("dreissig".toList, 30)]

theorem german_eq (u : Uni) : german u = germanComp.tongue u (lit u "und".toList) := rfl

theorem german_ok : germanComp.OK germanLexis := by
  constructor <;> decide +kernel

theorem german_join (u : Uni) : JoinOK u germanComp (lit u "und".toList) where
  best t p j hj hp := by
    simp only [germanComp, List.mem_cons, List.not_mem_nil, or_false] at hj
    subst hj
    exact lit_best hp
  fails t p h := lit_fails (h _ (by simp [germanComp]))

theorem dutch_join (u : Uni) : JoinOK u dutchComp (dutchJoin u) where
  best t p j hj hp := by
    have h2 : ∃ c, (c = 'e' ∨ c = 'ë') ∧ j = [c, 'n'] := by
      simp only [dutchComp, List.mem_cons, List.not_mem_nil, or_false] at hj
      rcases hj with rfl | rfl
      · exact ⟨'e', Or.inl rfl, rfl⟩
      · exact ⟨'ë', Or.inr rfl, rfl⟩
    obtain ⟨c, hc, rfl⟩ := h2
    cases h1 : t[p]? with
    | none => rw [folded_none h1] at hp; cases (List.prefix_nil.1 hp)
    | some x =>
      rw [folded_some h1] at hp
      obtain ⟨h3, h4⟩ := List.cons_prefix_cons.1 hp
      cases h5 : t[p + 1]? with
      | none => rw [folded_none h5] at h4; cases (List.prefix_nil.1 h4)
      | some y =>
        rw [folded_some h5] at h4
        have h6 := (List.cons_prefix_cons.1 h4).1
        refine (best_set h1 ?_).cat (best_set h5 (by rw [← h6]; rfl))
        rw [← h3]
        rcases hc with rfl | rfl <;> rfl
  fails t p h := by
    rintro q ⟨r, ⟨rfl, x, h1, h2⟩, ⟨rfl, y, h3, h4⟩⟩
    have h5 : folded u t p = u.fold x :: u.fold y :: folded u t (p + 1 + 1) := by rw [folded_some h1, folded_some h3]
    simp only [Bool.or_eq_true, beq_iff_eq] at h2 h4
    rcases h2 with h2 | h2
    · exact h "en".toList (by simp [dutchComp]) (by rw [h5, h2, h4]; exact ⟨_, rfl⟩)
    · exact h "ën".toList (by simp [dutchComp]) (by rw [h5, h2, h4]; exact ⟨_, rfl⟩)

section
variable {u : Uni}

theorem compound_value {C : Comp} {X : Lexis} {J : Pat Char} (ok : C.OK X) (hJ : JoinOK u C J) (hsep : SepOK u) {ns : List Nat} {t : List Char}
    (h : X.Texts u ns t) : (∃ n, RB.Finished (lang u (C.tongue u J)) .root t n) ∧ ∀ n, RB.Finished (lang u (C.tongue u J)) .root t n →
    transformText (env u (C.tongue u J)) (lang u (C.tongue u J)) .root t 0 n = .ok (some (.list ns)) := by
  obtain ⟨m, P, h1, h2, h3⟩ := gm_ctexts (t := t) ok hJ hsep h (p := 0) (m := ⟨[], []⟩) (d := []) (Nat.zero_le _) rfl
    ⟨List.Pairwise.nil, by simp, by simp⟩ ⟨rfl, fun _ => rfl⟩
  have h1' := h1.mono (Q := (· = [])) (by rintro c rfl e he; cases he) (fun _ h => h)
  constructor
  · obtain ⟨k, evs, kids, h4, _⟩ := gm_finish h1' h2 (cno_more ok)
    exact ⟨k, by unfold RB.Finished; rw [h4]; rfl⟩
  · intro n hn
    rw [gm_value h1' h2 (cno_more ok) n hn, h3, List.nil_append]

/-- **C85** (partial: the words for fifty, sixty, seventy and ninety are left out, see `C85_dutch_violated`; and there is something else
    between numbers). The value of a text with Dutch numbers is the list of the numbers, whatever blanks or hyphens are between the words. -/
theorem C85_dutch_partial (hsep : SepOK u) (ns : List Nat) (t : List Char) (h : dutchLexis.Texts u ns t) :
    (∃ n, RB.Finished (lang u (dutch u)) .root t n) ∧ ∀ n, RB.Finished (lang u (dutch u)) .root t n →
    transformText (env u (dutch u)) (lang u (dutch u)) .root t 0 n = .ok (some (.list ns)) :=
  compound_value dutch_ok (dutch_join u) hsep h

/-- **C85** (partial: the words for thirty, forty, fifty, eighty and ninety are left out, see `C85_german_violated`; and there is something
    else between numbers). The value of a text with German numbers is the list of the numbers. -/
theorem C85_german_partial (hsep : SepOK u) (ns : List Nat) (t : List Char) (h : germanLexis.Texts u ns t) :
    (∃ n, RB.Finished (lang u (german u)) .root t n) ∧ ∀ n, RB.Finished (lang u (german u)) .root t n →
    transformText (env u (german u)) (lang u (german u)) .root t 0 n = .ok (some (.list ns)) :=
  compound_value german_ok (german_join u) hsep h

/-- **C85.** The words that a number is written with, when each number below hundred is one word, stand for the number. -/
theorem C85_spelled (n : Nat) (hn : n < 10 ^ 12) : Phrase (spellTeens n) n :=
  spell_with (B := 1000000) (fun _ h1 => spell_with (B := 1000) (fun _ h2 => spell_with (B := 100) (fun n _ => .teen n) (by omega) (by omega) _ (by omega))
    (by omega) (by omega) _ (by omega)) (by omega) (by omega) n (by omega)

/-- A computed form of `Lexis.Has` for numbers below hundred. -/
def Lexis.can (X : Lexis) (n : Nat) : Bool :=
  (X.units ++ X.teens ++ X.small).any (·.2 == n) || (!X.joins.isEmpty && X.units.any (fun a => X.tens.any (fun b => a.2 + b.2 == n)))

theorem Lexis.can_has {X : Lexis} {n : Nat} (h : X.can n = true) : ∃ w, X.Has w (.teen n) := by
  simp only [Lexis.can, Bool.or_eq_true, List.any_eq_true, List.mem_append, beq_iff_eq, Bool.and_eq_true] at h
  rcases h with ⟨⟨w, m⟩, h, rfl⟩ | ⟨hj, ⟨a, x⟩, ha, ⟨b, y⟩, hb, rfl⟩
  · rcases h with (h | h) | h
    · exact ⟨_, .unit h⟩
    · exact ⟨_, .teen h⟩
    · exact ⟨_, .small h⟩
  · cases hjs : X.joins with
    | nil => rw [hjs] at hj; cases hj
    | cons j js => exact ⟨_, .both ha (by rw [hjs]; exact List.mem_cons_self ..) hb⟩

theorem dutch_can : (List.range 100).all (fun n => [50, 60, 70, 90].contains n || dutchLexis.can n) = true := by decide +kernel
theorem german_can : (List.range 100).all (fun n => [30, 40, 50, 80, 90].contains n || germanLexis.can n) = true := by decide +kernel

/-- **C85.** These are all words below hundred that are left out, in Dutch. -/
theorem C85_dutch_words (n : Nat) (h : n < 100) (h' : n ∉ [50, 60, 70, 90]) : ∃ w, dutchLexis.Has w (.teen n) := by
  have := List.all_eq_true.1 dutch_can n (List.mem_range.2 h)
  simp only [Bool.or_eq_true, List.contains_iff_mem] at this
  exact Lexis.can_has (this.resolve_left h')

/-- **C85.** These are all words below hundred that are left out, in German. -/
theorem C85_german_words (n : Nat) (h : n < 100) (h' : n ∉ [30, 40, 50, 80, 90]) : ∃ w, germanLexis.Has w (.teen n) := by
  have := List.all_eq_true.1 german_can n (List.mem_range.2 h)
  simp only [Bool.or_eq_true, List.contains_iff_mem] at this
  exact Lexis.can_has (this.resolve_left h')

end

/-! ### Examples -/

theorem ascii_sep : SepOK ascii := by
  rintro c (hs | rfl)
  · simp only [ascii, Char.isWhitespace, Bool.or_eq_true, decide_eq_true_eq] at hs
    rcases hs with (((rfl | rfl) | rfl) | rfl) <;> decide
  · decide

theorem spell_sample : spellTeens 342017 = [.teen 3, .hundred, .teen 42, .thousand, .teen 17] := by decide

/-- Two numbers in Dutch. -/
example : dutchLexis.Texts ascii [342017, 21] ("Driehonderd".toList ++ ("tweeënveertig ".toList ++ "duizend zeventien".toList) ++ ',' :: " eenentwintig".toList) := by
  refine .more (n := 342017) (ms := [21]) (s := []) (ks := [.teen 3, .hundred, .teen 42, .thousand, .teen 17]) (by simp)
    (by rw [← spell_sample]; exact C85_spelled _ (by omega)) ?_ ⟨by simp [Sep, ascii], by decide⟩ ?_
  · refine .word (w := "drie".toList) (v := "Drie".toList) (s := []) (t := "honderd".toList ++ _) (.unit (by decide)) ⟨by decide, by decide⟩ (by simp) ?_
    refine .word (w := "honderd".toList) (v := "honderd".toList) (s := []) .hundred ⟨by decide, by decide⟩ (by simp) ?_
    refine .word (w := "tweeënveertig".toList) (v := "tweeënveertig".toList) (s := [' ']) ?_ ⟨by decide, by decide⟩ (by simp [Sep, ascii]) ?_
    · exact .both (w := "twee") (j := "ën") (s := "veertig") (a := 2) (b := 40) (by decide) (by decide) (by decide)
    · exact .word (w := "duizend".toList) (v := "duizend".toList) (s := [' ']) (t := "zeventien".toList) .thousand ⟨by decide, by decide⟩ (by simp [Sep, ascii])
        (.word (w := "zeventien".toList) (v := "zeventien".toList) (s := []) (t := []) (.teen (by decide)) ⟨by decide, by decide⟩ (by simp) .nil)
  · exact .last (s := [' ']) (t := "eenentwintig".toList) (ks := [.teen 21]) (by simp [Sep, ascii]) (.plain (.plain (.plain (.teen 21))))
      (.word (w := "eenentwintig".toList) (v := "eenentwintig".toList) (s := []) (t := [])
        (.both (w := "een") (j := "en") (s := "twintig") (a := 1) (b := 20) (by decide) (by decide) (by decide)) ⟨by decide, by decide⟩ (by simp) .nil)

/-- A number in German. -/
example : germanLexis.Texts ascii [1984] "neunzehnhundert vierundachtzig".toList := by
  refine .last (s := []) (t := "neunzehnhundert vierundachtzig".toList) (ks := [.teen 19, .hundred, .teen 84]) (by simp)
    (.plain (.plain (.timesAnd (S := To99) (f := 100) (a := 19) (b := 84) (.teen 19) (.teen 84)))) ?_
  exact .word (w := "neunzehn".toList) (v := "neunzehn".toList) (s := []) (t := "hundert vierundachtzig".toList) (.teen (by decide)) ⟨by decide, by decide⟩ (by simp)
    (.word (w := "hundert".toList) (v := "hundert".toList) (s := [' ']) (t := "vierundachtzig".toList) .hundred ⟨by decide, by decide⟩ (by simp [Sep, ascii])
      (.word (w := "vierundachtzig".toList) (v := "vierundachtzig".toList) (s := []) (t := [])
        (.both (w := "vier") (j := "und") (s := "achtzig") (a := 4) (b := 80) (by decide) (by decide) (by decide)) ⟨by decide, by decide⟩ (by simp) .nil))

/-! ## Violations -/

/-- The value of a text, in another language. -/
def valueIn (g : Uni → Tongue) (s : String) : Option (Option NV) :=
  (transformText (env ascii (g ascii)) (lang ascii (g ascii)) .root s.toList 0 200).toOption

/-- **C85** is violated in Dutch: fifty, sixty, seventy and ninety are taken for five, six, seven and nine. -/
theorem C85_dutch_violated : RB.Finished (lang ascii (dutch ascii)) .root "vijftig".toList 200 ∧ valueIn dutch "vijftig" = some (some (.list [5])) ∧
    valueIn dutch "zestig" = some (some (.list [6])) ∧ valueIn dutch "zeventig" = some (some (.list [7])) ∧
    valueIn dutch "negentig" = some (some (.list [9])) := by
  refine ⟨by unfold RB.Finished; decide +kernel, by decide +kernel, by decide +kernel, by decide +kernel, by decide +kernel⟩

/-- **C85** is violated in German: thirty, forty, fifty, eighty and ninety are taken for three, four, five, eight and nine. -/
theorem C85_german_violated : RB.Finished (lang ascii (german ascii)) .root "dreißig".toList 200 ∧ valueIn german "dreißig" = some (some (.list [3])) ∧
    valueIn german "vierzig" = some (some (.list [4])) ∧ valueIn german "fünfzig" = some (some (.list [5])) ∧
    valueIn german "achtzig" = some (some (.list [8])) ∧ valueIn german "neunzig" = some (some (.list [9])) := by
  refine ⟨by unfold RB.Finished; decide +kernel, by decide +kernel, by decide +kernel, by decide +kernel, by decide +kernel, by decide +kernel⟩

/-- **C85** is violated in French: seventy and ninety are taken for two numbers. -/
theorem C85_french_violated : RB.Finished (lang ascii (french ascii)) .root "soixante-dix".toList 200 ∧
    valueIn french "soixante-dix" = some (some (.list [60, 10])) ∧ valueIn french "quatre-vingt-dix" = some (some (.list [80, 10])) := by
  refine ⟨by unfold RB.Finished; decide +kernel, by decide +kernel, by decide +kernel⟩

end Parce.Num

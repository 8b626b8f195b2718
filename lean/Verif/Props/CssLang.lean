import Verif.Lemmas.CssEnd
import Verif.Props.Transform
import Verif.Props.CssLangBad
/-!
# C94: CSS texts
-/
namespace Parce.CssL
open Parce.Json (Uni str)
variable {Q K : Type} {u : Uni} {k : Words} {f : Funcs Q K}

/-- **C94** (partial: for the texts of `Spec/CssLang.lean` without what is read wrongly; see `Props/CssLangBad.lean`). Lexing a style sheet
    ends. -/
theorem C94_finishes_partial (hu : u.Ascii) (hd : ∀ c, u.digit c = true → u.word c = true) (s : Css) (ho : s.ok u k false) :
    ∃ n, RB.Finished (lang u k) .root s.text n := by
  obtain ⟨n, evs, cs, h1, _⟩ := run_sheet (f := (⟨fun _ => none, fun _ => (), fun _ => (), fun _ => (), fun _ => ()⟩ : Funcs Unit Unit)) hu hd s ho
  exact ⟨n, by unfold RB.Finished; rw [h1]; rfl⟩

theorem root_value (s : Css) {cs : List (Node Nat CL CA)} (h : its (method k f) cs = bitems s.g ++ sheetItems k f s.stmts) :
    (env k f).value (.ctx .root cs) = some (s.value k f) := by
  have hv : (env k f).value (.ctx .root cs) = some (if failed (its (method k f) cs) then .error else rootOf (its (method k f) cs)) := rfl
  rw [hv, h, sheet_ok, sheet_value]
  rfl

/-- **C94** (partial, as above). Transforming the tree of a style sheet gives the list of its rules. -/
theorem C94_value_partial (hu : u.Ascii) (hd : ∀ c, u.digit c = true → u.word c = true) (s : Css) (ho : s.ok u k false) (n : Nat)
    (hn : RB.Finished (lang u k) .root s.text n) :
    ∃ cs, buildTree (lang u k) .root s.text 0 n = .ctx .root cs ∧
      ∀ (I : Type) [DecidableEq I] (ident : List Nat → I), Distinct ident (.ctx .root cs) →
        (transformTree (env k f) ident (fun _ => false) (fun _ => none) .root cs).1 = .done (some (s.value k f)) := by
  obtain ⟨cs, h1, h2, _⟩ := sheet_tree (f := f) hu hd s ho n hn
  refine ⟨cs, h1, fun I _ ident hdi => ?_⟩
  rw [(C48_fresh (env k f) ident (fun _ => none) .root cs hdi (fun _ _ _ _ _ _ h => by cases h)).1, root_value s h2]

theorem ends_iff (hu : u.Ascii) (hd : ∀ c, u.digit c = true → u.word c = true) (s : Css) (ho : s.ok u k false) (n : Nat)
    (hn : RB.Finished (lang u k) .root s.text n) :
    .comment ∈ replayStack [.root] (lexRun (lang u k) s.text n (LState.start [.root] 0)).1 ↔ s.endsInComment := by
  obtain ⟨cs, _, _, h3⟩ := sheet_tree (f := (⟨fun _ => none, fun _ => (), fun _ => (), fun _ => (), fun _ => ()⟩ : Funcs Unit Unit)) hu hd s ho n hn
  have hk := (C18_root_kept (lang u k) s.text [.root] (by simp) 0 n).1
  have hlexs := foldl_lexs _ (⟨⟨.root, []⟩, []⟩ : BState Nat CL CA) hk
  rw [← h3]
  show _ ∈ replayStack (BState.lexs (⟨⟨.root, []⟩, []⟩ : BState Nat CL CA)) _ ↔ _
  rw [← hlexs]

/-- **C94** (partial, as above, and there must be no comment after the last rule: `C94_comment_violated`). Transforming the text of a style
    sheet gives the list of its rules. -/
theorem C94_text_partial (hu : u.Ascii) (hd : ∀ c, u.digit c = true → u.word c = true) (s : Css) (ho : s.ok u k false) (hc : ¬ s.endsInComment) (n : Nat)
    (hn : RB.Finished (lang u k) .root s.text n) :
    transformText (env k f) (lang u k) .root s.text 0 n = .ok (some (s.value k f)) := by
  obtain ⟨cs, h1, h2, _⟩ := sheet_tree (f := f) hu hd s ho n hn
  unfold transformText
  rw [C47_events_partial (env k f) (no_raw k f) .root _ (C18_root_kept (lang u k) s.text [.root] (by simp) 0 n).1
    (C22_lexemes_ne (lang u k) s.text [.root] 0 n) (Or.inr (fun l hl hm => by
      rw [meth_none] at hm
      rw [hm] at hl
      exact hc ((ends_iff hu hd s ho n hn).1 hl)))]
  unfold buildTree at h1
  rw [h1, root_value s h2]

/-- **C94** is violated: when there is a comment after the last rule, transforming the text raises IndexError. -/
theorem C94_comment_violated (hu : u.Ascii) (hd : ∀ c, u.digit c = true → u.word c = true) (s : Css) (ho : s.ok u k false) (hc : s.endsInComment) (n : Nat)
    (hn : RB.Finished (lang u k) .root s.text n) :
    transformText (env k f) (lang u k) .root s.text 0 n = .error .index :=
  C47_events_index (env k f) (no_raw k f) .root _ (C18_root_kept (lang u k) s.text [.root] (by simp) 0 n).1
    (C22_lexemes_ne (lang u k) s.text [.root] 0 n) (by simp [TrEnv.meth, env, bareEnv, method]) .comment
    ((ends_iff hu hd s ho n hn).2 hc) (meth_none.2 rfl)

/-! ### Examples -/

theorem ident_of (w : List Nat) (h : (w.all fun c => nameChar asciiUni c) = true)
    (h' : ∃ c r, w = c :: r ∧ IsLetter c) : Ident asciiUni w := by
  obtain ⟨c, r, e, hl⟩ := h'
  exact ⟨⟨c, r, e, Or.inl hl⟩, fun c hc => nameChar_iff.1 (List.all_eq_true.1 h c hc)⟩

theorem stops_of (w : List Nat) (h : (w.head?.all fun c => !nameChar asciiUni c && c != 92) = true) : Stops asciiUni w := by
  intro c hc
  rw [hc] at h
  simp only [Option.all_some, Bool.and_eq_true, Bool.not_eq_true', bne_iff_ne, ne_eq] at h
  exact ⟨fun hh => by rw [nameChar_iff.2 hh] at h; exact absurd h.1 (by simp), h.2⟩

def blank : Blanks := [.ws 32]

theorem blank_ok : Bok blank := by
  intro b hb
  simp only [blank, List.mem_singleton] at hb
  subst hb
  exact Or.inl rfl

theorem nil_ok : Bok [] := by intro b hb; cases hb

/-- An at-rule, and a rule with a list of selectors. -/
def sample : Css :=
  ⟨[.comment (str "x"), .ws 32],
   [(.at (str "import") (.cons (.gap blank) (.cons (.url (str "a.css")) .nil)), [.ws 10]),
    (.rule (.more [] (some (.name (str "a"))) (.cons (.cls (str "b")) (.cons (.attrVal (str "f") [] (str "=") [] (str "g") []) .nil))
        (.cons (.op blank (str ">") blank) (some .any) (.cons (.pfun (str "not") (.one [] none (.cons (.id (str "e")) .nil) .nil [])) .nil) .nil) []
        (.one blank (some (.name (str "p"))) .nil .nil blank))
      (.cons blank ⟨str "color", [], .cons (.gap blank) (.cons (.ident (str "red")) .nil), none⟩
        (.last [.comment (str "y")] ⟨str "m", [], .cons (.num (str "-2.5") (.word (str "em"))) (.cons (.gap blank) .nil), some []⟩)), [.ws 10])]⟩

theorem sample_text : sample.text = str "/*x*/ @import url(a.css);\na.b[f=g] > *:not(#e), p { color: red;/*y*/m:-2.5em !important}\n" := by decide +kernel

theorem sample_ok : sample.ok asciiUni someWords false := by
  have hcom : ∀ c, (Blank.comment [c]).ok ↔ ¬ (c = 42 ∧ False) := by
    intro c
    constructor
    · intro _ h; exact h.2
    · intro _ i hi
      simp only [List.length_cons, List.length_nil] at hi
      have : i = 0 := by omega
      subst this
      simp [str]
  refine ⟨?_, ?_⟩
  · intro b hb
    simp only [sample, List.mem_cons, List.not_mem_nil, or_false] at hb
    rcases hb with rfl | rfl
    · exact (hcom 120).2 (by simp)
    · exact Or.inl rfl
  intro x hx
  simp only [sample, List.mem_cons, List.not_mem_nil, or_false] at hx
  have hid : ∀ c : Nat, 97 ≤ c ∧ c ≤ 122 → Ident asciiUni [c] := fun c h => ident_letter c (Or.inr h)
  rcases hx with rfl | rfl
  · refine ⟨⟨⟨ident_of _ (by decide) ⟨105, _, rfl, Or.inr (by decide)⟩, stops_of _ (by decide +kernel), ?_⟩, ?_⟩, ?_⟩
    · intro n hn r hr
      simp only [nesting, List.mem_cons, List.not_mem_nil, or_false] at hn
      rcases hn with rfl | rfl | rfl <;> simp [str] at hr
    · simp only [Args.ok, Arg.ok]
      exact ⟨⟨blank_ok, by decide +kernel⟩, ⟨by decide, by
        intro i
        match i with
        | 0 => simp [str]
        | 1 => simp [str]
        | 2 => simp [str]
        | 3 => simp [str]
        | 4 => simp [str]
        | n + 5 => simp [str]⟩, trivial⟩
    · intro b hb
      simp only [List.mem_singleton] at hb
      subst hb
      exact Or.inr (Or.inr (Or.inl rfl))
  · refine ⟨⟨?_, rfl, ?_⟩, ?_⟩
    · simp only [Sels.ok, Elem.ok, Simples.ok, Simple.ok, Steps.ok, Comb.ok]
      refine ⟨nil_ok, hid 97 (by decide), by simp, ⟨hid 98 (by decide), ⟨hid 102 (by decide), by simp [Wok], by decide, by simp [Wok], hid 103 (by decide), by simp [Wok]⟩, trivial⟩, ?_, nil_ok, ?_⟩
      · exact ⟨⟨blank_ok, blank_ok, Or.inl trivial⟩, trivial, by simp, ⟨⟨ident_of _ (by decide) ⟨110, _, rfl, Or.inr (by decide)⟩, nil_ok, trivial, by simp, ⟨hid 101 (by decide), trivial⟩, trivial, nil_ok⟩, trivial⟩, trivial⟩
      · exact ⟨blank_ok, hid 112 (by decide), by simp, trivial, trivial, blank_ok⟩
    · refine ⟨blank_ok, ⟨ident_of _ (by decide) ⟨99, _, rfl, Or.inr (by decide)⟩, nil_ok, ?_, by simp⟩, ?_, hid 109 (by decide), nil_ok, ?_, ?_⟩
      · simp only [Args.ok, Arg.ok]
        exact ⟨⟨blank_ok, by decide +kernel⟩, ⟨ident_of _ (by decide) ⟨114, _, rfl, Or.inr (by decide)⟩, stops_of _ (by decide +kernel), by decide +kernel, Or.inr (Or.inl (by decide))⟩, trivial⟩
      · intro b hb
        simp only [List.mem_singleton] at hb
        subst hb
        exact (hcom 121).2 (by simp)
      · simp only [Args.ok, Arg.ok]
        refine ⟨⟨?_, by decide, ?_, stops_of _ (by decide +kernel), by decide +kernel, by decide +kernel⟩, ⟨blank_ok, by decide +kernel⟩, trivial⟩
        · refine ⟨str "-", str "2", str ".5", [], by decide, Or.inr (Or.inr rfl), ?_, Or.inr ⟨str "5", by decide, by decide, ?_⟩, Or.inl rfl⟩
          · unfold IsDigit; decide
          · unfold IsDigit; decide
        · unfold IsLetter; decide
      · rintro g ⟨⟩; exact nil_ok
    · intro b hb
      simp only [List.mem_singleton] at hb
      subst hb
      exact Or.inr (Or.inr (Or.inl rfl))

theorem sample_value (f : Funcs Q K) : sample.value someWords f = .list
    [.atrule (.text (str "import")) (.list [Value (url := some (str "a.css"))]) .none,
     .rule (.list [.list [.sel [(.elementSelector, [.text (str "a")]), (.classSelector, [.text (str "b")]),
          (.attributeSelector, [.list [.text (str "f"), .text (str "="), .text (str "g"), .none]])], .text (str ">"),
          .sel [(.pseudoClass, [.list [.text (str "not"), .list [.list [.sel [(.idSelector, [.text (str "e")])]]]]])]],
        .list [.sel [(.elementSelector, [.text (str "p")])]]])
      (.dict [(str "color", [Value (color := some (f.named (str "red"))) (text := some (str "red"))]),
        (str "m", [Value (text := some (str "-2.5")) (number := some (f.num (str "-2.5"))) (unit := some (str "em")), .text (str "!important")])])] := rfl

example : asciiUni.Ascii ∧ (∀ c, asciiUni.digit c = true → asciiUni.word c = true) ∧ sample.ok asciiUni someWords false ∧ ¬ sample.endsInComment := by
  refine ⟨asciiUni_ok, fun c h => ?_, sample_ok, ?_⟩
  · simp only [asciiUni] at h ⊢
    simp [h]
  · rintro ⟨b, hb, h⟩
    have : sample.tail = [.ws 10] := rfl
    rw [this] at hb
    simp only [List.mem_singleton] at hb
    subst hb
    cases h

/-- A sheet that ends in a comment. -/
example : (Css.mk [.comment (str "x")] []).endsInComment ∧ (Css.mk [.comment (str "x")] []).ok asciiUni someWords false :=
  ⟨⟨_, List.mem_cons_self .., rfl⟩, by
    refine ⟨fun b hb => ?_, by simp⟩
    simp only [List.mem_singleton] at hb
    subst hb
    intro i hi
    have : i = 0 := by simp [str] at hi; omega
    subst this
    simp [str]⟩

end Parce.CssL

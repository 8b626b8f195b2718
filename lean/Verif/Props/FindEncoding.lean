import Verif.Lemmas.FindEncoding
import Verif.Props.Xml
/-!
# C118 The encoding that a text or a stylesheet tells is found
-/
namespace Parce.FEnc
open Parce.Json (Uni)
open Parce.DocIO (str findEncoding)
open Parce.Xml (someUni someUni_ok)
variable {u : Uni}

/-! ### `IO.find_encoding` -/

/-- The first `encoding: w` or `encoding="w"` of a text is found, whatever is before and after it. (Missing: `coding: w`, see
    `C118_coding_violated`.) -/
theorem C118_told_partial (hu : u.Ascii) {t w : List Nat} (h : Tells u (str "encoding") t w) : findEncoding u.word t = some w := by
  obtain ⟨pre, b, sep, post, rfl, hb, hs, hw, hp, hl, hn⟩ := h
  have hd : (pre ++ (str "encoding" ++ (b ++ (sep ++ (w ++ post))))).drop pre.length = str "encoding" ++ (b ++ (sep ++ (w ++ post))) := List.drop_left ..
  generalize ht : pre ++ (str "encoding" ++ (b ++ (sep ++ (w ++ post)))) = t at hd hn
  have h1 : Best t (.bound u.word) pre.length pre.length := by
    refine Json.bound_left (u := u) (c := 101) (fun h0 c hc => hl c ?_) (drop_get (by rw [hd]; rfl)) (by rw [hu.word 101 (by omega)]; rfl)
    rw [List.getLast?_eq_getElem?, ← hc, ← ht, List.getElem?_append_left (by omega)]
  have h2 := h1.toC.cat (pc_key hu hb hs hw hp t pre.length (by rw [hd]; simp))
  have e : DocIO.encodingPat u.word = (Pat.bound u.word).cat (.cat (.str (str "en")) (.cat (.str (str "coding")) (.cat (.lazy DocIO.blank)
      (.cat (.alt (.cat (.str (str ":")) (.lazy DocIO.blank)) (.cat (.str (str "=")) (.cat (.lazy DocIO.blank) (.str (str "\"")))))
        (.grp 1 (.plus (.set (nameSet u)))))))) := rfl
  rw [← e] at h2
  have hlen : pre.length ≤ t.length := by rw [← ht]; simp
  have h3 := search_one (g := [(1, 8 + b.length + sep.length, 8 + b.length + sep.length + w.length)]) hlen (by simpa using h2) (fun i hi => fails_key (hn i hi))
  unfold findEncoding
  rw [h3]
  simp only [List.find?_cons, beq_self_eq_true]
  have e8 : (str "encoding").length = 8 := rfl
  have e2 : t = (pre ++ str "encoding" ++ b ++ sep) ++ w ++ post := by rw [← ht]; simp
  rw [e2, Xml.slice_mid _ w post (by simp [e8]; omega) (by simp [e8]; omega)]

/-- A text without the word has no encoding. -/
theorem C118_untold (u : Uni) {t : List Nat} (h : ¬ str "encoding" <:+: t) : findEncoding u.word t = none := by
  unfold findEncoding
  rw [search_none (fun i _ => fails_key (u := u) (fun hp => h (hp.isInfix.trans (List.drop_suffix i t).isInfix)))]

/-- `coding: w`, that the documentation tells too, is not found. -/
theorem C118_coding_violated : Tells someUni (str "coding") (str "# coding: latin1") (str "latin1") ∧
    findEncoding someUni.word (str "# coding: latin1") = none := by
  refine ⟨⟨str "# ", [], str ": ", [], by decide, (by intro c hc; cases hc), ⟨str " ", (by unfold Blanks; decide), Or.inl (by decide)⟩,
    ⟨by decide, ?_⟩, (by intro c hc; cases hc), (by intro c hc; have : c = 32 := (Option.some.inj hc).symm; subst this; rfl), ?_⟩, by decide +kernel⟩
  · unfold NameChar; decide
  · intro i hi
    have hl : (str "# ").length = 2 := rfl
    have : i = 0 ∨ i = 1 := by omega
    rcases this with rfl | rfl <;> decide

example : Tells someUni (str "encoding") (str "% my encoding = \"utf-8\" x") (str "utf-8") := by
  refine ⟨str "% my ", str " ", str "= \"", str "\" x", by decide, (by unfold Blanks; decide), ⟨str " ", (by unfold Blanks; decide), Or.inr (by decide)⟩,
    ⟨by decide, ?_⟩, ?_, (by intro c hc; have : c = 32 := (Option.some.inj hc).symm; subst this; rfl), ?_⟩
  · unfold NameChar; decide
  · intro c hc
    have : c = 34 := (Option.some.inj hc).symm
    subst this
    unfold NameChar; decide
  · intro i hi
    have hl : (str "% my ").length = 5 := rfl
    have : i = 0 ∨ i = 1 ∨ i = 2 ∨ i = 3 ∨ i = 4 := by omega
    rcases this with rfl | rfl | rfl | rfl | rfl <;> decide

/-! ### `CssIO.find_encoding` -/

/-- The encoding of a stylesheet is found, when there are only letters, digits, `-` and `_` in its name. (Missing: other names, see
    `C118_css_name_violated`.) -/
theorem C118_css_partial (hu : u.Ascii) {t w : List Nat} (h : CssTells t w) (hw : IsName u w) : cssEncoding u.space u.word t = some w := by
  obtain ⟨_, post, rfl⟩ := h
  have e : str "@charset \"" ++ (w ++ (str "\";" ++ post)) = (str "@charset" ++ (str " " ++ (str "\"" ++ (w ++ str "\"")))) ++ (str ";" ++ post) := by
    have : str "@charset \"" = str "@charset" ++ (str " " ++ str "\"") := by decide
    have e2 : str "\";" = str "\"" ++ str ";" := by decide
    rw [this, e2]; simp
  rw [e]
  have h1 := pc_charset (post := str ";" ++ post) hu hw _ 0 rfl
  have h3 := search_one (q := 0) (Nat.zero_le _) h1 (fun i hi => by omega)
  unfold cssEncoding
  rw [h3]
  simp only [List.find?_cons, beq_self_eq_true]
  have e2 : (str "@charset" ++ (str " " ++ (str "\"" ++ (w ++ str "\"")))) ++ (str ";" ++ post) =
      (str "@charset" ++ str " " ++ str "\"") ++ w ++ (str "\"" ++ (str ";" ++ post)) := by simp
  have e10 : (str "@charset" ++ str " " ++ str "\"").length = 10 := rfl
  rw [e2, Xml.slice_mid _ w _ (by rw [e10]) (by rw [e10]; omega)]

/-- A text without the word has no encoding. (Missing: texts with the word, see `C118_css_comment_violated`.) -/
theorem C118_css_none_partial (u : Uni) {t : List Nat} (h : ¬ str "@charset" <:+: t) : cssEncoding u.space u.word t = none := by
  unfold cssEncoding
  rw [search_none (fun i _ => fails_charset (u := u) (fun hp => h (hp.isInfix.trans (List.drop_suffix i t).isInfix)))]

/-- The encoding is found in a comment, and in the middle of a stylesheet. -/
theorem C118_css_comment_violated :
    (¬ ∃ w, CssTells (str "/* @charset \"a\" */") w) ∧ cssEncoding someUni.space someUni.word (str "/* @charset \"a\" */") = some (str "a") ∧
    (¬ ∃ w, CssTells (str "a {} @charset \"b\";") w) ∧ cssEncoding someUni.space someUni.word (str "a {} @charset \"b\";") = some (str "b") := by
  refine ⟨?_, by decide +kernel, ?_, by decide +kernel⟩
  · rintro ⟨w, _, post, h⟩
    have := congrArg List.head? h
    exact absurd (Option.some.inj this) (by decide)
  · rintro ⟨w, _, post, h⟩
    have := congrArg List.head? h
    exact absurd (Option.some.inj this) (by decide)

/-- A name with other characters is not found: this is a registered name of Latin 1. -/
theorem C118_css_name_violated : CssTells (str "@charset \"ISO_8859-1:1987\";") (str "ISO_8859-1:1987") ∧
    cssEncoding someUni.space someUni.word (str "@charset \"ISO_8859-1:1987\";") = none :=
  ⟨⟨by decide, [], by decide⟩, by decide +kernel⟩

example : CssTells (str "@charset \"utf-8\"; a {}") (str "utf-8") ∧ IsName someUni (str "utf-8") := by
  refine ⟨⟨by decide, str " a {}", by decide⟩, by decide, ?_⟩
  unfold NameChar; decide

example : ¬ str "encoding" <:+: str "no coding" := by decide +kernel
example : ¬ str "@charset" <:+: str "a { b: c; }" := by decide +kernel

end Parce.FEnc

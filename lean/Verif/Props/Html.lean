import Verif.Lemmas.Html
import Verif.Props.Xml
/-!
# C120 The tags of an HTML text are read as the elements they are of

`parce/lang/html.py`. The name of a void element makes no context, in whatever case it is written; the name of another element does, and
its end tag closes it. Proved for names that do not begin with the name of a void element (or with `style` or `script`); and for void
names that, inside another element, are written in lower case.
-/
namespace Parce.Html
open Parce.Json (Uni str)
open Parce.Xml (Name Ws XL XA chr spaces spacesLazy tagStop PC Term)
open Parce.CssL (PBest PFail)
variable {u : Uni} {x : Ext}

/-- The start tag of an element that is not void, without attributes, leads to the contents of the element; if it ends with `/>`
    it does not. -/
theorem C120_open_partial (hu : u.Ascii) {l : HL} (hl : Content l) {n ws : List Nat} (hn : Name u n) (hc : Clear n) (hw : Ws ws) (slash : Bool)
    (post : List Nat) :
    Takes u x l (startTag n ws slash) post (tagToks [str "<", n, if slash then str "/>" else str ">"])
      (if slash then none else some ⟨0, [.xml .tag]⟩) := by
  obtain ⟨ci, hl, -⟩ := cont_of hl
  have hterm : ∀ c, ((ws ++ tagStop slash) ++ post).head? = some c → Term c := by
    rw [List.append_assoc]; exact term_ws hw (term_stop slash post)
  have ew : str "<" ++ (n ++ (ws ++ tagStop slash)) ++ post = 60 :: (n ++ ((ws ++ tagStop slash) ++ post)) := by simp [str]
  rw [startTag_eq]
  have := takes_xml (x := x) hl (k := 5) (r := ⟨Xml.openPat u ci, fun _ gs => (.tagGroups, Xml.openTarget gs)⟩) (post := post)
    (tg := if slash then none else some ⟨0, [.tag]⟩) rfl (w := str "<" ++ (n ++ (ws ++ tagStop slash))) (by simp [str])
    (by rw [ew]; exact fail_close hn)
    (by rw [ew]; exact fail_open hu (Xml.name_space hn) (clear_void hterm hc))
    (by rw [ew]; exact pfail_style hterm hc.2 (hc.1 _ (by decide +kernel)) (hc.1 _ (by decide +kernel)))
    (by
      rw [ew]
      intro j hj
      exact Xml.fail_open5 hn j (by simp; omega))
    (pc_open hu slash hn hw (Xml.pbest_name hn hterm))
    (by
      have := text3 (str "<") n ws (tagStop slash) [(2, 1, 1 + n.length), (1, 0, 1)]
      simp only [Xml.openTarget]
      have e : (str "<").length = 1 := rfl
      rw [e] at this
      rw [this]
      cases slash <;> rfl)
    (toks3 (by decide) (Xml.name_ne hn) (stop_ne slash))
  cases slash <;> exact this

/-- With attributes it leads to the attributes. -/
theorem C120_open_attrs_partial (hu : u.Ascii) {l : HL} (hl : Content l) {n ws n' : List Nat} (hn : Name u n) (hc : Clear n) (hne : ws ≠ []) (hw : Ws ws)
    (hn' : Name u n') (post : List Nat) :
    Takes u x l (str "<" ++ n) (ws ++ n' ++ post) (tagToks [str "<", n]) (some ⟨0, [.attrs .none]⟩) := by
  obtain ⟨ci, hl, -⟩ := cont_of hl
  rw [List.append_assoc]
  have hterm : ∀ c, (ws ++ (n' ++ post)).head? = some c → Term c := by
    intro c hc
    cases ws with
    | nil => exact absurd rfl hne
    | cons x ws => obtain rfl : x = c := Option.some.inj hc; exact Or.inl (hw x (by simp))
  have ew : str "<" ++ n ++ (ws ++ (n' ++ post)) = 60 :: (n ++ (ws ++ (n' ++ post))) := by simp [str]
  exact takes_xml (x := x) hl (k := 5) (r := ⟨Xml.openPat u ci, fun _ gs => (.tagGroups, Xml.openTarget gs)⟩) (post := ws ++ (n' ++ post))
    (tg := some ⟨0, [.attrs]⟩) rfl (w := str "<" ++ n) (by simp [str])
    (by rw [ew]; exact fail_close hn)
    (by rw [ew]; exact fail_open hu (Xml.name_space hn) (clear_void hterm hc))
    (by rw [ew]; exact pfail_style hterm hc.2 (hc.1 _ (by decide +kernel)) (hc.1 _ (by decide +kernel)))
    (by
      rw [ew]
      intro j hj
      exact Xml.fail_open5 hn j (by simp; omega))
    (pc_open_attrs hu hn hw hn' (Xml.pbest_name hn hterm))
    rfl
    (toks2 (by decide) (Xml.name_ne hn))

/-- The end tag of an element that is not void closes it. -/
theorem C120_close_partial (hu : u.Ascii) {l : HL} (hl : Content l) {n ws : List Nat} (hn : Name u n) (hc : Clear n) (h58 : 58 ∉ n) (hw : Ws ws)
    (post : List Nat) : Takes u x l (endTag n ws) post (tagToks [str "</", n, str ">"]) (some ⟨1, []⟩) := by
  obtain ⟨ci, hl, -⟩ := cont_of hl
  have hterm : ∀ c, ((ws ++ str ">") ++ post).head? = some c → Term c := by
    rw [List.append_assoc]; exact term_ws hw (term_stop false post)
  have ew : str "</" ++ (n ++ (ws ++ str ">")) ++ post = 60 :: 47 :: (n ++ ((ws ++ str ">") ++ post)) := by simp [str]
  rw [endTag_eq]
  exact takes_xml (x := x) hl (k := 4) (r := Xml.rule (Xml.closePat u ci) .tagGroups (some ⟨1, []⟩)) (post := post)
    (tg := some ⟨1, []⟩) rfl (w := str "</" ++ (n ++ (ws ++ str ">"))) (by simp [str])
    (by rw [ew]; exact fail_close_name hu hn (fail_opt (pfail_prefix hu (Xml.name_ne hn) h58 hterm) (clear_void hterm hc)))
    (by rw [ew]; exact fail_open (n := []) hu (Xml.not_space hu (by decide) (by decide)) (void_slash _))
    (by rw [ew]; exact style_slash _)
    (by
      rw [ew]
      intro j hj r hr
      by_cases h3 : j = 3
      · subst h3
        obtain rfl := Option.some.inj hr
        exact Xml.fail_pp (by decide)
      · exact Xml.fail_bang (by decide) j (by simp; omega) r hr)
    (pc_close hu hn hw (Xml.pbest_name hn hterm))
    rfl
    (toks3 (by decide) (Xml.name_ne hn) (by decide))

/-- The start tag of a void element leads to nothing, whether it ends with `>` or `/>`. -/
theorem C120_void_partial (hu : u.Ascii) {l : HL} (hl : Content l) {n ws : List Nat} (hn : Name u n) (hv : Void n) (hcase : l = .xml .tag → lower n = n)
    (hw : Ws ws) (slash : Bool) (post : List Nat) :
    Takes u x l (startTag n ws slash) post (tagToks [str "<", n, if slash then str "/>" else str ">"]) none := by
  obtain ⟨ci, hl, hci⟩ := cont_of hl
  have hterm : ∀ c, ((ws ++ tagStop slash) ++ post).head? = some c → Term c := by
    rw [List.append_assoc]; exact term_ws hw (term_stop slash post)
  have ew : str "<" ++ (n ++ (ws ++ tagStop slash)) ++ post = 60 :: (n ++ ((ws ++ tagStop slash) ++ post)) := by simp [str]
  rw [startTag_eq]
  have := takes_of (x := x) (l := l) (i := 1) (r := ⟨voidOpenPat u ci, fun _ gs => (.x .tagGroups, voidTarget gs)⟩) (post := post) (tg := none)
    (by rw [cont_rules hl]; rfl) (w := str "<" ++ (n ++ (ws ++ tagStop slash)))
    (by
      rw [cont_rules hl]
      intro b hb
      obtain rfl : b = hrule (voidClosePat u ci) (.x .tagGroups) := by simpa [contentRules] using hb
      rw [ew]; exact fail_close hn) (by simp [str])
    (pc_open hu slash hn hw (pbest_void (void_fold hv (fun h => hcase (hci h))) hterm))
    (by
      have := text3 (str "<") n ws (tagStop slash) [(2, 1, 1 + n.length), (1, 0, 1)]
      have e : (str "<").length = 1 := rfl
      rw [e] at this
      simp only [voidTarget]
      rw [this])
    (toks3 (by decide) (Xml.name_ne hn) (stop_ne slash))
  cases slash <;> exact this

/-- With attributes it leads to the attributes, after which there is no content (`attrsNext .noclose` is empty). -/
theorem C120_void_attrs_partial (hu : u.Ascii) {l : HL} (hl : Content l) {n ws n' : List Nat} (hn : Name u n) (hv : Void n)
    (hcase : l = .xml .tag → lower n = n) (hne : ws ≠ []) (hw : Ws ws) (hn' : Name u n') (post : List Nat) :
    Takes u x l (str "<" ++ n) (ws ++ n' ++ post) (tagToks [str "<", n]) (some ⟨0, [.attrs .noclose]⟩) := by
  obtain ⟨ci, hl, hci⟩ := cont_of hl
  rw [List.append_assoc]
  have hterm : ∀ c, (ws ++ (n' ++ post)).head? = some c → Term c := by
    intro c hc
    cases ws with
    | nil => exact absurd rfl hne
    | cons x ws => obtain rfl : x = c := Option.some.inj hc; exact Or.inl (hw x (by simp))
  have ew : str "<" ++ n ++ (ws ++ (n' ++ post)) = 60 :: (n ++ (ws ++ (n' ++ post))) := by simp [str]
  exact takes_of (x := x) (l := l) (i := 1) (r := ⟨voidOpenPat u ci, fun _ gs => (.x .tagGroups, voidTarget gs)⟩) (post := ws ++ (n' ++ post))
    (tg := some ⟨0, [.attrs .noclose]⟩)
    (by rw [cont_rules hl]; rfl) (w := str "<" ++ n)
    (by
      rw [cont_rules hl]
      intro b hb
      obtain rfl : b = hrule (voidClosePat u ci) (.x .tagGroups) := by simpa [contentRules] using hb
      rw [ew]; exact fail_close hn) (by simp [str])
    (pc_open_attrs hu hn hw hn' (pbest_void (void_fold hv (fun h => hcase (hci h))) hterm))
    rfl
    (toks2 (by decide) (Xml.name_ne hn))

/-- The end tag of a void element, as older texts have, closes nothing. -/
theorem C120_void_close_partial (hu : u.Ascii) {l : HL} (hl : Content l) {n ws : List Nat} (hn : Name u n) (hv : Void n) (hcase : l = .xml .tag → lower n = n)
    (hw : Ws ws) (post : List Nat) : Takes u x l (endTag n ws) post (tagToks [str "</", n, str ">"]) none := by
  obtain ⟨ci, hl, hci⟩ := cont_of hl
  have hterm : ∀ c, ((ws ++ str ">") ++ post).head? = some c → Term c := by
    rw [List.append_assoc]; exact term_ws hw (term_stop false post)
  have hf := void_fold hv (fun h => hcase (hci h))
  have h58 : 58 ∉ n := by
    intro h
    have := voids_low _ hf _ (List.mem_map_of_mem h)
    revert this
    cases ci <;> (unfold Low; decide)
  rw [endTag_eq]
  have hnp : PBest (voidName u ci) n ((ws ++ str ">") ++ post) := by
    have := PBest.cat (v := []) (w := n) (CssL.pbest_none (pfail_prefix hu (Xml.name_ne hn) h58 hterm)) (pbest_void hf hterm)
    exact this
  exact takes_of (x := x) (l := l) (i := 0) (r := hrule (voidClosePat u ci) (.x .tagGroups)) (post := post) (tg := none)
    (by rw [cont_rules hl]; rfl) (w := str "</" ++ (n ++ (ws ++ str ">")))
    (by rw [cont_rules hl]; intro b hb; simp at hb) (by simp [str])
    (pc_close hu hn hw hnp) rfl (toks3 (by decide) (Xml.name_ne hn) (by decide))

/-- In the attributes, `>` leads to what the element has for contents: for a void element nothing. -/
theorem C120_attrs_end (a : Arg) (post : List Nat) : Takes u x (.attrs a) (str ">") post [(str ">", .x .delimiter)]
    (some ⟨1, match a with | .none => [.xml .tag] | .css => [.styleTag] | .js => [.scriptTag] | .noclose => []⟩) := by
  refine takes_plain (i := 1) (r := hrule (chr ">") (.x .delimiter) (some ⟨1, attrsNext a⟩)) (g := []) rfl ?_ (by decide)
    (PC.of (Xml.pbest_chr ">" post)) ?_ rfl rfl
  · intro b hb
    obtain rfl : b = hrule (.cat (.grp 1 (chr "style")) (.cat (spaces u) (.cat (.grp 2 (chr "=")) (.cat (spaces u) (.grp 3 (chr "\""))))))
       .styleGroups (some ⟨0, [.styleAttr]⟩) := by simpa [rules] using hb
    refine CssL.pfail_cat (Xml.pfail_grp (CssL.pfail_chr (c := 115) (w := str "tyle") ?_))
    show some 62 ≠ some 115
    decide
  · cases a <;> rfl

/-- The start tag `<style>` or `<script>` leads to the stylesheet or the script. -/
theorem C120_raw (hu : u.Ascii) {l : HL} (hl : Content l) {n : List Nat} (h : n = str "style" ∨ n = str "script") (post : List Nat) :
    Takes u x l (startTag n [] false) post (tagToks [str "<", n, str ">"])
      (some ⟨0, [if n = str "style" then .styleTag else .scriptTag]⟩) := by
  obtain ⟨ci, hl, -⟩ := cont_of hl
  have hn : Name u n := by
    have : ∀ m : List Nat, (∃ c r, m = c :: r ∧ (97 ≤ c ∧ c ≤ 122) ∧ ∀ y ∈ r, 97 ≤ y ∧ y ≤ 122) → Name u m := by
      rintro m ⟨c, r, rfl, hc, hr⟩
      refine ⟨⟨c, r, rfl, Or.inr (Or.inr ⟨(97, 122), by simp, hc⟩), fun y hy => Or.inl (Or.inr (Or.inr ⟨(97, 122), by simp, hr y hy⟩))⟩, ?_⟩
      intro y hy
      have : 97 ≤ y ∧ y ≤ 122 := by
        rcases List.mem_cons.1 hy with rfl | hy
        · exact hc
        · exact hr y hy
      rw [hu.space y (by omega)]
      simp only [Bool.or_eq_false_iff, Bool.and_eq_false_iff, decide_eq_false_iff_not]
      omega
    rcases h with rfl | rfl
    · exact this _ ⟨115, str "tyle", by decide, by decide, by decide⟩
    · exact this _ ⟨115, str "cript", by decide, by decide, by decide⟩
  have hterm := term_stop false post
  have ew : str "<" ++ (n ++ ([] ++ str ">")) ++ post = 60 :: (n ++ (tagStop false ++ post)) := by simp [str, tagStop]
  rw [startTag_eq]
  refine takes_of (x := x) (l := l) (i := 2) (r := ⟨stylePat u ci, fun _ gs => (.x .tagGroups, styleTarget gs)⟩) (post := post)
    (by rw [cont_rules hl]; rfl) (w := str "<" ++ (n ++ ([] ++ str ">")))
    (by
      rw [cont_rules hl, ew]
      intro b hb
      have hb : b = hrule (voidClosePat u ci) (.x .tagGroups) ∨ b = ⟨voidOpenPat u ci, fun _ gs => (.x .tagGroups, voidTarget gs)⟩ := by
        simpa [contentRules] using hb
      rcases hb with rfl | rfl
      · exact fail_close hn
      · exact fail_open hu (Xml.name_space hn) (raw_void h hterm)) (by simp [str])
    (pc_raw hu h post) ?_
    (toks3 (ws := []) (by decide) (Xml.name_ne hn) (by decide))
  rcases h with rfl | rfl <;> rfl

/-- With attributes it leads to the attributes, after which comes the stylesheet or the script. -/
theorem C120_raw_attrs (hu : u.Ascii) {l : HL} (hl : Content l) {n ws : List Nat} (h : n = str "style" ∨ n = str "script") (hn : Name u n) (hne : ws ≠ [])
    (hw : Ws ws) (post : List Nat) :
    Takes u x l (str "<" ++ n) (ws ++ post) (tagToks [str "<", n]) (some ⟨0, [.attrs (if n = str "style" then .css else .js)]⟩) := by
  obtain ⟨ci, hl, -⟩ := cont_of hl
  have hterm : ∀ c, (ws ++ post).head? = some c → Term c := by
    intro c hc
    cases ws with
    | nil => exact absurd rfl hne
    | cons x ws => obtain rfl : x = c := Option.some.inj hc; exact Or.inl (hw x (by simp))
  have ew : str "<" ++ n ++ (ws ++ post) = 60 :: (n ++ (ws ++ post)) := by simp [str]
  refine takes_of (x := x) (l := l) (i := 2) (r := ⟨stylePat u ci, fun _ gs => (.x .tagGroups, styleTarget gs)⟩) (post := ws ++ post)
    (by rw [cont_rules hl]; rfl) (w := str "<" ++ n)
    (by
      rw [cont_rules hl, ew]
      intro b hb
      have hb : b = hrule (voidClosePat u ci) (.x .tagGroups) ∨ b = ⟨voidOpenPat u ci, fun _ gs => (.x .tagGroups, voidTarget gs)⟩ := by
        simpa [contentRules] using hb
      rcases hb with rfl | rfl
      · exact fail_close hn
      · exact fail_open hu (Xml.name_space hn) (raw_void h hterm)) (by simp [str])
    (pc_raw_attrs hu h hne hw) ?_
    (toks2 (by decide) (Xml.name_ne hn))
  rcases h with rfl | rfl <;> rfl

/-- The end tag ends the stylesheet, whatever the rules of the embedded language are. -/
theorem C120_style_end (hu : u.Ascii) {ws : List Nat} (hn : Name u (str "style")) (hw : Ws ws) (post : List Nat) :
    Takes u x .styleTag (endTag (str "style") ws) post (tagToks [str "</", str "style", str ">"]) (some ⟨1, []⟩) := by
  rw [endTag_eq]
  exact takes_of (x := x) (i := 0) (r := hrule (endPat u (str "style")) (.x .tagGroups) (some ⟨1, []⟩)) (post := post) rfl
    (by intro b hb; simp at hb) (by simp [str]) (pc_end hu hn hw) rfl (toks3 (by decide) (Xml.name_ne hn) (by decide))

/-- The same for the script. -/
theorem C120_script_end (hu : u.Ascii) {ws : List Nat} (hn : Name u (str "script")) (hw : Ws ws) (post : List Nat) :
    Takes u x .scriptTag (endTag (str "script") ws) post (tagToks [str "</", str "script", str ">"]) (some ⟨1, []⟩) := by
  rw [endTag_eq]
  exact takes_of (x := x) (i := 0) (r := hrule (endPat u (str "script")) (.x .tagGroups) (some ⟨1, []⟩)) (post := post) rfl
    (by intro b hb; simp at hb) (by simp [str]) (pc_end hu hn hw) rfl (toks3 (by decide) (Xml.name_ne hn) (by decide))

/-- No embedded languages. -/
def noExt : Ext := ⟨[], [], .skip, .skip, fun _ => [], fun _ => .skip⟩

open Parce.Xml (someUni someUni_ok)

/-- The hypotheses can be met: `div`, `br`, `BR`. -/
example : someUni.Ascii ∧ Name someUni (str "div") ∧ Clear (str "div") ∧ 58 ∉ str "div" ∧ Name someUni (str "BR") ∧ Void (str "BR") ∧ Void (str "br") ∧
    lower (str "br") = str "br" ∧ Ws (str " ") ∧ Name someUni (str "style") ∧ Name someUni (str "script") := by
  refine ⟨someUni_ok, ⟨⟨100, str "iv", by decide, ?_, ?_⟩, by decide⟩, ⟨by decide +kernel, by decide⟩, by decide,
    ⟨⟨66, str "R", by decide, ?_, ?_⟩, by decide⟩, by unfold Void; decide +kernel, by unfold Void; decide +kernel, by decide, by unfold Ws; decide,
    ⟨⟨115, str "tyle", by decide, ?_, ?_⟩, by decide⟩, ⟨⟨115, str "cript", by decide, ?_, ?_⟩, by decide⟩⟩ <;>
    first | (unfold Xml.IsStart; decide) | (unfold Xml.IsName Xml.IsStart; decide)

/-- The first thing that is read in a lexicon: the texts and the target. -/
def first (l : HL) (t : List Nat) : Option (List (List Nat) × Option (Target HL)) :=
  (parseNext (HA.x .none) ((lang someUni noExt).ld l) t (.at 0 false)).map fun r =>
    (((lang someUni noExt).expand r.1).map (·.text), r.1.tgt)

/-- **C120** is violated: `<colgroup>` is not void, but it is read as `<col` with an attribute `group`, and has no contents. -/
theorem C120_prefix_violated : ¬ Void (str "colgroup") ∧
    first (.xml .root) (str "<colgroup>") = some ([str "<", str "col"], some ⟨0, [.attrs .noclose]⟩) := by
  refine ⟨by unfold Void; decide +kernel, by decide +kernel⟩

/-- **C120** is violated: inside an element, `<BR>` is not void, although it is in the document itself. -/
theorem C120_case_violated : Void (str "BR") ∧
    first (.xml .tag) (str "<BR>") = some ([str "<", str "BR", str ">"], some ⟨0, [.xml .tag]⟩) ∧
    first (.xml .root) (str "<BR>") = some ([str "<", str "BR", str ">"], none) := by
  refine ⟨by unfold Void; decide +kernel, by decide +kernel, by decide +kernel⟩

/-- **C120** is violated: `<STYLE>` in the document is known, but leads to nothing; so its text is read as HTML, and its end tag closes
    another element. -/
theorem C120_style_violated : Raw (str "STYLE") ∧
    first (.xml .root) (str "<STYLE>") = some ([str "<", str "STYLE", str ">"], none) ∧
    first (.xml .root) (str "</STYLE>") = some ([str "</", str "STYLE", str ">"], some ⟨1, []⟩) := by
  refine ⟨by unfold Raw; decide +kernel, by decide +kernel, by decide +kernel⟩

/-- **C120** is violated: `<script-x>` is read as the tag of a script. -/
theorem C120_script_violated : ¬ Raw (str "script-x") ∧
    first (.xml .root) (str "<script-x>") = some ([str "<", str "script"], some ⟨0, [.attrs .js]⟩) := by
  refine ⟨by unfold Raw; decide +kernel, by decide +kernel⟩

/-- **C120** is violated: the element `x:br` has contents, but its end tag does not close it. -/
theorem C120_close_violated : ¬ Void (str "x:br") ∧
    first (.xml .root) (str "<x:br>") = some ([str "<", str "x:br", str ">"], some ⟨0, [.xml .tag]⟩) ∧
    first (.xml .tag) (str "</x:br>") = some ([str "</", str "x:br", str ">"], none) := by
  refine ⟨by unfold Void; decide +kernel, by decide +kernel, by decide +kernel⟩

end Parce.Html

import Verif.Lemmas.XmlItem
/-!
# C116: the tree of an XML text
-/
namespace Parce.Xml
open Parce.Json (Uni str)
variable {u : Uni}

/-- **C116**, the part that holds: the lexer of `Xml` comes to the end of every sequence of well-formed pieces, elements in elements to
    any depth, and then the tree has their structure. Missing: comments with something that looks like a web address, texts that
    consist of spaces that are no white space in XML, processing instructions with other content than attributes, and document type
    declarations. -/
theorem C116_tree_partial (hu : u.Ascii) (c : List Item) (h : itemsOk u false c) :
    (∃ n, RB.Finished (lang u) .root (itemsStr c) n) ∧
    ∀ n, RB.Finished (lang u) .root (itemsStr c) n →
      view (buildTree (lang u) .root (itemsStr c) 0 n) = .ctx .root (itemsView c) := by
  refine ⟨?_, fun n hn => ?_⟩
  rotate_left
  · obtain ⟨cs, h1, h2⟩ := items_tree hu c h n hn
    rw [h1, view, h2]
    rfl
  obtain ⟨n, evs, cs, h1, _⟩ := run_items hu c h
  refine ⟨n, ?_⟩
  unfold RB.Finished
  rw [h1]
  rfl

mutual
def V.eqb : V → V → Bool
  | .tok w a, .tok w' a' => w == w' && a == a'
  | .comment w, .comment w' => w == w'
  | .ctx l cs, .ctx l' cs' => l == l' && eqbs cs cs'
  | _, _ => false
def eqbs : List V → List V → Bool
  | [], [] => true
  | v :: vs, v' :: vs' => v.eqb v' && eqbs vs vs'
  | _, _ => false
end

mutual
theorem eqb_eq : ∀ v v' : V, v.eqb v' = true → v = v'
  | .tok w a, v', h => by cases v' <;> simp_all [V.eqb]
  | .comment w, v', h => by cases v' <;> simp_all [V.eqb]
  | .ctx l cs, v', h => by
    cases v' with
    | ctx l' cs' =>
      simp only [V.eqb, Bool.and_eq_true, beq_iff_eq] at h
      rw [h.1, eqbs_eq cs cs' h.2]
    | _ => simp [V.eqb] at h
theorem eqbs_eq : ∀ vs vs' : List V, eqbs vs vs' = true → vs = vs'
  | [], vs', h => by cases vs' <;> simp_all [eqbs]
  | v :: vs, vs', h => by
    cases vs' with
    | nil => simp [eqbs] at h
    | cons v' vs' =>
      simp only [eqbs, Bool.and_eq_true] at h
      rw [eqb_eq v v' h.1, eqbs_eq vs vs' h.2]
end

/-- `\d`, `\s` and `\w` for ASCII, and the no-break space. -/
def someUni : Uni where
  digit c := 48 ≤ c && c ≤ 57
  space c := (9 ≤ c && c ≤ 13) || (28 ≤ c && c ≤ 32) || c == 160
  word c := (48 ≤ c && c ≤ 57) || (65 ≤ c && c ≤ 90) || c == 95 || (97 ≤ c && c ≤ 122)

theorem someUni_ok : someUni.Ascii :=
  ⟨fun _ _ => rfl, fun c hc => by
    have : (c == 160) = false := by simp only [beq_eq_false_iff_ne, ne_eq]; omega
    simp [someUni, this], fun _ _ => rfl⟩

theorem not_within {s : String} {w : List Nat} (h : ∀ i < w.length + 1, (str s).isPrefixOf (w.drop i) = false) : ¬ Within s w := by
  rintro ⟨a, b, rfl⟩
  have := h a.length (by simp; omega)
  rw [List.append_assoc, List.drop_left] at this
  have h2 : (str s).isPrefixOf (str s ++ b) = true := by rw [List.isPrefixOf_iff_prefix]; exact List.prefix_append ..
  rw [h2] at this
  cases this

/-- `<?p v='1'?><a b = "x&lt;y" ><!-- me@x.org --><b/> c<![CDATA[<]]></a>` -/
def someXml : List Item :=
  [.pi (str "p") [⟨str " ", str "v", [], [], false, [.chars (str "1")]⟩] [],
   .elem (str "a") [⟨str " ", str "b", str " ", str " ", true, [.chars (str "x"), .ref (str "lt"), .chars (str "y")]⟩] (str " ")
     [.comment (str " me@x.org "), .empty (str "b") [] [], .text (str " c"), .cdata (str "<")] []]

theorem someXml_text : itemsStr someXml = str "<?p v='1'?><a b = \"x&lt;y\" ><!-- me@x.org --><b/> c<![CDATA[<]]></a>" := by decide

theorem someXml_ok : itemsOk someUni false someXml := by
  have hs : Ws (str " ") := by unfold Ws; decide
  have h0 : Ws [] := by intro c hc; cases hc
  have hn : ∀ c, IsStart c → someUni.space c = false → Name someUni [c] := fun c h1 h2 => ⟨⟨c, [], rfl, h1, by simp⟩, by simpa using h2⟩
  have na : Name someUni (str "a") := hn 97 (by unfold IsStart; decide) (by decide)
  have nb : Name someUni (str "b") := hn 98 (by unfold IsStart; decide) (by decide)
  have nv : Name someUni (str "v") := hn 118 (by unfold IsStart; decide) (by decide)
  have np : Name someUni (str "p") := hn 112 (by unfold IsStart; decide) (by decide)
  refine ⟨⟨np, ?_, h0⟩, by simp, ⟨na, ?_, hs, ?_, h0⟩, by simp, trivial⟩
  · intro a ha
    simp only [List.mem_singleton] at ha
    subst ha
    exact ⟨by decide, hs, nv, h0, h0, by decide, by decide, by simp, trivial⟩
  · intro a ha
    simp only [List.mem_singleton] at ha
    subst ha
    exact ⟨by decide, hs, nb, hs, hs, by decide, by decide, by simp, by unfold RefName; decide, by decide, by decide, by simp, trivial⟩
  · exact ⟨⟨not_within (by decide), fun _ => ⟨not_within (by decide), not_within (by decide)⟩⟩, by simp,
      ⟨nb, by simp, h0⟩, by simp, ⟨by decide, by decide, fun _ => Or.inr ⟨99, by decide, by decide⟩⟩, by simp,
      not_within (by decide), by simp, trivial⟩

example : someUni.Ascii ∧ itemsOk someUni false someXml ∧ itemsView someXml =
    [.tok (str "<?") .ppStart, .tok (str "p") .ppName,
      .ctx .pi [.tok (str " ") .ppText, .tok (str "v") .attribute, .tok (str "=") .operator, .tok (str "'") .sqStart,
        .ctx .sqstring [.tok (str "1") .sq, .tok (str "'") .sqEnd], .tok (str "?>") .ppEnd],
     .tok (str "<") .delimiter, .tok (str "a") .tagName,
      .ctx .attrs [.tok (str "b") .attribute, .tok (str "=") .operator, .tok (str "\"") .dqStart,
        .ctx .dqstring [.tok (str "x") .dq, .tok (str "&lt;") .stringEscape, .tok (str "y") .dq, .tok (str "\"") .dqEnd],
        .tok (str ">") .delimiter],
      .ctx .tag [.tok (str "<!--") .commentStart, .comment (str " me@x.org -->"),
        .tok (str "<") .delimiter, .tok (str "b") .tagName, .tok (str "/>") .delimiter, .tok (str " c") .text,
        .tok (str "<![") .delimiter, .tok (str "CDATA") .dataDef, .tok (str "[") .delimiter,
          .ctx .cdata [.tok (str "<") .data, .tok (str "]]>") .delimiter],
        .tok (str "</") .delimiter, .tok (str "a") .tagName, .tok (str ">") .delimiter]] :=
  ⟨someUni_ok, someXml_ok, rfl⟩

/-- **C116** is violated: a web address at the end of a comment takes the dashes that end the comment, so the comment goes on to the end
    of the text. Here are `<!--http://x-->` and `<a/>`. -/
theorem C116_comment_violated : ∃ (c : List Item) (n : Nat), itemsOk someUni true c ∧ RB.Finished (lang someUni) .root (itemsStr c) n ∧
    itemsView c = [.tok (str "<!--") .commentStart, .comment (str "http://x-->"), .tok (str "<") .delimiter, .tok (str "a") .tagName, .tok (str "/>") .delimiter] ∧
    view (buildTree (lang someUni) .root (itemsStr c) 0 n) = .ctx .root [.tok (str "<!--") .commentStart, .comment (str "http://x--><a/>")] := by
  refine ⟨[.comment (str "http://x"), .empty (str "a") [] []], 20, ?_, ?_, rfl, eqb_eq _ _ (by decide +kernel)⟩
  · exact ⟨⟨not_within (by decide), by simp⟩, by simp, ⟨⟨⟨97, [], rfl, by unfold IsStart; decide, by simp⟩, by decide⟩, by simp, by intro c hc; cases hc⟩, by simp, trivial⟩
  · unfold RB.Finished
    decide +kernel

/-- **C116** is violated: a no-break space between tags is called white space. -/
theorem C116_space_violated : ∃ (c : List Item) (n : Nat), itemsOk someUni true c ∧ RB.Finished (lang someUni) .root (itemsStr c) n ∧
    itemsView c = [.tok [160] .text] ∧ view (buildTree (lang someUni) .root (itemsStr c) 0 n) = .ctx .root [.tok [160] .whitespace] := by
  refine ⟨[.text [160]], 20, ?_, ?_, rfl, eqb_eq _ _ (by decide +kernel)⟩
  · exact ⟨⟨by decide, by decide, by simp⟩, by simp, trivial⟩
  · unfold RB.Finished
    decide +kernel

/-- **C116** is violated: in a processing instruction, an apostrophe starts a string that does not end with `?>`. The text is
    `<?p it's?><a/>`. -/
theorem C116_pi_violated : ∃ (n : Nat), RB.Finished (lang someUni) .root (str "<?p it's?><a/>") n ∧
    view (buildTree (lang someUni) .root (str "<?p it's?><a/>") 0 n) = .ctx .root [.tok (str "<?") .ppStart, .tok (str "p") .ppName,
      .ctx .pi [.tok (str " it") .ppText, .tok (str "'") .sqStart, .ctx .sqstring [.tok (str "s?><a/>") .sq]]] := by
  refine ⟨20, ?_, eqb_eq _ _ (by decide +kernel)⟩
  unfold RB.Finished
  decide +kernel

end Parce.Xml

import Verif.Lemmas.HtmlEncoding
import Verif.Props.Html
/-!
# C124: the encoding found in an HTML text
-/
namespace Parce.Html
open Parce.Json (Uni str)
open Parce.Xml (someUni someUni_ok)
variable {u : Uni}

/-- **C124**, the part that holds: in every tree with `meta` elements, of which the attributes have values in double quotes that are not
    empty, the encoding is found that is declared by the first `meta` that declares one. Missing: other values, see `C124_single_violated`,
    `C124_bare_violated`, `C124_empty_violated`, and `META` in other case, see `C124_case_violated`. Also missing is the step from any text to
    its tree, which is only evaluated for the texts below. -/
theorem C124_declared_partial (hu : u.Ascii) {l : HL} {cs : List HNode} {m1 m2 : List (List MAttr)} {as : List MAttr} {w : List Nat}
    (h : MetaNodes cs (m1 ++ as :: m2)) (h1 : ∀ m ∈ m1, Silent m) (hd : Declares u as w) (other : Option (List Nat)) :
    findEncoding u (.ctx l cs) other = some w := by
  have hm := metas_read (u := u) (MetaNodes.ctx (l := l) h .nil)
  rw [found_of, hm, List.append_nil, List.map_append, List.map_cons, declares_loop hu hd, List.findSome?_append]
  have : (m1.map (fun as => aLoop u as false none)).findSome? id = none := by
    rw [List.findSome?_eq_none_iff]
    intro x hx
    obtain ⟨m, hm, rfl⟩ := List.mem_map.1 hx
    exact silent_loop (h1 m hm)
  rw [this]
  rfl

/-- **C124**, the part that holds: when no `meta` declares an encoding, the result is what is found in the XML declaration. -/
theorem C124_none_partial {l : HL} {cs : List HNode} {ms : List (List MAttr)} (h : MetaNodes cs ms) (h1 : ∀ m ∈ ms, Silent m) (other : Option (List Nat)) :
    findEncoding u (.ctx l cs) other = other := by
  have hm := metas_read (u := u) (MetaNodes.ctx (l := l) h .nil)
  rw [found_of, hm, List.append_nil]
  have : (ms.map (fun as => aLoop u as false none)).findSome? id = none := by
    rw [List.findSome?_eq_none_iff]
    intro x hx
    obtain ⟨m, hm, rfl⟩ := List.mem_map.1 hx
    exact silent_loop (h1 m hm)
  rw [this]

/-! ### Texts -/

/-- The tree of a text. -/
def treeOf (t : List Nat) (n : Nat) : HNode := buildTree (xlang someUni noExt) (.xml .root) t 0 n

/-- The lexer has come to the end. -/
def Done (t : List Nat) (n : Nat) : Prop := RB.Finished (xlang someUni noExt) (.xml .root) t n

instance (t : List Nat) (n : Nat) : Decidable (Done t n) := by unfold Done RB.Finished; infer_instance

/-- The text `<html><meta name="a" content="charset=x"/><meta CONTENT="text/html; Charset = u8" http-equiv="Content-Type "><meta charset="y"/>`. -/
def someHtml : List Nat := str "<html><meta name=\"a\" content=\"charset=x\"/><meta CONTENT=\"text/html; Charset = u8\" http-equiv=\"Content-Type \"><meta charset=\"y\"/>"

def meta1 : List MAttr := [⟨str "name", str "a"⟩, ⟨str "content", str "charset=x"⟩]
def meta2 : List MAttr := [⟨str "CONTENT", str "text/html; Charset = u8"⟩, ⟨str "http-equiv", str "Content-Type "⟩]
def meta3 : List MAttr := [⟨str "charset", str "y"⟩]

theorem some_silent : Silent meta1 := by
  refine ⟨by decide, .inl (by decide)⟩

theorem some_declares : Declares someUni meta2 (str "u8") := by
  refine .inr ⟨by decide, ⟨⟨str "http-equiv", str "Content-Type "⟩, by simp [meta2], by decide, [], str "Content-Type", str " ", by decide, by simp [Xml.Ws], ?_, by decide⟩,
    [], [⟨str "http-equiv", str "Content-Type "⟩], str "CONTENT", str "text/html; Charset = u8", rfl, by decide, ?_, by decide⟩
  · unfold Xml.Ws; decide
  · refine ⟨str "text/html; ", str "Charset", str " ", str " ", [], by decide, by decide, ?_, ?_, ⟨by decide, ?_⟩, by simp, ?_, ?_, by decide⟩
    · unfold Xml.Ws; decide
    · unfold Xml.Ws; decide
    · unfold FEnc.NameChar; decide
    · intro c hc
      have : c = 32 := by
        have e : (str "text/html; ").getLast? = some 32 := by decide
        rw [e] at hc
        exact (Option.some.inj hc).symm
      subst this; rfl
    · have : (str "text/html; ").length = 11 := by decide
      rw [this]
      decide +kernel

def tk (p : Nat) (w : List Nat) (a : Xml.XA) (g : Option Int := none) : HNode := .tok ⟨p, w, .x a, g⟩

/-- The nodes of an attribute at a position, with the nodes after it. -/
def attrAt (p : Nat) (a : MAttr) (ns : List HNode) : List HNode :=
  .tok ⟨p, a.name, .x .attribute, none⟩ :: .tok ⟨p + a.name.length, [61], .x .operator, none⟩ :: .tok ⟨p + a.name.length + 1, [34], .x .dqStart, none⟩ ::
    .ctx (.xml .dqstring) [.tok ⟨p + a.name.length + 2, a.value, .x .dq, none⟩, .tok ⟨p + a.name.length + 2 + a.value.length, [34], .x .dqEnd, none⟩] :: ns

theorem attrAt_reads {p : Nat} {a : MAttr} {ns : List HNode} {as : List MAttr} (hv : a.value ≠ []) (h : Reads ns as) : Reads (attrAt p a ns) (a :: as) :=
  .attr rfl rfl rfl hv h

/-- The tree of the text. -/
def someTree : List HNode :=
  [tk 0 (str "<") .delimiter (some 0), tk 1 (str "html") .tagName (some 1), tk 5 (str ">") .delimiter (some (-2)), .ctx (.xml .tag)
    [tk 6 (str "<") .delimiter (some 0), tk 7 (str "meta") .tagName (some (-1)),
     .ctx (.attrs .none) (attrAt 12 ⟨str "name", str "a"⟩ (attrAt 21 ⟨str "content", str "charset=x"⟩ [tk 40 (str "/>") .delimiter])),
     tk 42 (str "<") .delimiter (some 0), tk 43 (str "meta") .tagName (some (-1)),
     .ctx (.attrs .none) (attrAt 48 ⟨str "CONTENT", str "text/html; Charset = u8"⟩ (attrAt 82 ⟨str "http-equiv", str "Content-Type "⟩ [tk 108 (str ">") .delimiter])),
     .ctx (.xml .tag) [tk 109 (str "<") .delimiter (some 0), tk 110 (str "meta") .tagName (some (-1)),
       .ctx (.attrs .none) (attrAt 115 ⟨str "charset", str "y"⟩ [tk 126 (str "/>") .delimiter])]]]

theorem someTree_meta : MetaNodes someTree ([meta1] ++ meta2 :: [meta3]) := by
  refine .tok (by decide) (.tok (by decide) (.tok (by decide) (.ctx (ms := [meta1, meta2, meta3]) (ms' := []) ?_ .nil)))
  refine .tok (by decide) (.found rfl rfl (attrAt_reads (by decide) (attrAt_reads (by decide) (.stop _ rfl))) ?_)
  refine .tok (by decide) (.found rfl rfl (attrAt_reads (by decide) (attrAt_reads (by decide) (.stop _ rfl))) ?_)
  refine .ctx (ms := [meta3]) (ms' := []) ?_ .nil
  exact .tok (by decide) (.found rfl rfl (attrAt_reads (by decide) (.stop _ rfl)) .nil)

theorem someHtml_done : Done someHtml 80 := by
  unfold Done RB.Finished
  decide +kernel

theorem someHtml_tree : treeOf someHtml 80 = .ctx (.xml .root) someTree := by decide +kernel

example : someUni.Ascii ∧ Done someHtml 80 ∧ treeOf someHtml 80 = .ctx (.xml .root) someTree ∧ MetaNodes someTree ([meta1] ++ meta2 :: [meta3]) ∧
    (∀ m ∈ [meta1], Silent m) ∧ Declares someUni meta2 (str "u8") ∧ Declares someUni meta3 (str "y") :=
  ⟨someUni_ok, someHtml_done, someHtml_tree, someTree_meta, by simpa using some_silent, some_declares,
    .inl ⟨[], [], str "charset", rfl, by decide, by decide, by simp⟩⟩

example : MetaNodes (someTree.take 3) [] ∧ MetaNodes [tk 0 (str "<") .delimiter, tk 1 (str "meta") .tagName,
    .ctx (.attrs .none) (attrAt 6 ⟨str "http-equiv", str "refresh"⟩ [tk 20 (str ">") .delimiter])] [[⟨str "http-equiv", str "refresh"⟩]] ∧
    Silent [⟨str "http-equiv", str "refresh"⟩] :=
  ⟨.tok (by decide) (.tok (by decide) (.tok (by decide) .nil)), .tok (by decide) (.found rfl rfl (attrAt_reads (by decide) (.stop _ rfl)) .nil),
    by decide, .inl (by
      intro b hb _ hi
      obtain rfl := List.mem_singleton.1 hb
      exact absurd hi.length_le (by decide))⟩

/-- **C124** is violated: with single quotes, the value of another attribute is taken. In `<meta charset='u8' name="x">` the encoding found is `x`. -/
theorem C124_single_violated : ∃ n, Done (str "<meta charset='u8' name=\"x\">") n ∧
    findEncoding someUni (treeOf (str "<meta charset='u8' name=\"x\">") n) none = some (str "x") :=
  ⟨60, by decide +kernel, by decide +kernel⟩

/-- **C124** is violated: so it is without quotes, in `<meta charset=u8 name="x">`. -/
theorem C124_bare_violated : ∃ n, Done (str "<meta charset=u8 name=\"x\">") n ∧
    findEncoding someUni (treeOf (str "<meta charset=u8 name=\"x\">") n) none = some (str "x") :=
  ⟨60, by decide +kernel, by decide +kernel⟩

/-- **C124** is violated: with an empty value, in `<meta charset="">`, the encoding found is the quote. -/
theorem C124_empty_violated : ∃ n, Done (str "<meta charset=\"\">") n ∧ findEncoding someUni (treeOf (str "<meta charset=\"\">") n) none = some (str "\"") :=
  ⟨60, by decide +kernel, by decide +kernel⟩

/-- **C124** is violated: `META` in upper case is not seen, although `Html` takes it for the void element (`C120_void_partial`). -/
theorem C124_case_violated : ∃ n, Done (str "<META CHARSET=\"u8\">") n ∧ findEncoding someUni (treeOf (str "<META CHARSET=\"u8\">") n) none = none :=
  ⟨60, by decide +kernel, by decide +kernel⟩

/-- **C124** is violated: after `charset=` in `content`, quotes are allowed (https://html.spec.whatwg.org/#extracting-character-encodings-from-meta-elements),
    but then nothing is found. -/
theorem C124_quoted_violated : ∃ n, Done (str "<meta http-equiv=\"content-type\" content=\"charset='u8'\">") n ∧
    findEncoding someUni (treeOf (str "<meta http-equiv=\"content-type\" content=\"charset='u8'\">") n) none = none :=
  ⟨60, by decide +kernel, by decide +kernel⟩

end Parce.Html

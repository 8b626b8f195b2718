import Verif.Lemmas.XmlEncoding
import Verif.Props.Xml
/-!
# C117: the encoding found in an XML text
-/
namespace Parce.Xml
open Parce.Json (Uni str)
variable {u : Uni}

/-- **C117**, the part that holds: when a text starts with an XML declaration with double quotes that has an encoding, then that encoding
    is found, whatever comes after the declaration (also when the text was cut off there). Missing: values in single quotes. -/
theorem C117_declared_partial (hu : u.Ascii) {as : List Attr} {ws post w : List Nat} (ha : ∀ a ∈ as, a.ok u) (hw : Ws ws)
    (hd : ∀ a ∈ as, a.double = true) (h : Declares as w) (n : Nat) (hn : RB.Finished (lang u) .root (declText as ws ++ post) n) :
    findEncoding (buildTree (lang u) .root (declText as ws ++ post) 0 n) = some w :=
  decl_found hu ha hw hd h n hn

/-- `<?xml v="1.0" encoding = "u8"?>` -/
def someDecl : List Attr := [⟨str " ", str "v", [], [], true, [.chars (str "1.0")]⟩, ⟨str " ", str "encoding", str " ", str " ", true, [.chars (str "u8")]⟩]

theorem someDecl_ok : (∀ a ∈ someDecl, a.ok someUni) ∧ (∀ a ∈ someDecl, a.double = true) ∧ Declares someDecl (str "u8") := by
  have hs : Ws (str " ") := by unfold Ws; decide
  have h0 : Ws [] := by intro c hc; cases hc
  refine ⟨?_, by intro a ha; simp only [someDecl, List.mem_cons, List.not_mem_nil, or_false] at ha; rcases ha with rfl | rfl <;> rfl,
    [⟨str " ", str "v", [], [], true, [.chars (str "1.0")]⟩], _, [], rfl, rfl, rfl, by
      intro b hb; simp only [List.mem_singleton] at hb; subst hb; decide⟩
  intro a ha
  simp only [someDecl, List.mem_cons, List.not_mem_nil, or_false] at ha
  rcases ha with rfl | rfl
  · exact ⟨by decide, hs, ⟨⟨118, [], rfl, by unfold IsStart; decide, by simp⟩, by decide⟩, h0, h0, by decide, by decide, by simp, trivial⟩
  · exact ⟨by decide, hs, ⟨⟨101, str "ncoding", by decide, by unfold IsStart; decide, by unfold IsName IsStart; decide⟩, by decide⟩, hs, hs,
      by decide, by decide, by simp, trivial⟩

example : someUni.Ascii ∧ (∀ a ∈ someDecl, a.ok someUni) ∧ Ws [] ∧ (∀ a ∈ someDecl, a.double = true) ∧ Declares someDecl (str "u8") ∧
    RB.Finished (lang someUni) .root (declText someDecl [] ++ str "<a b='c") 40 :=
  ⟨someUni_ok, someDecl_ok.1, (by intro c hc; cases hc), someDecl_ok.2.1, someDecl_ok.2.2, by unfold RB.Finished; decide +kernel⟩

/-- **C117**, the part that holds: in a well-formed text without any processing instruction that has an encoding, none is found. -/
theorem C117_none_partial (hu : u.Ascii) (c : List Item) (h : itemsOk u false c) (hc : NoEncoding c) (n : Nat) (hn : RB.Finished (lang u) .root (itemsStr c) n) :
    findEncoding (buildTree (lang u) .root (itemsStr c) 0 n) = none := by
  obtain ⟨cs, h1, h2⟩ := items_tree hu c h n hn
  rw [h1]
  show (cs.flatMap piEncs).head? = _
  rw [pis_view, h2, items_none c hc]
  rfl

example : someUni.Ascii ∧ itemsOk someUni false someXml ∧ NoEncoding someXml ∧ RB.Finished (lang someUni) .root (itemsStr someXml) 60 := by
  refine ⟨someUni_ok, someXml_ok, ?_, by unfold RB.Finished; decide +kernel⟩
  intro n as ws h a ha
  simp only [someXml, List.mem_cons, Item.pi.injEq, List.not_mem_nil, or_false, reduceCtorEq] at h
  obtain ⟨_, rfl, _⟩ := h
  simp only [List.mem_singleton] at ha
  subst ha
  decide

/-- A declaration with single quotes. -/
def singleDecl : List Attr := [⟨str " ", str "encoding", [], [], false, [.chars (str "u8")]⟩, ⟨str " ", str "standalone", [], [], true, [.chars (str "no")]⟩]

/-- **C117** is violated: in `<?xml encoding='u8' standalone="no"?>`, the encoding found is `no`. -/
theorem C117_other_violated : ∃ n, Declares singleDecl (str "u8") ∧ RB.Finished (lang someUni) .root (declText singleDecl []) n ∧
    findEncoding (buildTree (lang someUni) .root (declText singleDecl []) 0 n) = some (str "no") := by
  refine ⟨40, ⟨[], _, _, rfl, rfl, rfl, by simp⟩, by unfold RB.Finished; decide +kernel, by decide +kernel⟩

/-- **C117** is violated: in `<?xml encoding='u8'?>`, no encoding is found. -/
theorem C117_single_violated : ∃ n, Declares (singleDecl.take 1) (str "u8") ∧ RB.Finished (lang someUni) .root (declText (singleDecl.take 1) []) n ∧
    findEncoding (buildTree (lang someUni) .root (declText (singleDecl.take 1) []) 0 n) = none := by
  refine ⟨40, ⟨[], _, _, rfl, rfl, rfl, by simp⟩, by unfold RB.Finished; decide +kernel, by decide +kernel⟩

/-- **C117** is violated: an attribute `encoding` of another processing instruction is taken for the encoding of the text, also when the
    text does not start with a declaration. -/
theorem C117_elsewhere_violated : ∃ n, RB.Finished (lang someUni) .root (str "<a/><?b encoding=\"c\"?>") n ∧
    findEncoding (buildTree (lang someUni) .root (str "<a/><?b encoding=\"c\"?>") 0 n) = some (str "c") :=
  ⟨40, by unfold RB.Finished; decide +kernel, by decide +kernel⟩

end Parce.Xml

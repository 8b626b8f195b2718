import Verif.Lemmas.TomlDoc
import Verif.Props.Xml
/-!
# C121: the tree of a TOML text
-/
namespace Parce.Toml
open Parce.Json (Uni str)
open Parce.Xml (someUni someUni_ok)
variable {u : Uni}

/-- **C121**, the part that holds: the lexer of `Toml` comes to the end of every document of tables and keys with values, arrays and
    inline tables in each other to any depth, and then the tree has the structure of the document. Missing: a dot directly after a quoted
    part of a key, the long form of escapes in strings, a quote at the end of a multi-line string; and comments with addresses and the like, which the
    specification leaves out. -/
theorem C121_tree_partial (hu : u.Ascii) (ws : List Nat) (c : List (Item × List Nat)) (h : docOk false ws c) :
    (∃ n, RB.Finished (lang u) .root (docText ws c) n) ∧
    ∀ n, RB.Finished (lang u) .root (docText ws c) n →
      view (buildTree (lang u) .root (docText ws c) 0 n) = .ctx .root (docView c) := by
  refine ⟨?_, fun n hn => ?_⟩
  rotate_left
  · obtain ⟨cs, h1, h2⟩ := doc_tree hu ws c h n hn
    rw [h1, view, h2]
  obtain ⟨n, evs, cs, h1, _⟩ := run_doc hu ws c h
  refine ⟨n, ?_⟩
  unfold RB.Finished
  rw [h1]
  rfl

mutual
def V.eqb : V → V → Bool
  | .tok w a, .tok w' a' => w == w' && a == a'
  | .ctx l cs, .ctx l' cs' => l == l' && eqbs cs cs'
  | _, _ => false
def eqbs : List V → List V → Bool
  | [], [] => true
  | v :: vs, v' :: vs' => v.eqb v' && eqbs vs vs'
  | _, _ => false
end

mutual
theorem eqb_eq : ∀ v v' : V, v.eqb v' = true → v = v'
  | .tok w a, v', h => by cases v' <;> simp_all [V.eqb]
  | .ctx l cs, v', h => by
    cases v' with
    | ctx l' cs' =>
      simp only [V.eqb, Bool.and_eq_true, beq_iff_eq] at h
      rw [h.1, eqbs_eq cs cs' h.2]
    | _ => simp [V.eqb] at h
theorem eqbs_eq : ∀ vs vs' : List V, eqbs vs vs' = true → vs = vs'
  | [], vs', h => by cases vs' <;> simp_all [eqbs]
  | v :: vs, vs', h => by
    cases vs' with
    | nil => simp [eqbs] at h
    | cons v' vs' =>
      simp only [eqbs, Bool.and_eq_true] at h
      rw [eqb_eq v v' h.1, eqbs_eq vs vs' h.2]
end

/-- `[a."b" . c] #h⏎ k = [ -1_0.5e3, true, [] , # i⏎ 0xF#⏎ ] ⏎⏎ t.u = 1979-05-27 07:32:00Z ⏎ s= "x\n" # c⏎ p = {x = +inf, y.z={ } }⏎ ## d⏎ #⏎`, and two multi-line
    strings. -/
def someToml : List (Item × List Nat) :=
  [(.table false [] ⟨.bare (str "a"), [([], [], .basic [.chars (str "b")]), ([32], [32], .bare (str "c"))]⟩ [] [32] (some (str "h")), []),
   (.pair ⟨.bare (str "k"), []⟩ [32] [32] (.arr (.more (.ws [32]) (.num (str "-1_0.5e3")) (.ws []) (.more (.ws [32]) (.bool true) (.ws []) (.more (.ws [32]) (.arr (.nil (.ws []))) (.ws [32])
      (.last (.com [32] (str " i") (.ws [32])) (.num (str "0xF")) (.com [] [] (.ws [32]))))))) [32], [10]),
   (.pair ⟨.bare (str "t"), [([], [], .bare (str "u"))]⟩ [32] [32] (.stamp (str "1979-05-27 07:32:00Z")) [32], []),
   (.pair ⟨.bare (str "s"), []⟩ [] [32] (.basic [.chars (str "x"), .esc (str "n")]) [32] (some (str " c")), []),
   (.pair ⟨.bare (str "p"), []⟩ [32] [32] (.tbl (.more [] ⟨.bare (str "x"), []⟩ [32] [32] (.inf [43] false) []
      (.last [32] ⟨.bare (str "y"), [([], [], .bare (str "z"))]⟩ [] [] (.tbl (.nil [32])) [32]))) [], []),
   (.comment (str "# d"), []), (.comment [], []),
   (.pair ⟨.bare (str "m"), []⟩ [] [] (.mbasic [.chars (str "\"\"a\n"), .cont (str "\n "), .chars (str "b"), .esc (str "t")]) [], []),
   (.pair ⟨.bare (str "n"), []⟩ [] [] (.mlit true (str "\\'\n")) [], [])]

theorem someToml_text : docText [] someToml =
    str "[a.\"b\" . c] #h\nk = [ -1_0.5e3, true, [] , # i\n 0xF#\n ] \n\nt.u = 1979-05-27 07:32:00Z \ns= \"x\\n\" # c\np = {x = +inf, y.z={ } }\n## d\n#\nm=\"\"\"\"\"a\n\\\n b\\t\"\"\"\nn='''\n\\'\n'''\n" := by decide +kernel

instance (c : Nat) : Decidable (IsDigit c) := by unfold IsDigit; infer_instance
instance (c : Nat) : Decidable (IsHexDigit c) := by unfold IsHexDigit; infer_instance
instance (c : Nat) : Decidable (IsBare c) := by unfold IsBare; infer_instance
instance (w : List Nat) : Decidable (Blank w) := by unfold Blank; infer_instance
instance (w : List Nat) : Decidable (Ws w) := by unfold Ws; infer_instance
instance (n : Nat) (w : List Nat) : Decidable (Digits n w) := by unfold Digits; infer_instance
instance (w : List Nat) : Decidable (ComOk w) := by unfold ComOk; infer_instance

theorem bare_ok (w : List Nat) (strict : Bool) (h1 : w ≠ []) (h2 : ∀ c ∈ w, IsBare c) : (Comp.bare w).ok strict := ⟨h1, h2⟩

theorem someDec : Dec (str "-1_0.5e3") :=
  ⟨str "-", str "1_0", str ".5", str "e3", by decide, .inr (.inr rfl), .under (by decide) (.one (by decide)), .inr ⟨_, rfl, .one (by decide)⟩,
    .inr ⟨101, [], str "3", rfl, .inl rfl, .inl rfl, .one (by decide)⟩⟩

theorem someStamp : Stamp (str "1979-05-27 07:32:00Z") :=
  .inr (.inr ⟨str "1979-05-27", 32, str "07:32:00Z", rfl, ⟨str "1979", str "05", str "27", rfl, by decide, by decide, by decide⟩, .inl rfl,
    ⟨str "07", str "32", str "00", [], [90], rfl, by decide, by decide, by decide, .inl rfl, .inr (.inl rfl)⟩⟩)

theorem comOk_of {w : List Nat} (h : ComOk w) : comOk (some w) := h

theorem someToml_ok : docOk false [] someToml := by
  refine ⟨by decide, ?_⟩
  intro x hx
  simp only [someToml, List.mem_cons, List.not_mem_nil, or_false] at hx
  rcases hx with rfl | rfl | rfl | rfl | rfl | rfl | rfl | rfl | rfl
  · exact ⟨⟨by decide, ⟨⟨by decide, by decide⟩, by decide, by decide, by simp [Comp.quoted], ⟨by decide, by decide, by simp, trivial⟩,
      by decide, by decide, by simp, ⟨by decide, by decide⟩, trivial⟩, by decide, by decide, comOk_of (by decide +kernel)⟩, by decide⟩
  · refine ⟨⟨⟨⟨by decide, by decide⟩, trivial⟩, by decide, by decide, ?_, by decide, trivial⟩, by decide⟩
    have hw : ∀ {w : List Nat}, Ws w → (Gap.ws w).ok := fun h => h
    refine ⟨hw (by decide), .inl someDec, hw (by decide), hw (by decide), trivial, hw (by decide), hw (by decide), ?_, hw (by decide), ⟨by decide, by decide +kernel, hw (by decide)⟩,
      .inr ?_, ⟨by decide, by decide +kernel, hw (by decide)⟩⟩
    · show Ws []
      decide
    · exact ⟨120, str "F", rfl, .inl ⟨rfl, .one (by decide)⟩⟩
  · exact ⟨⟨⟨⟨by decide, by decide⟩, by decide, by decide, by simp [Comp.quoted], ⟨by decide, by decide⟩, trivial⟩, by decide, by decide, someStamp, by decide, trivial⟩, by decide⟩
  · refine ⟨⟨⟨⟨by decide, by decide⟩, trivial⟩, by decide, by decide, ?_, by decide, comOk_of (by decide +kernel)⟩, by decide⟩
    exact ⟨by decide, by decide, by simp, .inl ⟨110, rfl, by decide⟩, trivial⟩
  · refine ⟨⟨⟨⟨by decide, by decide⟩, trivial⟩, by decide, by decide, ?_, by decide, trivial⟩, by decide⟩
    refine ⟨by decide, ⟨⟨by decide, by decide⟩, trivial⟩, by decide, by decide, .inr (.inl rfl), by decide, by decide,
      ⟨⟨by decide, by decide⟩, by decide, by decide, by simp [Comp.quoted], ⟨by decide, by decide⟩, trivial⟩, by decide, by decide, ?_, by decide⟩
    show Blank [32]
    decide
  · exact ⟨comOk_of (w := str "# d") (by decide +kernel), by decide⟩
  · exact ⟨comOk_of (w := []) (by decide +kernel), by decide⟩
  · refine ⟨⟨⟨⟨by decide, by decide⟩, trivial⟩, by decide, by decide, ?_, by decide, trivial⟩, by decide⟩
    refine ⟨by decide, by decide, by decide, by simp, by simp, ⟨[], str " ", by decide, by decide, by decide⟩, ?_, by decide, by decide, by decide, by simp, by simp,
      .inl ⟨116, rfl, by decide⟩, trivial⟩
    intro w l h
    simp only [List.cons.injEq, MPart.chars.injEq] at h
    exact ⟨98, [], h.1.symm, by decide, by decide⟩
  · exact ⟨⟨⟨⟨by decide, by decide⟩, trivial⟩, by decide, by decide, ⟨by decide, by decide, by decide⟩, by decide, trivial⟩, by decide⟩

example : someUni.Ascii ∧ docOk false [] someToml ∧ docView someToml =
    [.tok (str "[") .bracketStart,
     .ctx .table [.tok (str "a") .namespace, .tok (str ".") .dot, .tok (str "\"") .string,
       .ctx .stringBasic [.tok (str "b") .string, .tok (str "\"") .string], .tok (str ".") .dot, .tok (str "c") .namespace, .tok (str "]") .bracketEnd],
     .tok (str "#") .comment, .ctx .comment [.tok (str "h") .comment],
     .ctx .key [.tok (str "k") .variable, .tok (str "=") .assign],
     .ctx .value [.tok (str "[") .bracket, .ctx .array [.tok (str "-1_0.5e3") .number, .tok (str ",") .separator, .tok (str "true") .constant,
       .tok (str ",") .separator, .tok (str "[") .bracket, .ctx .array [.tok (str "]") .bracket], .tok (str ",") .separator,
       .tok (str "#") .comment, .ctx .comment [.tok (str " i") .comment], .tok (str "0xF") .number, .tok (str "#") .comment, .tok (str "]") .bracket]],
     .ctx .key [.tok (str "t") .variable, .tok (str ".") .dot, .tok (str "u") .variable, .tok (str "=") .assign],
     .ctx .value [.tok (str "1979-05-27 07:32:00Z") .timestamp],
     .ctx .key [.tok (str "s") .variable, .tok (str "=") .assign],
     .ctx .value [.tok (str "\"") .string, .ctx .stringBasic [.tok (str "x") .string, .tok (str "\\n") .stringEscape, .tok (str "\"") .string], .tok (str "#") .comment],
     .ctx .comment [.tok (str " c") .comment],
     .ctx .key [.tok (str "p") .variable, .tok (str "=") .assign],
     .ctx .value [.tok (str "{") .bracket, .ctx .inlineTable [.ctx .inlineKey [.tok (str "x") .variable, .tok (str "=") .assign],
       .ctx .inlineValue [.tok (str "+inf") .number, .tok (str ",") .separator],
       .ctx .inlineKey [.tok (str "y") .variable, .tok (str ".") .dot, .tok (str "z") .variable, .tok (str "=") .assign],
       .ctx .inlineValue [.tok (str "{") .bracket, .ctx .inlineTable [.tok (str "}") .bracket], .tok (str "}") .bracket]]],
     .tok (str "#") .comment, .ctx .comment [.tok (str "# d") .comment], .tok (str "#") .comment,
     .ctx .key [.tok (str "m") .variable, .tok (str "=") .assign],
     .ctx .value [.tok (str "\"\"\"") .string, .ctx .stringMultilineBasic [.tok (str "\"\"a\n") .string, .tok (str "\\\n ") .whitespace, .tok (str "b") .string,
       .tok (str "\\t") .stringEscape, .tok (str "\"\"\"") .string]],
     .ctx .key [.tok (str "n") .variable, .tok (str "=") .assign],
     .ctx .value [.tok (str "'''") .string, .tok (str "\n") .whitespace, .ctx .stringMultilineLiteral [.tok (str "\\'\n") .string, .tok (str "'''") .string]]] :=
  ⟨someUni_ok, someToml_ok, rfl⟩

/-- **C121** is violated: a dot directly after a quoted part of a key is called invalid, together with the part after it. Here is `"a".b = 1`. -/
theorem C121_dot_violated : ∃ (c : List (Item × List Nat)) (n : Nat), docOk true [] c ∧ docText [] c = str "\"a\".b = 1\n" ∧
    RB.Finished (lang someUni) .root (docText [] c) n ∧
    docView c = [.ctx .key [.tok (str "\"") .string, .ctx .stringBasic [.tok (str "a") .string, .tok (str "\"") .string], .tok (str ".") .dot,
      .tok (str "b") .variable, .tok (str "=") .assign], .ctx .value [.tok (str "1") .number]] ∧
    view (buildTree (lang someUni) .root (docText [] c) 0 n) =
      .ctx .root [.ctx .key [.tok (str "\"") .string, .ctx .stringBasic [.tok (str "a") .string, .tok (str "\"") .string, .tok (str ".b") .invalid],
        .tok (str "=") .assign], .ctx .value [.tok (str "1") .number]] := by
  refine ⟨[(.pair ⟨.basic [.chars (str "a")], [([], [], .bare (str "b"))]⟩ [32] [32] (.num (str "1")) [], [])], 40, ⟨by decide, ?_⟩, by decide, ?_, rfl, eqb_eq _ _ (by decide +kernel)⟩
  · intro x hx
    obtain rfl := List.mem_singleton.1 hx
    refine ⟨⟨⟨⟨by decide, by decide, by simp, trivial⟩, by decide, by decide, by simp, ⟨by decide, by decide⟩, trivial⟩, by decide, by decide, .inl ?_, by decide, trivial⟩, by decide⟩
    exact ⟨[], str "1", [], [], rfl, .inl rfl, .one (by decide), .inl rfl, .inl rfl⟩
  · unfold RB.Finished
    decide +kernel

/-- **C121** is violated: the long form of an escape is called invalid. Here is `a = "\U0001F600"`. -/
theorem C121_escape_violated : ∃ (c : List (Item × List Nat)) (n : Nat), docOk true [] c ∧ docText [] c = str "a = \"\\U0001F600\"\n" ∧
    RB.Finished (lang someUni) .root (docText [] c) n ∧
    docView c = [.ctx .key [.tok (str "a") .variable, .tok (str "=") .assign], .ctx .value [.tok (str "\"") .string,
      .ctx .stringBasic [.tok (str "\\U0001F600") .stringEscape, .tok (str "\"") .string]]] ∧
    view (buildTree (lang someUni) .root (docText [] c) 0 n) =
      .ctx .root [.ctx .key [.tok (str "a") .variable, .tok (str "=") .assign], .ctx .value [.tok (str "\"") .string,
        .ctx .stringBasic [.tok (str "\\U") .stringInvalid, .tok (str "0001F600") .string, .tok (str "\"") .string]]] := by
  refine ⟨[(.pair ⟨.bare (str "a"), []⟩ [32] [32] (.basic [.esc (str "U0001F600")]) [], [])], 40, ⟨by decide, ?_⟩, by decide, ?_, rfl, eqb_eq _ _ (by decide +kernel)⟩
  · intro x hx
    obtain rfl := List.mem_singleton.1 hx
    refine ⟨⟨⟨⟨by decide, by decide⟩, trivial⟩, by decide, by decide, ⟨.inr (.inr ⟨rfl, str "0001F600", rfl, by decide, by decide⟩), trivial⟩, by decide, trivial⟩, by decide⟩
  · unfold RB.Finished
    decide +kernel

/-- **C121** is violated: a quote at the end of a multi-line string is called invalid. The text is `a = """x""""`, where the value is
    `x"`. -/
theorem C121_quote_violated : ∃ (c : List (Item × List Nat)) (n : Nat), docOk true [] c ∧ docText [] c = str "a = \"\"\"x\"\"\"\"\n" ∧
    RB.Finished (lang someUni) .root (docText [] c) n ∧
    docView c = [.ctx .key [.tok (str "a") .variable, .tok (str "=") .assign], .ctx .value [.tok (str "\"\"\"") .string,
      .ctx .stringMultilineBasic [.tok (str "x\"") .string, .tok (str "\"\"\"") .string]]] ∧
    view (buildTree (lang someUni) .root (docText [] c) 0 n) = .ctx .root [.ctx .key [.tok (str "a") .variable, .tok (str "=") .assign],
      .ctx .value [.tok (str "\"\"\"") .string, .ctx .stringMultilineBasic [.tok (str "x") .string, .tok (str "\"\"\"") .string, .tok (str "\"") .invalid]]] := by
  refine ⟨[(.pair ⟨.bare (str "a"), []⟩ [32] [32] (.mbasic [.chars (str "x\"")]) [], [])], 40, ⟨by decide, ?_⟩, by decide, ?_, rfl, eqb_eq _ _ (by decide +kernel)⟩
  · intro x hx
    obtain rfl := List.mem_singleton.1 hx
    exact ⟨⟨⟨⟨by decide, by decide⟩, trivial⟩, by decide, by decide, ⟨by decide, by decide, by decide, by simp, by simp, trivial⟩, by decide, trivial⟩, by decide⟩
  · unfold RB.Finished
    decide +kernel

end Parce.Toml

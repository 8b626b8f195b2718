import Verif.Lemmas.JsonEnd
import Verif.Props.Rebuild
/-!
# C71: JSON texts
-/
namespace Parce.Json
variable {u : Uni} {t : List Nat} {F : Type}

/-- **C71.** Lexing any text with the JSON lexicons ends. -/
theorem C71_finishes (u : Uni) (t : List Nat) : ∃ n, RB.Finished (lang u) .root t n := finishes t

/-- **C71** (partial: for texts without surrogate pairs, see `C71_pair_violated`; and numbers are what
    `float` makes of them, see `C71_int_violated`). Transforming a JSON text gives the value it stands
    for. `\d`, `\s`, `\w` may match any characters outside ASCII. -/
theorem C71_value_partial (hu : u.Ascii) (f : Floats F) (v : JV) (t : List Nat) (h : Text false v t) (n : Nat)
    (hn : RB.Finished (lang u) .root t n) : transformText (env f) (lang u) .root t 0 n = .ok (some (v.py f)) := by
  obtain ⟨ns, h1, _, h3⟩ := text_tree hu f h
  unfold transformText
  rw [C47_events_partial (env f) (no_raw f) .root _ (C18_root_kept (lang u) t [.root] (by simp) 0 n).1
    (C22_lexemes_ne (lang u) t [.root] 0 n) (Or.inr (fun l _ => env_meth f l))]
  have := h3 n hn
  unfold buildTree at this
  rw [this]
  show Except.ok (some (firstOf f (itmL (env f) false ns))) = _
  unfold firstOf
  rw [show valuesOf f (itmL (env f) false ns) = [v.py f] from h1]
  rfl

/-- **C71** (partial, as above). The same holds for the tree that was built for another text, and was
    then updated after an edit that made the text this one. -/
theorem C71_edited_partial (hu : u.Ascii) (f : Floats F) (v : JV) (same : JL → JL → Bool) (hs : same .root .root = true)
    (t : List Nat) (e : RB.Edit Nat) (hfit : e.start + e.removed ≤ t.length) (h : Text false v (RB.Edit.run t e))
    (n0 n1 N : Nat) (h0 : RB.Finished (lang u) .root t n0) (h1 : RB.Finished (lang u) .root (RB.Edit.run t e) n1) (hN : n1 + 1 ≤ N) :
    ∃ cs, RB.rebuild (lang u) same N ⟨some .root, (buildTree (lang u) .root t 0 n0).kids⟩
        ⟨RB.Edit.run t e, none, e.start, e.removed, e.ins.length⟩ = some ⟨some .root, cs⟩ ∧
      (env f).value (.ctx .root cs) = some (v.py f) := by
  refine ⟨_, RB.C33_behind_partial (lang u) restartable same .root hs t e hfit n0 n1 h0 h1 N hN, ?_⟩
  obtain ⟨ns, h2, _, h3⟩ := text_tree hu f h
  rw [h3 n1 h1]
  show some (firstOf f (itmL (env f) false ns)) = _
  unfold firstOf
  rw [show valuesOf f (itmL (env f) false ns) = [v.py f] from h2]
  rfl

/-- Only the characters of ASCII. -/
def ascii : Uni where
  digit c := 48 ≤ c && c ≤ 57
  space c := (9 ≤ c && c ≤ 13) || (28 ≤ c && c ≤ 32)
  word c := (48 ≤ c && c ≤ 57) || (65 ≤ c && c ≤ 90) || c == 95 || (97 ≤ c && c ≤ 122)

example : ascii.Ascii := ⟨fun _ _ => rfl, fun _ _ => rfl, fun _ _ => rfl⟩

/-- **C71** is violated: a character that is written as a surrogate pair becomes two characters, that
    are not even valid ones. -/
theorem C71_pair_violated : Text true (.str [0x1F600]) (str "\"\\ud83d\\ude00\"") ∧
    RB.Finished (lang ascii) .root (str "\"\\ud83d\\ude00\"") 9 ∧
    ∀ f : Floats F, transformText (env f) (lang ascii) .root (str "\"\\ud83d\\ude00\"") 0 9 = .ok (some (.str [0xD83D, 0xDE00])) := by
  refine ⟨⟨[], _, [], (List.append_nil _).symm, by simp [Ws], .str (t := str "\\ud83d\\ude00") ?_, by simp [Ws]⟩,
    by unfold RB.Finished; decide +kernel, fun f => rfl⟩
  refine .pair (s := []) (t := []) (str "d83d") (str "de00") 0xD83D 0xDE00 rfl ?_ ?_ (by decide) (by decide) (by decide) (by decide) .nil
  · exact ⟨100, 56, 51, 100, 13, 8, 3, 13, by decide, by unfold Hex; decide, by unfold Hex; decide, by unfold Hex; decide, by unfold Hex; decide, by decide⟩
  · exact ⟨100, 101, 48, 48, 13, 14, 0, 0, by decide, by unfold Hex; decide, by unfold Hex; decide, by unfold Hex; decide, by unfold Hex; decide, by decide⟩

private theorem num_text {w : List Nat} (h : Digits w) : Text false (.num w) w :=
  ⟨[], w, [], by simp, by simp [Ws], .num ⟨[], w, [], [], by simp, Or.inl rfl, h, Or.inl rfl, Or.inl rfl⟩, by simp [Ws]⟩

/-- **C71** is violated: integers are computed with `float`, so two different ones become the same
    number if `float` rounds them to the same. (IEEE doubles do so with these.) -/
theorem C71_int_violated (hu : u.Ascii) (f : Floats F) (hf : f.float (str "9007199254740993") = f.float (str "9007199254740992")) (n : Nat)
    (h1 : RB.Finished (lang u) .root (str "9007199254740993") n) (h2 : RB.Finished (lang u) .root (str "9007199254740992") n) :
    transformText (env f) (lang u) .root (str "9007199254740993") 0 n = transformText (env f) (lang u) .root (str "9007199254740992") 0 n := by
  rw [C71_value_partial hu f _ _ (num_text (by unfold Digits; decide)) n h1, C71_value_partial hu f _ _ (num_text (by unfold Digits; decide)) n h2]
  simp only [JV.py, hf]

example : RB.Finished (lang ascii) .root (str "9007199254740993") 9 ∧ RB.Finished (lang ascii) .root (str "9007199254740992") 9 := by
  unfold RB.Finished; decide +kernel

/-! ## Examples -/

private def sample : List Nat := str " {\"a\": [1, true, \"x\\u0041\\n\"], \"b\" : null ,\"a\":{}}\n"
private def sampleV : JV := .obj [(str "a", .arr [.num (str "1"), .bool true, .str (str "xA\n")]), (str "b", .null), (str "a", .obj [])]

private theorem ws0 : Ws [] := by simp [Ws]
private theorem ws1 : Ws [32] := by simp [Ws]

private theorem sample_text : Text false sampleV sample := by
  have he : Elems false [.num (str "1"), .bool true, .str (str "xA\n")] (str "1, true, \"x\\u0041\\n\"") :=
    .cons (a := []) (b := []) (t := str "1") ws0 (.num ⟨[], str "1", [], [], rfl, Or.inl rfl, by unfold Digits; decide, Or.inl rfl, Or.inl rfl⟩) ws0
      (.cons (a := [32]) (b := []) ws1 .true ws0 (.one (a := [32]) (b := []) ws1 (.str (t := str "x\\u0041\\n") (.plain 120 (by decide) (by decide) (by decide)
        (.hex (t := str "\\n") (str "0041") 65 ⟨48, 48, 52, 49, 0, 0, 4, 1, by decide, by unfold Hex; decide, by unfold Hex; decide, by unfold Hex; decide, by unfold Hex; decide, by decide⟩
          (by decide) (.esc 110 10 (by decide) .nil)))) ws0))
  refine ⟨[32], _, [10], rfl, ws1, .obj (t := str "\"a\": [1, true, \"x\\u0041\\n\"], \"b\" : null ,\"a\":{}") ?_, by simp [Ws]⟩
  refine .cons (a := []) (b := []) (c := [32]) (d := []) (kt := str "a") (ts := str " \"b\" : null ,\"a\":{}") ws0 ?_ ws0 ws1 (.arr he) ws0 ?_
  · exact .plain 97 (by decide) (by decide) (by decide) .nil
  refine .cons (a := [32]) (b := [32]) (c := [32]) (d := [32]) (kt := str "b") (ts := str "\"a\":{}") ws1 ?_ ws1 ws1 .null ws1 ?_
  · exact .plain 98 (by decide) (by decide) (by decide) .nil
  refine .one (a := []) (b := []) (c := []) (d := []) (kt := str "a") ws0 ?_ ws0 ws0 (.obj0 (w := []) ws0) ws0
  exact .plain 97 (by decide) (by decide) (by decide) .nil

/-- A text with the name `a` twice, and its value. -/
example : Text false sampleV sample ∧ RB.Finished (lang ascii) .root sample 60 ∧
    ∀ f : Floats F, f.isInteger (f.float (str "1")) = true → f.toInt (f.float (str "1")) = 1 →
      transformText (env f) (lang ascii) .root sample 0 60 = .ok (some (.dict [(.str (str "a"), .dict []), (.str (str "b"), .none)])) := by
  have hfin : RB.Finished (lang ascii) .root sample 60 := by unfold RB.Finished; decide +kernel
  refine ⟨sample_text, hfin, fun f h1 h2 => ?_⟩
  rw [C71_value_partial ⟨fun _ _ => rfl, fun _ _ => rfl, fun _ _ => rfl⟩ f sampleV sample sample_text 60 hfin]
  rfl

/-- An edit that closes an object. -/
example : let t := str "{\"a\": 1"; let e : RB.Edit Nat := ⟨7, 0, str "}"⟩
    e.start + e.removed ≤ t.length ∧ RB.Edit.run t e = str "{\"a\": 1}" ∧ RB.Finished (lang ascii) .root t 20 ∧
      RB.Finished (lang ascii) .root (RB.Edit.run t e) 20 := by
  unfold RB.Finished; decide +kernel

end Parce.Json

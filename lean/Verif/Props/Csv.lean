import Verif.Lemmas.CsvEnd
/-!
# C79: CSV texts
-/
namespace Parce.Csv
variable {sp : Nat → Bool}

/-- **C79.** Lexing any text with the CSV lexicons ends. -/
theorem C79_finishes (sp : Nat → Bool) (t : List Nat) : ∃ n, RB.Finished (lang sp) .root t n := finishes sp t

/-- **C79** (partial: the lines end with `\n`, see `C79_crlf_violated`, and empty lines are left out, see
    `C79_blank_violated`). Transforming a CSV text gives the list of its records, whatever the quoted fields contain.
    `\s` may match any other characters than the line end as well. -/
theorem C79_value_partial (hsp : sp 10 = true) (rs : List (List Field)) (t : List Nat) (h : Table [10] rs t) (n : Nat)
    (hn : RB.Finished (lang sp) .root t n) :
    transformText env (lang sp) .root t 0 n = .ok (some (tableValue (rs.filter (· ≠ [.plain []])))) := by
  obtain ⟨ns, o, q, h1, h2, h3⟩ := goes_table (sp := sp) (t := t) hsp h [] 0 rfl
  have h4 := (goes_finish (lang := lang sp) (root := CL.root) h3 (fun s b hat => root_end rfl h1 hat)).2 n hn
  unfold transformText
  rw [C47_events_partial env no_raw .root _ (C18_root_kept (lang sp) t [.root] (by simp) 0 n).1
    (C22_lexemes_ne (lang sp) t [.root] 0 n) (Or.inr (fun l _ => env_meth l))]
  unfold buildTree at h4
  rw [h4]
  show Except.ok (some (rootOf (itmL env false ns))) = _
  rw [h2, objs_recs]

/-- **C79** (partial, as above). If no line is empty, it is the list of all records. -/
theorem C79_records_partial (hsp : sp 10 = true) (rs : List (List Field)) (t : List Nat) (h : Table [10] rs t)
    (hb : ∀ r ∈ rs, r ≠ [.plain []]) (n : Nat) (hn : RB.Finished (lang sp) .root t n) :
    transformText env (lang sp) .root t 0 n = .ok (some (tableValue rs)) := by
  rw [C79_value_partial hsp rs t h n hn, List.filter_eq_self.2 (fun r hr => by simpa using hb r hr)]

/-- **C79** (partial, as above). Two tables with the same text have the same fields, apart from the quotes. -/
theorem C79_unique_partial (rs rs' : List (List Field)) (t : List Nat) (h : Table [10] rs t) (h' : Table [10] rs' t)
    (hb : ∀ r ∈ rs, r ≠ [.plain []]) (hb' : ∀ r ∈ rs', r ≠ [.plain []]) : tableValue rs = tableValue rs' := by
  obtain ⟨n, hn⟩ := C79_finishes (fun _ => true) t
  have h1 := C79_records_partial (sp := fun _ => true) rfl rs t h hb n hn
  rw [C79_records_partial (sp := fun _ => true) rfl rs' t h' hb' n hn] at h1
  simp only [Except.ok.injEq, Option.some.injEq] at h1
  exact h1.symm

/-- `\s` for ASCII. -/
def ascii (c : Nat) : Bool := (9 ≤ c && c ≤ 13) || (28 ≤ c && c ≤ 32)

/-- **C79** is violated: the RFC says that lines end with `\r\n`; then the `\r` becomes a part of the field. -/
theorem C79_crlf_violated : Table [13, 10] [[.plain (str "a")], [.plain (str "b")]] (str "a\r\nb\r\n") ∧
    RB.Finished (lang ascii) .root (str "a\r\nb\r\n") 9 ∧
    transformText env (lang ascii) .root (str "a\r\nb\r\n") 0 9 =
      .ok (some (.list [.tuple [.str (str "a\r")], .tuple [.str (str "b\r")]])) := by
  refine ⟨.cons (t := str "a") (ts := str "b\r\n") (.one (f := .plain (str "a")) (by simp [Field.ok, str]))
    (.cons (t := str "b") (ts := []) (.one (f := .plain (str "b")) (by simp [Field.ok, str])) .nil), by unfold RB.Finished; decide +kernel, rfl⟩

/-- **C79** is violated: an empty line is a record with one empty field, but it is left out. -/
theorem C79_blank_violated : Table [10] [[.plain (str "a")], [.plain []], [.plain (str "b")]] (str "a\n\nb\n") ∧
    RB.Finished (lang ascii) .root (str "a\n\nb\n") 12 ∧
    transformText env (lang ascii) .root (str "a\n\nb\n") 0 12 =
      .ok (some (.list [.tuple [.str (str "a")], .tuple [.str (str "b")]])) := by
  refine ⟨.cons (t := str "a") (ts := str "\nb\n") (.one (f := .plain (str "a")) (by simp [Field.ok, str]))
    (.cons (t := []) (ts := str "b\n") (.one (f := .plain []) (by simp [Field.ok])) (.cons (t := str "b") (ts := [])
      (.one (f := .plain (str "b")) (by simp [Field.ok, str])) .nil)), by unfold RB.Finished; decide +kernel, rfl⟩

/-- **C79** is violated: a quote at the end of the text makes the transform fail. -/
theorem C79_open_violated : RB.Finished (lang ascii) .root (str "a,\"") 9 ∧
    transformText env (lang ascii) .root (str "a,\"") 0 9 = .ok (some .error) := by
  refine ⟨by unfold RB.Finished; decide +kernel, rfl⟩

/-! ## Examples -/

/-- `a,b,,c` and `d,"",e,"x,""y""` + line end + `z"` -/
private def sample : List Nat := str "a,b,,c\nd,\"\",e,\"x,\"\"y\"\"\nz\""

private theorem sample_table : Table [10] [[.plain (str "a"), .plain (str "b"), .plain [], .plain (str "c")],
    [.plain (str "d"), .quoted [], .plain (str "e"), .quoted (str "x,\"y\"\nz")]] sample := by
  refine .cons (t := str "a,b,,c") (ts := str "d,\"\",e,\"x,\"\"y\"\"\nz\"") ?_ (.last ?_)
  · exact .cons (f := .plain (str "a")) (t := str "b,,c") (by simp [Field.ok, str]) (.cons (f := .plain (str "b")) (t := str ",c") (by simp [Field.ok, str])
      (.cons (f := .plain []) (t := str "c") (by simp [Field.ok]) (.one (f := .plain (str "c")) (by simp [Field.ok, str]))))
  · exact .cons (f := .plain (str "d")) (t := str "\"\",e,\"x,\"\"y\"\"\nz\"") (by simp [Field.ok, str]) (.cons (f := .quoted []) (t := str "e,\"x,\"\"y\"\"\nz\"") trivial
      (.cons (f := .plain (str "e")) (t := str "\"x,\"\"y\"\"\nz\"") (by simp [Field.ok, str]) (.one (f := .quoted (str "x,\"y\"\nz")) trivial)))

example : ascii 10 = true ∧ RB.Finished (lang ascii) .root sample 40 := ⟨rfl, by unfold RB.Finished; decide +kernel⟩

example : transformText env (lang ascii) .root sample 0 40 = .ok (some (.list
    [.tuple [.str (str "a"), .str (str "b"), .none, .str (str "c")],
     .tuple [.str (str "d"), .str [], .str (str "e"), .str (str "x,\"y\"\nz")]])) :=
  C79_records_partial rfl _ _ sample_table (by simp) 40 (by unfold RB.Finished; decide +kernel)

/-- The same value is written with quotes. -/
example : Table [10] [[.plain (str "a")]] (str "a") ∧ Table [10] [[.quoted (str "a")]] (str "\"a\"\n") :=
  ⟨.last (.one (f := .plain (str "a")) (by simp [Field.ok, str])), .cons (t := str "\"a\"") (ts := []) (.one (f := .quoted (str "a")) trivial) .nil⟩

end Parce.Csv

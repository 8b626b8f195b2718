import Verif.Lemmas.Variations
/-!
# Properties of rule items (C43, C44)
-/
namespace Parce.RI
variable {V : Type}

/-! ## A small world for the examples

Numbers below 10 are numbers, 99 is `None`, 20 is a lexicon (derived: 21), 50 and 51 are functions. -/

def exPy : Py Nat where
  asInt v := if v < 10 then some v else none
  isNone v := v == 99
  app f args :=
    match f, args with
    | .val 20, [.val _] => some (.val 21)
    | .val 50, [.val x] => some (.val (x % 2))
    | .val 51, [.val x] => some (.val (x + 100))
    | _, _ => none
  zero := 0

def exMk : Marks Nat := ⟨200, 201, 99⟩

theorem exPy_app {f : Itm Nat} {args : List (Itm Nat)} {r : Itm Nat} (h : exPy.app f args = some r) :
    (∃ v, f = .val v) ∧ ∃ v, r = .val v := by
  unfold exPy at h
  simp only at h
  split at h
  · cases h; exact ⟨⟨_, rfl⟩, _, rfl⟩
  · cases h; exact ⟨⟨_, rfl⟩, _, rfl⟩
  · cases h; exact ⟨⟨_, rfl⟩, _, rfl⟩
  · cases h

theorem exPy_ok : exPy.Ok where
  zero := by decide
  app := fun _ _ r h => by
    obtain ⟨_, v, rfl⟩ := exPy_app h
    trivial

theorem exPy_plain : exPy.Plain exMk where
  app := fun _ _ _ h => exPy_app h
  none := fun v h => by simpa [exPy, exMk] using h

/-- `select(call(50, ARG), 30, target((0, TEXT), 20))`. -/
def exItem : Itm Nat :=
  .select (.call (.val 50) [.var .arg]) [.val 30, .target (.tup [.val 0, .var .text]) [.val 20]]

/-! ## C43 -/

/-- C43, one item. If pre-evaluating with some variables works, then evaluating the result with
    the other variables is evaluating the original with all of them; a result reported as complete
    does not change any more; a result reported as unchanged is the original. Partial: the
    actions of a `SubgroupAction` must be constant (they are evaluated later by the lexer), and
    pre-evaluation must not raise (it evaluates also what is not chosen later). -/
theorem C43_item_partial (py : Py V) (hpy : py.Ok) (ns1 ns2 : NS V) (h1 : ns1.Ok)
    (htot : ∀ n, ns1.union ns2 n ≠ none) (o : Itm V) (hs : o.SubOk) (o' : Itm V) (c u : Bool)
    (h : pre py ns1 o = some (o', c, u)) :
    evaluate py ns2 o' = evaluate py (ns1.union ns2) o ∧
    (c = true → ∀ ns, evaluate py ns o' = .ok o') ∧ (u = true → o' = o) := by
  have ih := pre_ok py hpy ns1 ns2 h1 htot o hs h
  exact ⟨ih.eval, fun hc ns => done_eval py ns o' (ih.done hc), ih.same⟩

example : (∀ n, (argNS (.val 3)).union (matchNS (.val 7) (.val 8)) n ≠ none) ∧ exItem.SubOk ∧
    ∃ o', pre exPy (argNS (.val 3)) exItem = some (o', false, false) := by
  refine ⟨fun n => by cases n <;> simp [NS.union, argNS, matchNS], ?_, ?_⟩
  · simp [exItem, Itm.SubOk, SubOkL]
  · refine ⟨.target (.tup [.val 0, .var .text]) [.val 20], ?_⟩
    rfl

/-- C43, a rule. Evaluating a rule pre-evaluated with the argument, with text and match, gives
    the same as evaluating the original rule with text, match and argument at once. Partial: as
    `C43_item_partial`, and no variable or call may be used directly in the rule or as one of the
    items of a `select` (see `C43_violated_select`). -/
theorem C43_rule_partial (py : Py V) (hpy : py.Ok) (text m arg : Itm V) (ha : arg.Done)
    (rule : List (Itm V)) (hs : SubOkL rule) (hr : RuleOkL rule) (rule' : List (Itm V))
    (h : preItems py (argNS arg) rule = some rule') :
    evalRule py (matchNS text m) rule' = evalRule py ((argNS arg).union (matchNS text m)) rule := by
  refine preItems_ok py hpy _ _ ?_ ?_ rule hs hr h
  · intro n v hv
    cases n <;> simp [argNS] at hv
    rw [← hv]
    exact ha
  · intro n
    cases n <;> simp [NS.union, argNS, matchNS]

example : SubOkL [.val 40, exItem] ∧ RuleOkL [.val 40, exItem] ∧
    preItems exPy (argNS (.val 3)) [.val 40, exItem] =
      some [.val 40, .target (.tup [.val 0, .var .text]) [.val 20]] := by
  refine ⟨by simp [exItem, SubOkL, Itm.SubOk], by simp [exItem, RuleOkL, Itm.RuleOk], rfl⟩

/-- C43, the pattern. If a rule starts with a `pattern` that only depends on the argument, the
    pre-evaluated rule starts with the value of the pattern under that argument. -/
theorem C43_pattern (py : Py V) (arg v : Itm V) (hs : v.SubOk) (hb : v.Bound (argNS arg))
    (rule rule' : List (Itm V)) (h : preRule py arg (.pattern v :: rule) = some rule') :
    ∃ p rs, rule' = p :: rs ∧ evaluate py (argNS arg) v = .ok p ∧ preItems py (argNS arg) rule = some rs := by
  unfold preRule at h
  simp only [preItems, preRuleItem, preUnroll, pre] at h
  rcases pre_bound py (argNS arg) v hs hb with ⟨r, u, h1, h2⟩ | ⟨h1, h2⟩
  · have hr : (if u = true then Itm.pattern v else Itm.pattern r) = .pattern r := by
      split
      · next hu => rw [preSame py _ v h1 hu]
      · rfl
    rw [h1] at h
    simp only [Option.map_some, hr, unrollI] at h
    cases hp : preItems py (argNS arg) rule with
    | none => rw [hp] at h; simp at h
    | some rs =>
      rw [hp] at h
      simp only [List.cons_append, List.nil_append, Option.some.injEq] at h
      exact ⟨r, rs, h.symm, h2, rfl⟩
  · rw [h1] at h
    simp at h

example : (Itm.call (.val 51) [.var .arg] : Itm Nat).Bound (argNS (.val 3)) ∧
    preRule exPy (.val 3) [.pattern (.call (.val 51) [.var .arg]), .val 30] = some [.val 103, .val 30] := by
  refine ⟨by simp [Itm.Bound, BoundL, argNS], rfl⟩

/-- C43, constant rules. A rule that is reported as not needing evaluation evaluates to itself,
    unrolled, whatever the variables are. Partial: a pattern or delegate action with a variable or
    call inside is also reported that way (see `C43_violated_needs`). -/
theorem C43_constant_partial (py : Py V) (ns : NS V) (rule : List (Itm V)) (hb : NoBareL rule)
    (h : needs rule = false) : evalRule py ns rule = .ok (unrollIL rule) :=
  done_evalRule py ns rule (noBareL_done rule hb h)

example : NoBareL ([.val 40, .tup [.val 1, .delegate (.val 20)]] : List (Itm Nat)) ∧
    needs ([.val 40, .tup [.val 1, .delegate (.val 20)]] : List (Itm Nat)) = false := by
  refine ⟨by simp [NoBareL, Itm.NoBare], rfl⟩

/-- A rule that is reported as needing evaluation has a `select` or `target` (so this is never
    said of a constant rule). -/
theorem C43_needed (rule : List (Itm V)) (h : DoneL rule) : needs rule = false := by
  have key : (∀ o : Itm V, o.Done → needsItem o = false) ∧ (∀ os : List (Itm V), DoneL os → needs os = false) := by
    constructor
    · intro o
      exact Itm.rec (motive_1 := fun o => o.Done → needsItem o = false)
        (motive_2 := fun os => DoneL os → needs os = false)
        (fun _ _ => rfl) (fun _ ih h => ih h) (fun _ h => h.elim) (fun _ _ _ _ h => h.elim)
        (fun _ _ _ _ h => h.elim) (fun _ _ _ _ h => h.elim) (fun _ ih h => ih h) (fun _ _ _ => rfl)
        (fun _ ih h => ih h) (fun _ => rfl) (fun _ => rfl)
        (fun _ _ i1 i2 h => by simp [needs, i1 h.1, i2 h.2]) o
    · intro os
      exact Itm.rec_1 (motive_1 := fun o => o.Done → needsItem o = false)
        (motive_2 := fun os => DoneL os → needs os = false)
        (fun _ _ => rfl) (fun _ ih h => ih h) (fun _ h => h.elim) (fun _ _ _ _ h => h.elim)
        (fun _ _ _ _ h => h.elim) (fun _ _ _ _ h => h.elim) (fun _ ih h => ih h) (fun _ _ _ => rfl)
        (fun _ ih h => ih h) (fun _ => rfl) (fun _ => rfl)
        (fun _ _ i1 i2 h => by simp [needs, i1 h.1, i2 h.2]) os
  exact key.2 rule h

example : DoneL ([.val 40, .tup [.val 1, .delegate (.val 20)]] : List (Itm Nat)) := by
  simp [DoneL, Itm.Done]

/-- C43, the index of a `select` or a target with the number `k` in a sequence of `n`: an index from `-n` to `n - 1`, a
    negative one counts from the end; anything else is an error. -/
theorem C43_index (py : Py V) (n : Nat) (v : V) (k : Int) (h : py.asInt v = some k) :
    pyIndex py n (.val v) = if -(n : Int) ≤ k ∧ k < n then some (k % n).toNat else none := by
  simp only [pyIndex, Itm.int?, h]
  by_cases h0 : 0 ≤ k
  · rw [if_pos h0]
    by_cases h1 : k < n
    · rw [if_pos (by omega), if_pos (by omega), Int.emod_eq_of_lt h0 h1]
    · rw [if_neg (by omega), if_neg (by omega)]
  · rw [if_neg h0]
    by_cases h1 : -(n : Int) ≤ k
    · rw [if_pos (by omega), if_pos (by omega)]
      have : k % n = n + k := by
        rw [← Int.add_emod_right, Int.emod_eq_of_lt (by omega) (by omega)]; omega
      rw [this]
    · rw [if_neg (by omega), if_neg (by omega)]

example : pyIndex (V := Int) ⟨fun v => some v, fun _ => false, fun _ _ => none, 0⟩ 3 (.val (-1)) = some 2 := by decide

/-- C43 does not hold for `select(ARG, call(f, TEXT))`: the pre-evaluated rule has the call itself,
    and `evaluate_rule` does not evaluate calls. -/
theorem C43_violated_select : ∃ (rule rule' : List (Itm Nat)),
    preItems exPy (argNS (.val 0)) rule = some rule' ∧
    evalRule exPy (matchNS (.val 7) (.val 8)) rule' = .ok [.val 40, .call (.val 51) [.var .text]] ∧
    evalRule exPy ((argNS (.val 0)).union (matchNS (.val 7) (.val 8))) rule = .ok [.val 40, .val 107] :=
  ⟨[.val 40, .select (.var .arg) [.call (.val 51) [.var .text]]], [.val 40, .call (.val 51) [.var .text]],
    rfl, rfl, rfl⟩

/-- C43 does not hold for `DelegateAction(call(f, TEXT))`: reported as not needing evaluation, but
    the result depends on the text. -/
theorem C43_violated_needs : ∃ (rule : List (Itm Nat)), needs rule = false ∧
    evalRule exPy (matchNS (.val 7) (.val 8)) rule = .ok [.delegate (.val 107)] ∧
    evalRule exPy (matchNS (.val 6) (.val 8)) rule = .ok [.delegate (.val 106)] :=
  ⟨[.delegate (.call (.val 51) [.var .text])], rfl, rfl, rfl⟩

/-- Pre-evaluation can raise where evaluation does not: the other items of a `select` are
    pre-evaluated as well. -/
theorem C43_violated_raise : ∃ (rule : List (Itm Nat)),
    preItems exPy (argNS (.val 99)) rule = none ∧
    evalRule exPy ((argNS (.val 99)).union (matchNS (.val 1) (.val 8))) rule = .ok [.val 30] :=
  ⟨[.select (.var .text) [.call (.val 52) [.var .arg], .val 30]], rfl, rfl⟩

/-! ## C44 -/

/-- C44. Every final outcome of a rule is covered by one of its variations. Partial: for rules
    without nested lists (as after `pre_evaluate_rule`) and without `skip` (see
    `C44_violated_skip`). -/
theorem C44_variations_partial (py : Py V) (mk : Marks V) (hpl : py.Plain mk) (ns : NS V)
    (rule : List (Itm V)) (hf : Flat rule) (hv : VarOkL rule) (hb : BoundL ns rule)
    (vs : List (List (Itm V))) (h : variations py mk rule = some vs)
    (rs : List (Itm V)) (he : evalRule py ns rule = .ok rs) (os : List (Itm V)) (hx : ExpandL py ns rs os) :
    ∃ w ∈ vs, CoversL py mk w os :=
  cov_rule py mk hpl ns rule hf hv hb he hx h

/-- `[40, select(TEXT, 30, target((0, TEXT), 20)), SubgroupAction(41, 42)]`. -/
def exRule : List (Itm Nat) :=
  [.val 40, .select (.var .text) [.val 30, .target (.tup [.val 0, .var .text]) [.val 20]], .subgroup [.val 41, .val 42]]

example : Flat exRule ∧ VarOkL exRule ∧ BoundL (matchNS (.val 1) (.val 8)) exRule ∧
    variations exPy exMk exRule = some [[.val 40, .val 30, .val 41], [.val 40, .val 20, .val 41],
      [.val 40, .val 30, .val 42], [.val 40, .val 20, .val 42]] ∧
    evalRule exPy (matchNS (.val 1) (.val 8)) exRule = .ok [.val 40, .val 21, .subgroup [.val 41, .val 42]] := by
  refine ⟨?_, ?_, ?_, rfl, rfl⟩
  · simp [Flat, exRule]
  · simp [VarOkL, Itm.VarOk, exRule]
  · simp [BoundL, Itm.Bound, exRule, matchNS]

/-- C44, the tree. The choices in `variations_tree` are exactly the variations. -/
theorem C44_tree_partial (py : Py V) (mk : Marks V) (rule : List (Itm V)) (ho : TreeOkL rule)
    (ts : List (VT V)) (ht : variationsTree py mk rule = some ts)
    (vs : List (List (Itm V))) (hv : variations py mk rule = some vs) (w : List (Itm V)) :
    w ∈ VT.allSeq ts ↔ w ∈ vs :=
  tree_rule py mk rule ho ht hv w

example : TreeOkL exRule ∧ ∃ ts, variationsTree exPy exMk exRule = some ts := by
  refine ⟨by simp [TreeOkL, Itm.TreeOk, exRule], _, rfl⟩

/-- C44 does not hold with `skip`: such a rule has no variations at all (and so its targets are not
    validated), though it has an outcome; the tree does have it. -/
theorem C44_violated_skip : ∃ (rule : List (Itm Nat)),
    variations exPy exMk rule = some [] ∧
    evalRule exPy (matchNS (.val 1) (.val 8)) rule = .ok [.val 40, .skip, .val 1] ∧
    ExpandL exPy (matchNS (.val 1) (.val 8)) [.val 40, .skip, .val 1] [.val 40, .skip, .val 1] ∧
    ∃ ts, variationsTree exPy exMk rule = some ts ∧ VT.allSeq ts = [[.val 40, .skip, .val 1]] := by
  refine ⟨[.val 40, .skip, .val 1], rfl, rfl, ?_, _, rfl, rfl⟩
  exact .cons _ _ [.val 40] _ (.val 40) (.cons _ _ [.skip] _ .skip (.cons _ _ [.val 1] [] (.val 1) .nil))

end Parce.RI

import Verif.Lemmas.RuleHelpers

/-!
C100: the functions that make rule items choose what their documentation says.
-/
namespace Parce.RH

open RI

/-- A namespace for the examples: the text `ab`, and a match with `lastindex` 1 where group 2 did
    not contribute and group 3 is `b`. -/
def exNS : NS Val :=
  matchNS (str [97, 98]) (.val (.basic (.mtch ⟨[some [97, 98], some [97, 98], none, some [98]], 1⟩)))

/-- C100. `ifeq` and `ifneq` choose by equality. -/
theorem C100_ifeq (ns : NS Val) (i j result else_ : Itm Val) (a b : Basic)
    (h1 : evaluate py ns i = .ok (.val (.basic a))) (h2 : evaluate py ns j = .ok (.val (.basic b))) :
    evaluate py ns (ifeq i j result else_) =
      (if a = b then evaluate py ns result else evaluate py ns else_) ∧
    evaluate py ns (ifneq i j result else_) =
      (if a = b then evaluate py ns else_ else evaluate py ns result) := by
  constructor
  · unfold ifeq
    rw [evaluate_bool ns _ result else_ (a == b) (by rw [evaluate_call2 ns _ i j a b h1 h2]; rfl)]
    by_cases h : a = b <;> simp [h]
  · unfold ifneq
    rw [evaluate_bool ns _ result else_ (a != b) (by rw [evaluate_call2 ns _ i j a b h1 h2]; rfl)]
    by_cases h : a = b <;> simp [h]

example : evaluate py exNS (.var .text) = .ok (str [97, 98]) := rfl

/-- C100. `ifmember` chooses by membership. -/
theorem C100_ifmember (ns : NS Val) (item result else_ : Itm Val) (sequence : List Basic) (b : Basic)
    (h : evaluate py ns item = .ok (.val (.basic b))) :
    evaluate py ns (ifmember item sequence result else_) =
      if b ∈ sequence then evaluate py ns result else evaluate py ns else_ := by
  unfold ifmember
  rw [evaluate_bool ns _ result else_ (sequence.contains b)
    (by rw [evaluate_call1 ns _ item b h]; rfl)]
  by_cases hm : b ∈ sequence <;> simp [hm]

example : evaluate py exNS (ifmember (.var .text) [.str [97], .str [97, 98]] (num 5) (num 6)) =
    .ok (num 5) := rfl

/-- C100. `ifgroup` chooses by whether the group contributes to the match; it is an error when there
    is no such group. -/
theorem C100_ifgroup (ns : NS Val) (m : MatchObj) (n : Nat) (result else_ : Itm Val)
    (hm : ns .matchObj = some (.val (.basic (.mtch m)))) :
    evaluate py ns (ifgroup n result else_) =
      match m.groups[m.lastindex + n]? with
      | none => .err .error
      | some (some _) => evaluate py ns result
      | some none => evaluate py ns else_ := by
  rw [evaluate_ifgroup ns m n result else_ hm]
  have : m.group (m.lastindex + (n : Int)) = m.groups[m.lastindex + n]? := by
    unfold MatchObj.group
    rw [if_pos (by omega)]
    congr 1
  rw [this]
  cases m.groups[m.lastindex + n]? with
  | none => rfl
  | some g => cases g <;> rfl

example : evaluate py exNS (ifgroup 1 (num 5) (num 6)) = .ok (num 6) ∧
    evaluate py exNS (ifgroup 2 (num 5) (num 6)) = .ok (num 5) := ⟨rfl, rfl⟩

/-- C100 (partial: at least one result must not be None, see `C100_gselect_violated`). `gselect` is
    equivalent to nested `ifgroup`s, where a result that is None is skipped. -/
theorem C100_gselect_partial (ns : NS Val) (m : MatchObj) (results : List (Option (Itm Val)))
    (default : Itm Val) (hm : ns .matchObj = some (.val (.basic (.mtch m))))
    (hr : ∃ r ∈ results, r ≠ none) :
    ∃ g, gselect results default = some g ∧
      evaluate py ns g = evaluate py ns (nested results 1 default) := by
  unfold gselect
  have hne : numbered results 1 ≠ [] := fun h => by
    obtain ⟨r, h1, h2⟩ := hr
    exact h2 ((numbered_nil results 1).1 h r h1)
  split
  · rename_i h; exact absurd h hne
  · refine ⟨_, rfl, ?_⟩
    obtain ⟨h1, h2⟩ := evaluate_nested ns m default hm results 1
    have hc := evaluate_call1 ns (predicate ((numbered results 1).map (·.1))) (.var .matchObj)
      (.mtch m) (by simp only [evaluate, hm])
    cases hg : gpred m ((numbered results 1).map (·.1)) 0 with
    | none =>
      rw [h1 hg]
      simp only [predicate, hg, Option.map_none] at hc
      simp only [evaluate] at hc ⊢
      rw [hc]; rfl
    | some k =>
      obtain ⟨r, hr, he⟩ := h2 k hg
      rw [he]
      refine evaluate_select ns _ _ k r ?_ hr
      rw [hc]
      simp only [predicate, hg]; rfl

example : (gselect [some (num 5), none, some (num 7)] (num 8)).map (evaluate py
    (matchNS (str [97]) (.val (.basic (.mtch ⟨[some [97], some [97], none, some [], some []], 1⟩))))) =
    some (.ok (num 7)) := rfl

/-- C100 is violated: `gselect` with only None (or with nothing) should be the default, as no group
    can be chosen, but making the rule item raises an exception. -/
theorem C100_gselect_violated (default : Itm Val) :
    gselect [] default = none ∧ gselect [none, none] default = none ∧
    nested [none, none] 1 default = default := ⟨rfl, rfl, rfl⟩

/-- C100. `dselect` chooses the value for the key, or the default. -/
theorem C100_dselect (ns : NS Val) (item default : Itm Val) (mapping : List (Basic × Itm Val))
    (b : Basic) (h : evaluate py ns item = .ok (.val (.basic b))) :
    evaluate py ns (dselect item mapping default) =
      evaluate py ns ((mapping.lookup b).getD default) := by
  unfold dselect
  have hc := evaluate_call1 ns (getIndex (enumKeys mapping 1)) item b h
  obtain ⟨h1, h2⟩ := enumKeys_lookup b mapping 1
  cases hl : mapping.lookup b with
  | none =>
    refine evaluate_select ns _ _ 0 default ?_ rfl
    rw [hc]; simp only [getIndex, h1 hl]; rfl
  | some r =>
    obtain ⟨k, hk, hr⟩ := h2 r hl
    refine evaluate_select ns _ _ (1 + k) r ?_ ?_
    · rw [hc]; simp only [getIndex, hk]; rfl
    · rw [Nat.add_comm, List.getElem?_cons_succ]; exact hr

example : evaluate py exNS (dselect (.var .text) [(.str [97], num 3), (.str [97, 98], num 4)] (num 0)) =
    .ok (num 4) := rfl

/-- C100. `findmember` chooses the result of the first sequence with the item, or the default. -/
theorem C100_findmember (ns : NS Val) (item default : Itm Val) (pairs : List (List Basic × Itm Val))
    (b : Basic) (h : evaluate py ns item = .ok (.val (.basic b))) :
    evaluate py ns (findmember item pairs default) =
      evaluate py ns (((pairs.find? (fun p => p.1.contains b)).map (·.2)).getD default) := by
  unfold findmember
  have hc := evaluate_call1 ns (getIndex (pairs.foldl findStep ([], [default])).1) item b h
  have hl := find_loop b default pairs [] ([], [default]) ⟨by simp, by simp, by simp⟩
  refine evaluate_select ns _ _ _ _ ?_ hl
  rw [hc]; rfl

example : evaluate py exNS (findmember (.var .text)
    [([.str [97]], num 3), ([.str [97], .str [97, 98]], num 4), ([.str [97, 98]], num 5)] (num 0)) =
    .ok (num 4) := by
  rw [C100_findmember exNS (.var .text) (num 0) _ (.str [97, 98]) rfl]
  rfl

/-- C100. `derive` gives the lexicon with the argument, and the lexicon itself when the argument is
    None. -/
theorem C100_derive (ns : NS Val) (l argument : Itm Val) (name : Nat) (old : Option Basic)
    (b : Basic) (h1 : evaluate py ns l = .ok (.val (.lexicon name old)))
    (h2 : evaluate py ns argument = .ok (.val (.basic b))) :
    evaluate py ns (derive l argument) =
      .ok (.val (.lexicon name (if b = .none then old else some b))) := by
  unfold derive
  simp only [evaluate, evaluateL, num, h2, Res.bind, targetRes, Itm.int?, List.length_cons,
    List.length_nil]
  have hp : pyIndex py (0 + 1) (.val (.basic (.int 0))) = some 0 := rfl
  simp only [hp, evaluateAt, h1, Res.bind, RI.derive]
  cases b <;> rfl

example : evaluate py exNS (derive (.val (.lexicon 4 none)) (.var .text)) =
    .ok (.val (.lexicon 4 (some (.str [97, 98])))) := rfl

/-- C100. The pattern made by `arg` in a rule of a lexicon with argument `a`: the escaped argument
    between prefix and suffix when `a` is a string, and else the default. -/
theorem C100_arg (a default : Basic) (escape : List Nat → List Nat) (pre suf : List Nat)
    (rest : List (Itm Val)) :
    preRule py (.val (.basic a)) (arg escape pre suf default :: rest) =
      (preItems py (argNS (.val (.basic a))) rest).map (fun os =>
        .val (.basic (match a with
          | .str s => .str (pre ++ escape s ++ suf)
          | _ => default)) :: os) := by
  have hp : preRuleItem py (argNS (.val (.basic a))) (arg escape pre suf default) =
      some [.pattern (.val (.basic (match a with
          | .str s => .str (pre ++ escape s ++ suf)
          | _ => default)))] := by
    cases a <;> rfl
  unfold preRule
  simp only [preItems, hp]
  cases preItems py (argNS (.val (.basic a))) rest <;> rfl

example : preRule py (str [97]) [arg id [40] [41] .none, .val (.action 3)] =
    some [str [40, 97, 41], .val (.action 3)] := rfl

/-- C100 (partial: the argument may not be the empty string or the number 0, see
    `C100_ifarg_violated`). The pattern made by `ifarg` is the first one when the lexicon has an
    argument, and the other one when it has not. -/
theorem C100_ifarg_partial (a pat else_ : Basic) (rest : List (Itm Val))
    (ha : a ≠ .str [] ∧ a ≠ .int 0) :
    preRule py (.val (.basic a)) (ifarg (.val (.basic pat)) (.val (.basic else_)) :: rest) =
      (preItems py (argNS (.val (.basic a))) rest).map (fun os =>
        .val (.basic (if a = .none then else_ else pat)) :: os) := by
  have hp : preRuleItem py (argNS (.val (.basic a)))
      (ifarg (.val (.basic pat)) (.val (.basic else_))) =
      some [.pattern (.val (.basic (if a = .none then else_ else pat)))] := by
    cases a with
    | none => rfl
    | int n =>
      have hn : n ≠ 0 := fun h => ha.2 (by rw [h])
      have : boolFn [.int n] = some (ofBool true) := by
        simp only [boolFn, bne_iff_ne.2 hn]
      simp only [ifarg, preRuleItem, preUnroll, RI.pre, preL, argNS, fn, py_app, app, basics,
        Option.map_some, Option.bind_some, this, Bool.and_true]
      rfl
    | str s =>
      cases s with
      | nil => exact absurd rfl ha.1
      | cons c s => rfl
    | mtch m => rfl
  unfold preRule
  simp only [preItems, hp]
  cases preItems py (argNS (.val (.basic a))) rest <;> rfl

example : preRule py (str [97]) [ifarg (str [98]) none', .val (.action 3)] =
    some [str [98], .val (.action 3)] := rfl

/-- C100 is violated: a lexicon with the empty string as argument has an argument, but `ifarg` uses
    the pattern for a lexicon without one. -/
theorem C100_ifarg_violated :
    preRule py (str []) [ifarg (str [98]) (str [99]), .val (.action 3)] =
      some [str [99], .val (.action 3)] ∧
    (str [] : Itm Val) ≠ none' := ⟨rfl, by intro h; cases h⟩

end Parce.RH

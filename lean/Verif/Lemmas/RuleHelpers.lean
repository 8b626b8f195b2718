import Verif.Spec.RuleHelpers

/-! Lemmas about the functions that make rule items. -/
namespace Parce.RH

open RI

theorem py_app : py.app = app := rfl

theorem evaluate_call1 (ns : NS Val) (f : List Basic → Option Basic) (item : Itm Val) (b : Basic)
    (h : evaluate py ns item = .ok (.val (.basic b))) :
    evaluate py ns (.call (fn f) [item]) = .ofOption ((f [b]).map (fun b => .val (.basic b))) := by
  simp only [evaluate, evaluateL, fn, h, Res.bind, py_app, app, basics, Option.map_some,
    Option.bind_some]

theorem evaluate_call2 (ns : NS Val) (f : List Basic → Option Basic) (i j : Itm Val) (a b : Basic)
    (h1 : evaluate py ns i = .ok (.val (.basic a))) (h2 : evaluate py ns j = .ok (.val (.basic b))) :
    evaluate py ns (.call (fn f) [i, j]) = .ofOption ((f [a, b]).map (fun b => .val (.basic b))) := by
  simp only [evaluate, evaluateL, fn, h1, h2, Res.bind, py_app, app, basics, Option.map_some,
    Option.bind_some]

theorem pyIndex_nat (n k : Nat) (h : k < n) : pyIndex py n (num k) = some k := by
  unfold pyIndex
  simp [num, Itm.int?, py, h]

theorem evaluateAt_get (ns : NS Val) : ∀ (l : List (Itm Val)) (k : Nat) (r : Itm Val),
    l[k]? = some r → evaluateAt py ns l k = evaluate py ns r
  | o :: _, 0, r, h => by cases h; rfl
  | o :: l, k + 1, r, h => by
    rw [evaluateAt]; exact evaluateAt_get ns l k r (by simpa using h)

/-- Selecting with a number. -/
theorem evaluate_select (ns : NS Val) (i : Itm Val) (items : List (Itm Val)) (k : Nat) (r : Itm Val)
    (hi : evaluate py ns i = .ok (num k)) (hr : items[k]? = some r) :
    evaluate py ns (.select i items) = evaluate py ns r := by
  have hk : k < items.length := by
    rcases Nat.lt_or_ge k items.length with h | h
    · exact h
    · rw [List.getElem?_eq_none h] at hr; cases hr
  simp only [evaluate, hi, Res.bind, pyIndex_nat _ _ hk]
  exact evaluateAt_get ns items k r hr

/-- Selecting with `True` or `False`. -/
theorem evaluate_bool (ns : NS Val) (i r e : Itm Val) (b : Bool)
    (hi : evaluate py ns i = .ok (.val (.basic (ofBool b)))) :
    evaluate py ns (.select i [e, r]) = evaluate py ns (if b then r else e) := by
  cases b
  · exact evaluate_select ns i [e, r] 0 e hi rfl
  · exact evaluate_select ns i [e, r] 1 r hi rfl

theorem enumKeys_lookup (b : Basic) : ∀ (m : List (Basic × Itm Val)) (i : Nat),
    (m.lookup b = none → (enumKeys m i).lookup b = none) ∧
    (∀ r, m.lookup b = some r → ∃ k, (enumKeys m i).lookup b = some (i + k) ∧
      (m.map (·.2))[k]? = some r)
  | [], i => ⟨fun _ => rfl, fun r h => by cases h⟩
  | (a, x) :: m, i => by
    obtain ⟨h1, h2⟩ := enumKeys_lookup b m (i + 1)
    simp only [enumKeys, List.lookup_cons]
    cases hab : b == a
    · refine ⟨h1, fun r h => ?_⟩
      obtain ⟨k, hk, hr⟩ := h2 r h
      exact ⟨k + 1, by rw [hk, Nat.add_assoc, Nat.add_comm 1 k], by simpa using hr⟩
    · exact ⟨(fun h => by cases h), fun r h => ⟨0, rfl, by simpa using h⟩⟩

theorem lookup_const (b : Basic) (k : Nat) : ∀ (s : List Basic),
    (s.map (fun a => (a, k))).lookup b = if b ∈ s then some k else none
  | [] => rfl
  | a :: s => by
    simp only [List.map_cons, List.lookup_cons, lookup_const b k s, List.mem_cons]
    cases hab : b == a
    · have : b ≠ a := by simpa using hab
      simp [this]
    · have : b = a := by simpa using hab
      simp [this]

theorem lookup_append (b : Basic) : ∀ (d e : List (Basic × Nat)),
    (d ++ e).lookup b = (d.lookup b).or (e.lookup b)
  | [], e => by simp
  | (a, k) :: d, e => by
    simp only [List.cons_append, List.lookup_cons, lookup_append b d e]
    cases b == a <;> simp

theorem lookup_none (b : Basic) : ∀ (d : List (Basic × Nat)),
    d.lookup b = none ↔ b ∉ d.map (·.1)
  | [] => by simp
  | (a, k) :: d => by
    simp only [List.lookup_cons, List.map_cons, List.mem_cons, not_or]
    cases hab : b == a
    · have h : b ≠ a := by simpa using hab
      simp [lookup_none b d, h]
    · have h : b = a := by simpa using hab
      simp [h]

/-- What the loop of `findmember` has after some pairs. -/
theorem find_loop (b : Basic) (default : Itm Val) : ∀ (pairs done : List (List Basic × Itm Val))
    (st : List (Basic × Nat) × List (Itm Val)),
    ((st.1.lookup b).getD 0 < st.2.length ∧
      st.2[(st.1.lookup b).getD 0]? =
        some (((done.find? (fun p => p.1.contains b)).map (·.2)).getD default) ∧
      (st.1.lookup b = none ↔ done.find? (fun p => p.1.contains b) = none)) →
    (pairs.foldl findStep st).2[((pairs.foldl findStep st).1.lookup b).getD 0]? =
      some ((((done ++ pairs).find? (fun p => p.1.contains b)).map (·.2)).getD default)
  | [], done, st, h => by simpa using h.2.1
  | p :: pairs, done, st, ⟨h0, h1, h2⟩ => by
    rw [List.foldl_cons, show done ++ p :: pairs = (done ++ [p]) ++ pairs by simp]
    refine find_loop b default pairs (done ++ [p]) _ ?_
    have hf : (done ++ [p]).find? (fun p => p.1.contains b) =
        (done.find? (fun p => p.1.contains b)).or (if p.1.contains b then some p else none) := by
      rw [List.find?_append]; congr 1
      simp only [List.find?_cons, List.find?_nil]
      cases p.1.contains b <;> rfl
    unfold findStep
    simp only
    split
    · rename_i hs
      refine ⟨h0, ?_, ?_⟩
      · rw [h1, hf]
        cases hd : done.find? (fun p => p.1.contains b) with
        | some q => rfl
        | none =>
          have hl := h2.2 hd
          have : p.1.contains b = false := by
            cases hc : p.1.contains b with
            | false => rfl
            | true =>
              rw [List.filter_eq_nil_iff] at hs
              have := hs b (by simpa using hc)
              rw [lookup_none] at hl
              simp at this hl
              obtain ⟨x, hx⟩ := this
              exact absurd hx (hl x)
          simp only [this, Bool.false_eq_true, if_false, Option.or_none]
      · rw [hf, h2]
        cases hd : done.find? (fun p => p.1.contains b) with
        | some q => simp
        | none =>
          have hl := h2.2 hd
          have : p.1.contains b = false := by
            cases hc : p.1.contains b with
            | false => rfl
            | true =>
              rw [List.filter_eq_nil_iff] at hs
              have := hs b (by simpa using hc)
              rw [lookup_none] at hl
              simp at this hl
              obtain ⟨x, hx⟩ := this
              exact absurd hx (hl x)
          rw [this]; simp
    · simp only [lookup_append, lookup_const, hf]
      cases hl : st.1.lookup b with
      | some k =>
        have hd : done.find? (fun p => p.1.contains b) ≠ none := fun h => by
          rw [h2.2 h] at hl; cases hl
        rw [hl] at h0 h1
        simp only [Option.some_or, Option.getD_some] at h0 h1 ⊢
        refine ⟨by simp; omega, ?_, ?_⟩
        rotate_left
        · cases hd' : done.find? (fun p => p.1.contains b) with
          | none => exact absurd hd' hd
          | some q => simp
        rw [List.getElem?_append_left h0, h1]
        cases hd' : done.find? (fun p => p.1.contains b) with
        | none => exact absurd hd' hd
        | some q => rfl
      | none =>
        have hd := h2.1 hl
        rw [hl] at h0 h1
        have hm : b ∉ st.1.map (·.1) := (lookup_none b _).1 hl
        have hmem : (b ∈ p.1.filter (fun a => !(st.1.map (·.1)).contains a)) ↔ p.1.contains b = true := by
          rw [List.mem_filter]
          simp only [List.contains_iff_mem]
          constructor
          · exact fun h => h.1
          · intro h
            refine ⟨h, ?_⟩
            rw [Bool.not_eq_true']
            cases hc : (st.1.map (·.1)).contains b with
            | false => rfl
            | true => exact absurd (by simpa using hc) hm
        simp only [Option.none_or, hd]
        cases hc : p.1.contains b with
        | true =>
          rw [if_pos (hmem.2 hc)]
          simp
        | false =>
          rw [if_neg (fun h => by rw [hmem.1 h] at hc; cases hc)]
          rw [hd] at h1
          simp only [Option.getD_none, Bool.false_eq_true, if_false, Option.map_none] at h0 h1 ⊢
          refine ⟨by simp, ?_, by simp⟩
          rw [List.getElem?_append_left h0, h1]

theorem evaluate_MATCH (ns : NS Val) (m : MatchObj) (n : Int)
    (hm : ns .matchObj = some (.val (.basic (.mtch m)))) :
    evaluate py ns (MATCH n) =
      .ofOption ((m.group (m.lastindex + n)).map (fun g => .val (.basic (ofGroup g)))) := by
  unfold MATCH
  rw [evaluate_call2 ns matchGroup (.var .matchObj) (num n) (.mtch m) (.int n)
    (by simp only [evaluate, hm]) rfl]
  simp [matchGroup, Option.map_map, Function.comp_def]

/-- `ifgroup` for a match. -/
theorem evaluate_ifgroup (ns : NS Val) (m : MatchObj) (n : Int) (r e : Itm Val)
    (hm : ns .matchObj = some (.val (.basic (.mtch m)))) :
    evaluate py ns (ifgroup n r e) =
      match m.group (m.lastindex + n) with
      | none => .err .error
      | some (some _) => evaluate py ns r
      | some none => evaluate py ns e := by
  have h := evaluate_MATCH ns m n hm
  unfold ifgroup
  cases hg : m.group (m.lastindex + n) with
  | none =>
    rw [hg] at h
    simp only [evaluate, evaluateL, fn, Res.bind] at h ⊢
    rw [h]; rfl
  | some g =>
    rw [hg] at h
    rw [evaluate_bool ns _ r e (g.isSome) ?_]
    · cases g <;> rfl
    · rw [evaluate_call2 ns neFn (MATCH n) none' (ofGroup g) .none h rfl]
      cases g <;> rfl

theorem gpred_shift (m : MatchObj) : ∀ (ns : List Int) (i : Nat),
    gpred m ns i = (gpred m ns 0).map (i + ·)
  | [], i => by simp [gpred]
  | n :: ns, i => by
    simp only [gpred]
    cases m.group (m.lastindex + n) with
    | none => rfl
    | some g =>
      cases g with
      | some s => simp
      | none =>
        simp only
        rw [gpred_shift m ns (i + 1), gpred_shift m ns (0 + 1)]
        simp only [Option.map_map]
        congr 1
        funext k
        simp only [Function.comp_apply]
        omega

/-- The nested `ifgroup`s choose what the predicate chooses. -/
theorem evaluate_nested (ns : NS Val) (m : MatchObj) (default : Itm Val)
    (hm : ns .matchObj = some (.val (.basic (.mtch m)))) :
    ∀ (rs : List (Option (Itm Val))) (i : Int),
    (gpred m ((numbered rs i).map (·.1)) 0 = none →
      evaluate py ns (nested rs i default) = .err .error) ∧
    (∀ k, gpred m ((numbered rs i).map (·.1)) 0 = some k → ∃ r,
      ((numbered rs i).map (·.2) ++ [default])[k]? = some r ∧
      evaluate py ns (nested rs i default) = evaluate py ns r)
  | [], i => ⟨(fun h => by cases h), (fun k h => by cases h; exact ⟨default, rfl, rfl⟩)⟩
  | none :: rs, i => evaluate_nested ns m default hm rs (i + 1)
  | some r :: rs, i => by
    obtain ⟨h1, h2⟩ := evaluate_nested ns m default hm rs (i + 1)
    simp only [nested, numbered, List.map_cons, gpred, evaluate_ifgroup ns m i r _ hm]
    cases m.group (m.lastindex + i) with
    | none => exact ⟨(fun _ => rfl), (fun k h => by cases h)⟩
    | some g =>
      cases g with
      | some s => exact ⟨(fun h => by cases h), (fun k h => by cases h; exact ⟨r, rfl, rfl⟩)⟩
      | none =>
        simp only
        rw [gpred_shift m _ (0 + 1)]
        refine ⟨fun h => h1 (by simpa using h), fun k h => ?_⟩
        obtain ⟨k', hk', rfl⟩ := Option.map_eq_some_iff.1 h
        obtain ⟨r', hr', he⟩ := h2 k' hk'
        refine ⟨r', ?_, he⟩
        rw [show 0 + 1 + k' = k' + 1 by omega, List.cons_append, List.getElem?_cons_succ]
        exact hr'

theorem numbered_nil : ∀ (rs : List (Option (Itm Val))) (i : Int),
    numbered rs i = [] ↔ ∀ r ∈ rs, r = none
  | [], i => by simp [numbered]
  | none :: rs, i => by simp [numbered, numbered_nil rs (i + 1)]
  | some r :: rs, i => by simp [numbered]

end Parce.RH

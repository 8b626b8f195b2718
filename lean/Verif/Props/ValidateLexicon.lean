import Verif.Lemmas.ValidateLexicon
import Verif.Props.RuleItem

/-!
# C110: validating a lexicon
-/
namespace Parce.VL

open Parce.RI

variable {V : Type} [DecidableEq V]

/-- **C110.** For rules that need no evaluation: `validate` raises nothing, and finds no error exactly when the rules are
    good. (The actions are true for Python, see `C110_false_action_violated`.) -/
theorem C110_static (env : Env V) (hne : env.defAct ≠ env.defTgt) (rules : List (List (Itm V))) (hs : Static env rules)
    (ht : ∀ a ts, .val env.defAct :: a :: ts ∈ rules → env.truthy a = true) :
    ∃ es ws, validate env rules = some (es, ws) ∧ (es = [] ↔ Good env rules) := by
  obtain ⟨st', h1, h2⟩ := run_static env rules 1 {} hs ht
  refine ⟨finish env st', st'.warnings, by unfold validate; rw [h1]; rfl, ?_⟩
  rw [h2, ← good_iff, gf_iff env hne]
  simp

/-- **C110** (partial). A rule that was validated without an error has only numbers and lexicons as targets when it is evaluated,
    whatever the text is. Partial: there is no `skip` in the rule (`C110_skip_violated`), the action is not empty
    (`C110_group_violated`), and the targets are not themselves actions (`C110_using_violated`). -/
theorem C110_targets_partial (env : Env V) (hw : World env) (rules : List (List (Itm V))) (ws : List Warning)
    (hv : validate env rules = some ([], ws)) (p : Itm V) (rule : List (Itm V)) (hm : p :: rule ∈ rules)
    (hp : p ≠ .val env.defAct ∧ p ≠ .val env.defTgt) (hf : Flat rule) (ho : VarOkL rule)
    (ns : NS V) (hb : BoundL ns rule) (a : Itm V) (ts : List (Itm V)) (he : evalRule env.py ns rule = .ok (a :: ts))
    (ha : IsAction env.py ns a) (hts : ∀ t ∈ ts, ∃ v, t = .val v ∧ v ≠ env.marks.number) :
    ∀ t ∈ ts, IsTarget env t := by
  unfold validate at hv
  cases hr : run env 1 {} rules with
  | none => rw [hr] at hv; cases hv
  | some st =>
    rw [hr] at hv
    simp only [Option.map_some, Option.some.injEq, Prod.mk.injEq] at hv
    have hes := finish_errors hv.1
    cases rule with
    | nil => simp [evalRule] at he
    | cons x rule =>
      obtain ⟨k, hk⟩ := run_rule env rules 1 {} st hr hes p x rule hm hp.1 hp.2
      obtain ⟨vs, h1, h2⟩ := validateRule_nil hk
      obtain ⟨os, ha1, ha2⟩ := ha
      obtain ⟨w, hwv, hc⟩ := C44_variations_partial env.py env.marks hw.plain ns (x :: rule) hf ho hb vs h1 (a :: ts) he (os ++ ts)
        (.cons a ts os ts ha1 (expandL_vals env.py ns ts (fun t ht => let ⟨v, hv, _⟩ := hts t ht; ⟨v, hv⟩)))
      intro t ht
      have hd : t ∈ (os ++ ts).drop 1 := by
        cases os with
        | nil => exact absurd rfl ha2
        | cons o os => simp [ht]
      obtain ⟨u, hu, hcu⟩ := forall2_drop hc 1 t hd
      rcases covers_target hw hcu (h2 w hwv u hu) with h | h
      · obtain ⟨v, rfl, hv⟩ := hts t ht
        cases h
        exact absurd rfl hv
      · exact h

/-- **C110.** The rules that a lexicon uses are exactly those with a pattern, that are not for a default, and without the
    warning that they will be skipped. -/
theorem C110_skipped (env : Env V) (rules : List (List (Itm V))) (es : List (Error V)) (ws : List Warning)
    (hv : validate env rules = some (es, ws)) (n : Nat) :
    n ∈ used env rules ↔ 1 ≤ n ∧
      (∃ p a ts, rules[n - 1]? = some (p :: a :: ts) ∧ p ≠ .val env.defAct ∧ p ≠ .val env.defTgt) ∧
      Warning.isNone n ∉ ws ∧ Warning.repeated n ∉ ws := by
  unfold validate at hv
  cases hr : run env 1 {} rules with
  | none => rw [hr] at hv; cases hv
  | some st =>
    rw [hr] at hv
    simp only [Option.map_some, Option.some.injEq, Prod.mk.injEq] at hv
    obtain ⟨_, rfl⟩ := hv
    have := used_run env rules 1 {} st hr (fun k _ => by simp [Skipped]) n
    unfold used
    rw [this]
    simp only [Skipped, not_or]

/-! ## Examples and violations -/

/-- Numbers below 10 are numbers, 20 and 21 are lexicons, 99 is `None`, 60 and 61 are the symbols for the default action and
    target, 70 is a pattern that is wrong, and 71 one that matches the empty text. -/
def exEnv : Env Nat where
  py := exPy
  marks := exMk
  isLex v := v == 20 || v == 21
  defAct := 60
  defTgt := 61
  compile v := if v = 70 then none else some (v == 71)
  truthy := fun | .val v => v != 0 | _ => true
  check := fun | [.val 1] => .circularError | _ => .fine

/-- `default_action, 40`; a pattern with a lexicon as target; a pattern that is repeated; a pattern `None`. -/
def exRules : List (List (Itm Nat)) :=
  [[.val 60, .val 40], [.val 80, .val 40, .val 20], [.val 80, .val 41, .val 1], [.val 99, .val 41]]

example : validate exEnv exRules = some ([], [.repeated 3, .isNone 4]) ∧ used exEnv exRules = [2] := ⟨rfl, rfl⟩

example : exEnv.defAct ≠ exEnv.defTgt ∧ Static exEnv exRules ∧
    (∀ a ts, .val exEnv.defAct :: a :: ts ∈ exRules → exEnv.truthy a = true) := by
  refine ⟨by decide, ?_, ?_⟩
  · intro r hr t ht
    simp only [exRules, List.mem_cons, List.not_mem_nil, or_false] at hr
    rcases hr with rfl | rfl | rfl | rfl <;> simp only [List.mem_cons, List.not_mem_nil, or_false] at ht
    · rcases ht with rfl | rfl <;> exact ⟨_, rfl, by decide⟩
    · rcases ht with rfl | rfl | rfl <;> exact ⟨_, rfl, by decide⟩
    · rcases ht with rfl | rfl | rfl <;> exact ⟨_, rfl, by decide⟩
    · rcases ht with rfl | rfl <;> exact ⟨_, rfl, by decide⟩
  · intro a ts h
    simp only [exRules, List.mem_cons, List.not_mem_nil, or_false, List.cons.injEq, Itm.val.injEq, exEnv] at h
    rcases h with ⟨_, rfl, _⟩ | ⟨h, _⟩ | ⟨h, _⟩ | ⟨h, _⟩
    · rfl
    · cases h
    · cases h
    · cases h

/-- Errors that are found. -/
example : validate exEnv [[.val 80]] = some ([.short 1], []) ∧
    validate exEnv [[.val 70, .val 40]] = some ([.pattern 1], []) ∧
    validate exEnv [[.val 80, .val 40, .val 55]] = some ([.target 1 (.val 55)], []) ∧
    validate exEnv [[.val 60, .val 40], [.val 60, .val 41]] = some ([.twoActions 2], []) ∧
    validate exEnv [[.val 61, .val 20], [.val 61, .val 2]] = some ([.twoTargets 2], []) ∧
    validate exEnv [[.val 61, .val 1]] = some ([.default .circularError], []) ∧
    validate exEnv [[.val 60, .val 40], [.val 61, .val 2]] = some ([.both], []) ∧
    validate exEnv [[.val 71, .val 40]] = some ([], [.emptyMatch 1]) := ⟨rfl, rfl, rfl, rfl, rfl, rfl, rfl, rfl⟩

theorem exWorld : World exEnv where
  plain := exPy_plain
  app := by
    intro v args r hv h
    simp only [exEnv, exPy] at h hv
    split at h
    · cases h; exact ⟨_, rfl, rfl⟩
    · rename_i heq
      cases heq; simp at hv
    · rename_i heq
      cases heq; simp at hv
    · cases h
  num := by
    intro v args h
    simp only [exEnv, exPy] at h ⊢
    split
    · rename_i heq
      cases heq; simp at h
    · rename_i heq
      cases heq; simp at h
    · rename_i heq
      cases heq; simp at h
    · rfl
  number := fun args => rfl
  string := by decide

/-- `select(TEXT, 30, target((0, TEXT), 20))` as the target; with the text 1 the target is a derived lexicon. -/
example : validate exEnv [[.val 80, .val 40, .select (.var .text) [.val 3, .target (.tup [.val 0, .var .text]) [.val 20]]]] = some ([], []) ∧
    evalRule exEnv.py (matchNS (.val 1) (.val 8)) [.val 40, .select (.var .text) [.val 3, .target (.tup [.val 0, .var .text]) [.val 20]]] =
      .ok [.val 40, .val 21] ∧
    Flat ([.val 40, .select (.var .text) [.val 3, .target (.tup [.val 0, .var .text]) [.val 20]]] : List (Itm Nat)) ∧
    VarOkL ([.val 40, .select (.var .text) [.val 3, .target (.tup [.val 0, .var .text]) [.val 20]]] : List (Itm Nat)) ∧
    BoundL (matchNS (.val 1) (.val 8)) ([.val 40, .select (.var .text) [.val 3, .target (.tup [.val 0, .var .text]) [.val 20]]] : List (Itm Nat)) ∧
    IsAction exEnv.py (matchNS (.val 1) (.val 8)) (.val 40) ∧ IsTarget exEnv (.val 21) := by
  refine ⟨rfl, rfl, ?_, ?_, ?_, ⟨_, .val 40, by simp⟩, ⟨21, rfl, Or.inr rfl⟩⟩
  · intro o ho l
    simp only [List.mem_cons, List.not_mem_nil, or_false] at ho
    rcases ho with rfl | rfl <;> simp
  · simp [VarOkL, Itm.VarOk]
  · simp [BoundL, Itm.Bound, matchNS]

/-- **C110 does not hold** with `skip`: the rule `pattern, skip, 55` passes, although 55 is no target. -/
theorem C110_skip_violated : validate exEnv [[.val 80, .skip, .val 55]] = some ([], []) ∧
    evalRule exEnv.py (matchNS (.val 1) (.val 8)) [.skip, .val 55] = .ok [.skip, .val 55] ∧ ¬ IsTarget exEnv (.val 55) := by
  refine ⟨rfl, rfl, ?_⟩
  rintro ⟨v, h, h2⟩
  cases h
  revert h2; decide

/-- **C110 does not hold** for a `SubgroupAction` without actions: no target is looked at. -/
theorem C110_group_violated : validate exEnv [[.val 80, .subgroup [], .val 55]] = some ([], []) ∧
    evalRule exEnv.py (matchNS (.val 1) (.val 8)) [.subgroup [], .val 55] = .ok [.subgroup [], .val 55] := ⟨rfl, rfl⟩

/-- **C110 does not hold** for actions in the place of targets: `using(lexicon)` as a target passes, but a target is then an
    object that is no lexicon. -/
theorem C110_using_violated : validate exEnv [[.val 80, .val 40, .delegate (.val 20)]] = some ([], []) ∧
    evalRule exEnv.py (matchNS (.val 1) (.val 8)) [.val 40, .delegate (.val 20)] = .ok [.val 40, .delegate (.val 20)] ∧
    ¬ IsTarget exEnv (.delegate (.val 20)) := by
  refine ⟨rfl, rfl, ?_⟩
  rintro ⟨v, h, _⟩
  cases h

/-- **C110 does not hold** for a default action that is false for Python: a second default action and a default target
    pass. -/
theorem C110_false_action_violated :
    validate exEnv [[.val 60, .val 0], [.val 60, .val 40]] = some ([], []) ∧
    validate exEnv [[.val 60, .val 0], [.val 61, .val 20]] = some ([], []) ∧
    ¬ Good exEnv [[.val 60, .val 0], [.val 60, .val 40]] ∧ ¬ Good exEnv [[.val 60, .val 0], [.val 61, .val 20]] := by
  refine ⟨rfl, rfl, ?_, ?_⟩
  · intro h
    exact h.one 0 1 _ _ (by omega) rfl rfl (Or.inl ⟨_, rfl⟩) (Or.inl ⟨_, rfl⟩)
  · intro h
    exact h.one 0 1 _ _ (by omega) rfl rfl (Or.inl ⟨_, rfl⟩) (Or.inr ⟨_, rfl⟩)

/-- **C110 does not hold** for a variable that is used directly in a rule: instead of reporting an error, `validate` raises
    one. -/
theorem C110_raise_violated : validate exEnv [[.val 80, .val 40, .var .text]] = none := rfl

end Parce.VL

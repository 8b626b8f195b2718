import Verif.Spec.ValidateLexicon
import Verif.Lemmas.Variations

namespace Parce.VL

open Parce.RI

variable {V : Type} [DecidableEq V]

theorem isSym_iff (s : V) (p : Itm V) : isSym s p = true ↔ p = .val s := by
  cases p <;> simp [isSym]

omit [DecidableEq V] in
theorem isTarget_iff (env : Env V) (t : Itm V) : env.isTarget t = true ↔ IsTarget env t := by
  cases t <;> simp [Env.isTarget, IsTarget]

theorem isNumber_iff (env : Env V) (t : Itm V) : env.isNumber t = true ↔ t = .val env.marks.number := by
  cases t <;> simp [Env.isNumber]

/-! ## Rules that are not evaluated -/

omit [DecidableEq V] in
theorem variations_static (py : Py V) (mk : Marks V) : (l : List (Itm V)) → (∀ t ∈ l, ∃ v, t = .val v) →
    variations py mk l = some [l]
  | [], _ => rfl
  | o :: os, h => by
    obtain ⟨v, rfl⟩ := h o (by simp)
    rw [variations, variations_static py mk os (fun t ht => h t (List.mem_cons_of_mem _ ht))]
    rfl

/-- The errors of a rule that is not evaluated. -/
theorem validateRule_static (env : Env V) (n : Nat) (a : Itm V) (ts : List (Itm V))
    (h : ∀ t ∈ a :: ts, ∃ v, t = .val v ∧ v ≠ env.marks.number) :
    ∃ es, validateRule env n (a :: ts) = some es ∧ (es = [] ↔ ∀ t ∈ ts, IsTarget env t) := by
  unfold validateRule
  rw [variations_static _ _ _ (fun t ht => let ⟨v, hv, _⟩ := h t ht; ⟨v, hv⟩)]
  refine ⟨_, rfl, ?_⟩
  simp only [List.flatMap_cons, List.flatMap_nil, List.append_nil, List.drop_succ_cons, List.drop_zero,
    List.filterMap_eq_nil_iff]
  have key : ∀ t ∈ ts, ((if !env.isNumber t && !env.isTarget t then some (Error.target n t) else none) = none ↔ IsTarget env t) := by
    intro t ht
    have hn : env.isNumber t = false := by
      obtain ⟨v, rfl, hv⟩ := h t (List.mem_cons_of_mem _ ht)
      simpa [Env.isNumber] using hv
    rw [hn, ← isTarget_iff]
    cases env.isTarget t <;> simp
  exact ⟨fun hh t ht => (key t ht).1 (hh t ht), fun hh t ht => (key t ht).2 (hh t ht)⟩

/-- No error for the default target. -/
def DefOk (env : Env V) (ts : List (Itm V)) : Prop :=
  env.check ts ≠ .badItem ∧ env.check ts ≠ .invalid ∧ env.check ts ≠ .circularError

omit [DecidableEq V] in
theorem defaultErrors_nil (env : Env V) (ts : List (Itm V)) : defaultErrors (V := V) (env.check ts) = [] ↔ DefOk env ts := by
  unfold DefOk
  cases env.check ts <;> simp [defaultErrors]

/-- The pattern is `None` or a regular expression. -/
def PatOk (env : Env V) (p : Itm V) : Prop :=
  ∃ v, p = .val v ∧ (env.py.isNone v = true ∨ ∃ b, env.compile v = some b)

theorem validatePattern_nil (env : Env V) (n : Nat) (p : Itm V) (hn : p.none? env.py = false) :
    (validatePattern env n p).1 = [] ↔ PatOk env p := by
  unfold PatOk
  cases p with
  | val v =>
    simp only [Itm.none?] at hn
    cases hc : env.compile v with
    | none => simp [validatePattern, hc, hn]
    | some b => cases b <;> simp [validatePattern, hc, hn]
  | _ => simp [validatePattern]

omit [DecidableEq V] in
theorem patOk_none (env : Env V) (p : Itm V) (hn : p.none? env.py = true) : PatOk env p := by
  cases p with
  | val v => exact ⟨v, rfl, Or.inl hn⟩
  | _ => cases hn

/-- The rules are good, when a default action or target was seen already. -/
def GF (env : Env V) : Bool → Bool → List (List (Itm V)) → Prop
  | a, t, [] => (a && t) = false
  | a, t, (p :: x :: ts) :: rs =>
    if isSym env.defAct p then a = false ∧ GF env true t rs
    else if isSym env.defTgt p then t = false ∧ DefOk env (x :: ts) ∧ GF env a true rs
    else PatOk env p ∧ (∀ y ∈ ts, IsTarget env y) ∧ GF env a t rs
  | _, _, _ :: _ => False

/-- The errors are kept. -/
theorem step_errors (env : Env V) (n : Nat) (st st' : St V) (r : List (Itm V)) (h : step env n st r = some st') :
    ∃ es, st'.errors = st.errors ++ es := by
  match r, h with
  | [], h => cases h; exact ⟨_, rfl⟩
  | [_], h => cases h; exact ⟨_, rfl⟩
  | p :: a :: ts, h =>
    simp only [step, stepRule] at h
    by_cases h1 : isSym env.defAct p = true
    · rw [if_pos h1] at h
      split at h
      · cases h; exact ⟨_, rfl⟩
      · cases h; exact ⟨[], by simp⟩
    rw [if_neg h1] at h
    by_cases h2 : isSym env.defTgt p = true
    · rw [if_pos h2] at h
      split at h
      · cases h; exact ⟨_, rfl⟩
      · cases h; exact ⟨_, rfl⟩
    rw [if_neg h2] at h
    cases hv : validateRule env n (a :: ts) with
    | none => rw [hv] at h; cases h
    | some es =>
      rw [hv] at h
      simp only at h
      split at h
      · cases h; exact ⟨_, rfl⟩
      · cases h; exact ⟨_, rfl⟩

theorem run_errors (env : Env V) : (rules : List (List (Itm V))) → (n : Nat) → (st st' : St V) →
    run env n st rules = some st' → ∃ es, st'.errors = st.errors ++ es
  | [], n, st, st', h => by cases h; exact ⟨[], by simp⟩
  | r :: rs, n, st, st', h => by
    unfold run at h
    cases hs : step env n st r with
    | none => rw [hs] at h; cases h
    | some st1 =>
      rw [hs] at h
      obtain ⟨e1, h1⟩ := step_errors env n st st1 r hs
      obtain ⟨e2, h2⟩ := run_errors env rs (n + 1) st1 st' h
      exact ⟨e1 ++ e2, by rw [h2, h1, List.append_assoc]⟩

theorem finish_nil (env : Env V) (st : St V) :
    finish env st = [] ↔ st.errors = [] ∧ (st.act.any env.truthy && st.tgt.isSome) = false := by
  unfold finish
  cases (st.act.any env.truthy && st.tgt.isSome) <;> simp

theorem finish_errors {env : Env V} {st : St V} (h : finish env st = []) : st.errors = [] := ((finish_nil env st).1 h).1

theorem run_static (env : Env V) : (rules : List (List (Itm V))) → (n : Nat) → (st : St V) → Static env rules →
    (∀ a ts, .val env.defAct :: a :: ts ∈ rules → env.truthy a = true) →
    ∃ st', run env n st rules = some st' ∧
      (finish env st' = [] ↔ st.errors = [] ∧ GF env (st.act.any env.truthy) st.tgt.isSome rules)
  | [], n, st, _, _ => ⟨st, rfl, finish_nil env st⟩
  | r :: rs, n, st, hs, ht => by
    have hs' : Static env rs := fun r' h' => hs r' (List.mem_cons_of_mem _ h')
    have ht' : ∀ a ts, .val env.defAct :: a :: ts ∈ rs → env.truthy a = true := fun a ts h => ht a ts (List.mem_cons_of_mem _ h)
    have bad : ∀ st1 : St V, step env n st r = some st1 → st1.errors ≠ [] →
        (¬ (st.errors = [] ∧ GF env (st.act.any env.truthy) st.tgt.isSome (r :: rs))) →
        ∃ st', run env n st (r :: rs) = some st' ∧
          (finish env st' = [] ↔ st.errors = [] ∧ GF env (st.act.any env.truthy) st.tgt.isSome (r :: rs)) := by
      intro st1 h1 h2 h3
      obtain ⟨st', h4, h5⟩ := run_static env rs (n + 1) st1 hs' ht'
      refine ⟨st', by rw [run, h1]; exact h4, ?_⟩
      constructor
      · intro h; exact absurd (h5.1 h).1 h2
      · intro h; exact absurd h h3
    match r, hs, ht, bad with
    | [], _, _, bad => exact bad _ rfl (by simp) (fun h => h.2)
    | [_], _, _, bad => exact bad _ rfl (by simp) (fun h => h.2)
    | p :: a :: ts, hs, ht, bad =>
      by_cases h1 : isSym env.defAct p = true
      · by_cases h2 : st.act.any env.truthy = true
        · refine bad ⟨st.act, st.tgt, st.patterns, st.errors ++ [.twoActions n], st.warnings⟩ ?_ (by simp) ?_
          · simp only [step, stepRule]; rw [if_pos h1, if_pos h2]
          · rintro ⟨_, h⟩
            unfold GF at h
            rw [if_pos h1, h2] at h
            exact absurd h.1 (by simp)
        · obtain ⟨st', h4, h5⟩ := run_static env rs (n + 1) ⟨some a, st.tgt, st.patterns, st.errors, st.warnings⟩ hs' ht'
          refine ⟨st', ?_, ?_⟩
          · simp only [run, step, stepRule]; rw [if_pos h1, if_neg h2]; exact h4
          · rw [h5]
            conv => rhs; unfold GF
            rw [if_pos h1]
            have hp := (isSym_iff _ _).1 h1
            subst hp
            simp only [Bool.not_eq_true] at h2
            simp [h2, ht a ts (by simp)]
      · by_cases h2 : isSym env.defTgt p = true
        · by_cases h3 : st.tgt.isSome = true
          · refine bad ⟨st.act, st.tgt, st.patterns, st.errors ++ [.twoTargets n], st.warnings⟩ ?_ (by simp) ?_
            · simp only [step, stepRule]; rw [if_neg h1, if_pos h2, if_pos h3]
            · rintro ⟨_, h⟩
              unfold GF at h
              rw [if_neg h1, if_pos h2, h3] at h
              exact absurd h.1 (by simp)
          · obtain ⟨st', h4, h5⟩ := run_static env rs (n + 1) ⟨st.act, some (a :: ts), st.patterns, st.errors ++ defaultErrors (env.check (a :: ts)),
              st.warnings ++ defaultWarnings (env.check (a :: ts))⟩ hs' ht'
            refine ⟨st', ?_, ?_⟩
            · simp only [run, step, stepRule]; rw [if_neg h1, if_pos h2, if_neg h3]; exact h4
            · rw [h5]
              conv => rhs; unfold GF
              rw [if_neg h1, if_pos h2]
              simp only [Bool.not_eq_true] at h3
              simp only [List.append_eq_nil_iff, defaultErrors_nil, h3, Option.isSome_some, true_and]
              exact and_assoc
        · obtain ⟨es, he, he2⟩ := validateRule_static env n a ts (fun t htt => hs (p :: a :: ts) List.mem_cons_self t (List.mem_cons_of_mem _ htt))
          by_cases hn : p.none? env.py = true
          · obtain ⟨st', h4, h5⟩ := run_static env rs (n + 1) ⟨st.act, st.tgt, st.patterns, st.errors ++ es, st.warnings ++ [.isNone n]⟩ hs' ht'
            refine ⟨st', ?_, ?_⟩
            · simp only [run, step, stepRule]; rw [if_neg h1, if_neg h2, he]; simp only [if_pos hn]; exact h4
            · rw [h5]
              conv => rhs; unfold GF
              rw [if_neg h1, if_neg h2]
              simp only [List.append_eq_nil_iff, he2]
              have := patOk_none env p hn
              constructor
              · rintro ⟨⟨x, y⟩, z⟩; exact ⟨x, this, y, z⟩
              · rintro ⟨x, _, y, z⟩; exact ⟨⟨x, y⟩, z⟩
          · obtain ⟨st', h4, h5⟩ := run_static env rs (n + 1) ⟨st.act, st.tgt, remember st.patterns p, st.errors ++ ((validatePattern env n p).1 ++ es),
              st.warnings ++ ((validatePattern env n p).2 ++ if seen st.patterns p then [.repeated n] else [])⟩ hs' ht'
            refine ⟨st', ?_, ?_⟩
            · simp only [run, step, stepRule]; rw [if_neg h1, if_neg h2, he]; simp only [if_neg hn]; exact h4
            · rw [h5]
              conv => rhs; unfold GF
              rw [if_neg h1, if_neg h2]
              simp only [Bool.not_eq_true] at hn
              simp only [List.append_eq_nil_iff, he2, validatePattern_nil env n p hn]
              constructor
              · rintro ⟨⟨x, w, y⟩, z⟩; exact ⟨x, w, y, z⟩
              · rintro ⟨x, w, y, z⟩; exact ⟨⟨x, w, y⟩, z⟩

/-- A rule for a default action or target. -/
def IsDef (env : Env V) (r : List (Itm V)) : Prop := IsAct env r ∨ IsTgt env r

/-- The members of `Good`, with a list in pairs. -/
structure Good' (env : Env V) (rules : List (List (Itm V))) : Prop where
  two : ∀ r ∈ rules, 2 ≤ r.length
  one : rules.Pairwise (fun r s => IsDef env r → ¬ IsDef env s)
  deflt : ∀ ts, .val env.defTgt :: ts ∈ rules → DefOk env ts
  pattern : ∀ p ts, p :: ts ∈ rules → p ≠ .val env.defAct → p ≠ .val env.defTgt → PatOk env p
  target : ∀ p a ts, p :: a :: ts ∈ rules → p ≠ .val env.defAct → p ≠ .val env.defTgt → ∀ t ∈ ts, IsTarget env t

omit [DecidableEq V] in
theorem good_iff (env : Env V) (rules : List (List (Itm V))) : Good' env rules ↔ Good env rules := by
  constructor
  · intro h
    refine ⟨h.two, ?_, h.deflt, h.pattern, h.target⟩
    intro i j r s hij hi hj hd
    have := List.pairwise_iff_getElem.1 h.one i j (List.getElem?_eq_some_iff.1 hi).1 (List.getElem?_eq_some_iff.1 hj).1 hij
    rw [(List.getElem?_eq_some_iff.1 hi).2, (List.getElem?_eq_some_iff.1 hj).2] at this
    exact this hd
  · intro h
    refine ⟨h.two, ?_, h.deflt, h.pattern, h.target⟩
    rw [List.pairwise_iff_getElem]
    intro i j hi hj hij hd
    exact h.one i j _ _ hij (List.getElem?_eq_getElem hi) (List.getElem?_eq_getElem hj) hd

theorem gf_iff (env : Env V) (hne : env.defAct ≠ env.defTgt) : (rules : List (List (Itm V))) → (a t : Bool) →
    (GF env a t rules ↔ (a && t) = false ∧ ((a || t) = true → ∀ r ∈ rules, ¬ IsDef env r) ∧ Good' env rules)
  | [], a, t => by
    refine ⟨fun h => ⟨h, fun _ r hr => by simp at hr, ⟨by simp, .nil, by simp, by simp, by simp⟩⟩, fun h => h.1⟩
  | [] :: rs, a, t => by
    refine ⟨fun h => h.elim, fun h => ?_⟩
    have := h.2.2.two [] (by simp)
    simp at this
  | [x] :: rs, a, t => by
    refine ⟨fun h => h.elim, fun h => ?_⟩
    have := h.2.2.two [x] (by simp)
    simp at this
  | (p :: x :: ts) :: rs, a, t => by
    unfold GF
    by_cases h1 : isSym env.defAct p = true
    · rw [if_pos h1, gf_iff env hne rs]
      have hp := (isSym_iff _ _).1 h1
      subst hp
      have hd : IsDef env (.val env.defAct :: x :: ts) := Or.inl ⟨_, rfl⟩
      constructor
      · rintro ⟨ha, h2, h3, h4⟩
        subst ha
        simp only [Bool.true_and] at h2
        subst h2
        have h3 := h3 rfl
        refine ⟨rfl, by simp, ⟨?_, ?_, ?_, ?_, ?_⟩⟩
        · intro r hr
          rcases List.mem_cons.1 hr with rfl | hr
          · simp
          · exact h4.two r hr
        · exact .cons (fun r hr _ => h3 r hr) h4.one
        · intro ts' h
          rcases List.mem_cons.1 h with h | h
          · simp only [List.cons.injEq, Itm.val.injEq] at h
            exact absurd h.1.symm hne
          · exact h4.deflt ts' h
        · intro p' ts' h hp1 hp2
          rcases List.mem_cons.1 h with h | h
          · cases h; exact absurd rfl hp1
          · exact h4.pattern p' ts' h hp1 hp2
        · intro p' a' ts' h hp1 hp2
          rcases List.mem_cons.1 h with h | h
          · cases h; exact absurd rfl hp1
          · exact h4.target p' a' ts' h hp1 hp2
      · rintro ⟨h2, h3, h4⟩
        have hat : (a || t) = false := by
          cases hh : (a || t) with
          | false => rfl
          | true => exact absurd hd (h3 hh _ (by simp))
        simp only [Bool.or_eq_false_iff] at hat
        obtain ⟨rfl, rfl⟩ := hat
        refine ⟨rfl, rfl, fun _ r hr => (List.pairwise_cons.1 h4.one).1 r hr hd, ⟨?_, ?_, ?_, ?_, ?_⟩⟩
        · exact fun r hr => h4.two r (List.mem_cons_of_mem _ hr)
        · exact (List.pairwise_cons.1 h4.one).2
        · exact fun ts' h => h4.deflt ts' (List.mem_cons_of_mem _ h)
        · exact fun p' ts' h => h4.pattern p' ts' (List.mem_cons_of_mem _ h)
        · exact fun p' a' ts' h => h4.target p' a' ts' (List.mem_cons_of_mem _ h)
    · rw [if_neg h1]
      have hpa : p ≠ .val env.defAct := fun h => h1 ((isSym_iff _ _).2 h)
      by_cases h2 : isSym env.defTgt p = true
      · rw [if_pos h2, gf_iff env hne rs]
        have hp := (isSym_iff _ _).1 h2
        subst hp
        have hd : IsDef env (.val env.defTgt :: x :: ts) := Or.inr ⟨_, rfl⟩
        constructor
        · rintro ⟨ha, h2, h3, h4, h5⟩
          subst ha
          simp only [Bool.and_true] at h3
          subst h3
          have h4 := h4 rfl
          refine ⟨rfl, by simp, ⟨?_, ?_, ?_, ?_, ?_⟩⟩
          · intro r hr
            rcases List.mem_cons.1 hr with rfl | hr
            · simp
            · exact h5.two r hr
          · exact .cons (fun r hr _ => h4 r hr) h5.one
          · intro ts' h
            rcases List.mem_cons.1 h with h | h
            · cases h; exact h2
            · exact h5.deflt ts' h
          · intro p' ts' h hp1 hp2
            rcases List.mem_cons.1 h with h | h
            · cases h; exact absurd rfl hp2
            · exact h5.pattern p' ts' h hp1 hp2
          · intro p' a' ts' h hp1 hp2
            rcases List.mem_cons.1 h with h | h
            · cases h; exact absurd rfl hp2
            · exact h5.target p' a' ts' h hp1 hp2
        · rintro ⟨h3, h4, h5⟩
          have hat : (a || t) = false := by
            cases hh : (a || t) with
            | false => rfl
            | true => exact absurd hd (h4 hh _ (by simp))
          simp only [Bool.or_eq_false_iff] at hat
          obtain ⟨rfl, rfl⟩ := hat
          refine ⟨rfl, h5.deflt _ (by simp), rfl, fun _ r hr => (List.pairwise_cons.1 h5.one).1 r hr hd, ⟨?_, ?_, ?_, ?_, ?_⟩⟩
          · exact fun r hr => h5.two r (List.mem_cons_of_mem _ hr)
          · exact (List.pairwise_cons.1 h5.one).2
          · exact fun ts' h => h5.deflt ts' (List.mem_cons_of_mem _ h)
          · exact fun p' ts' h => h5.pattern p' ts' (List.mem_cons_of_mem _ h)
          · exact fun p' a' ts' h => h5.target p' a' ts' (List.mem_cons_of_mem _ h)
      · rw [if_neg h2, gf_iff env hne rs]
        have hpt : p ≠ .val env.defTgt := fun h => h2 ((isSym_iff _ _).2 h)
        have hd : ¬ IsDef env (p :: x :: ts) := by
          rintro (⟨_, h⟩ | ⟨_, h⟩)
          · cases h; exact hpa rfl
          · cases h; exact hpt rfl
        constructor
        · rintro ⟨hp, ht, h3, h4, h5⟩
          refine ⟨h3, ?_, ⟨?_, ?_, ?_, ?_, ?_⟩⟩
          · intro h r hr
            rcases List.mem_cons.1 hr with rfl | hr
            · exact hd
            · exact h4 h r hr
          · intro r hr
            rcases List.mem_cons.1 hr with rfl | hr
            · simp
            · exact h5.two r hr
          · exact .cons (fun r hr h => absurd h hd) h5.one
          · intro ts' h
            rcases List.mem_cons.1 h with h | h
            · cases h; exact absurd rfl hpt
            · exact h5.deflt ts' h
          · intro p' ts' h hp1 hp2
            rcases List.mem_cons.1 h with h | h
            · cases h; exact hp
            · exact h5.pattern p' ts' h hp1 hp2
          · intro p' a' ts' h hp1 hp2
            rcases List.mem_cons.1 h with h | h
            · cases h; exact ht
            · exact h5.target p' a' ts' h hp1 hp2
        · rintro ⟨h3, h4, h5⟩
          refine ⟨h5.pattern p (x :: ts) (by simp) hpa hpt, h5.target p x ts (by simp) hpa hpt, h3,
            fun h r hr => h4 h r (List.mem_cons_of_mem _ hr), ⟨?_, ?_, ?_, ?_, ?_⟩⟩
          · exact fun r hr => h5.two r (List.mem_cons_of_mem _ hr)
          · exact (List.pairwise_cons.1 h5.one).2
          · exact fun ts' h => h5.deflt ts' (List.mem_cons_of_mem _ h)
          · exact fun p' ts' h => h5.pattern p' ts' (List.mem_cons_of_mem _ h)
          · exact fun p' a' ts' h => h5.target p' a' ts' (List.mem_cons_of_mem _ h)

/-! ## Rules that are evaluated -/

/-- No error: every rule was checked without an error. -/
theorem run_rule (env : Env V) : (rules : List (List (Itm V))) → (n : Nat) → (st st' : St V) → run env n st rules = some st' →
    st'.errors = [] → ∀ p a ts, p :: a :: ts ∈ rules → p ≠ .val env.defAct → p ≠ .val env.defTgt →
    ∃ k, validateRule env k (a :: ts) = some []
  | [], _, _, _, _, _, p, a, ts, hm, _, _ => by simp at hm
  | r :: rs, n, st, st', h, he, p, a, ts, hm, hp1, hp2 => by
    unfold run at h
    cases hs : step env n st r with
    | none => rw [hs] at h; cases h
    | some st1 =>
      rw [hs] at h
      rcases List.mem_cons.1 hm with hm | hm
      · subst hm
        obtain ⟨es, he1⟩ := run_errors env rs (n + 1) st1 st' h
        rw [he] at he1
        have he1 : st1.errors = [] := (List.append_eq_nil_iff.1 he1.symm).1
        simp only [step, stepRule] at hs
        rw [if_neg (fun h => hp1 ((isSym_iff _ _).1 h)), if_neg (fun h => hp2 ((isSym_iff _ _).1 h))] at hs
        cases hv : validateRule env n (a :: ts) with
        | none => rw [hv] at hs; cases hs
        | some es' =>
          rw [hv] at hs
          simp only at hs
          refine ⟨n, ?_⟩
          rw [hv]
          split at hs
          · cases hs
            rw [(List.append_eq_nil_iff.1 he1).2]
          · cases hs
            rw [(List.append_eq_nil_iff.1 (List.append_eq_nil_iff.1 he1).2).2]
      · exact run_rule env rs (n + 1) st1 st' h he p a ts hm hp1 hp2

theorem validateRule_nil {env : Env V} {n : Nat} {rule : List (Itm V)} (h : validateRule env n rule = some []) :
    ∃ vs, variations env.py env.marks rule = some vs ∧
      ∀ w ∈ vs, ∀ t ∈ w.drop 1, t = .val env.marks.number ∨ IsTarget env t := by
  unfold validateRule at h
  cases hv : variations env.py env.marks rule with
  | none => rw [hv] at h; cases h
  | some vs =>
    rw [hv] at h
    refine ⟨vs, rfl, ?_⟩
    simp only [Option.map_some, Option.some.injEq, List.flatMap_eq_nil_iff, List.filterMap_eq_nil_iff] at h
    intro w hw t ht
    have := h w hw t ht
    rw [← isNumber_iff, ← isTarget_iff]
    cases h1 : env.isNumber t <;> cases h2 : env.isTarget t <;> simp_all

omit [DecidableEq V] in
/-- What is covered by a target is a target. -/
theorem covers_target {env : Env V} (hw : World env) {w o : Itm V} (h : Covers env.py env.marks w o) :
    (w = .val env.marks.number ∨ IsTarget env w) → o = .val env.marks.number ∨ IsTarget env o := by
  induction h with
  | same o => exact id
  | number o ho =>
    intro _
    right
    cases o with
    | val v => exact ⟨v, rfl, Or.inl ho⟩
    | _ => simp [Itm.int?] at ho
  | string v hv =>
    rintro (h | ⟨v', h, h2⟩)
    · simp only [Itm.val.injEq] at h
      exact absurd h hw.string.2.2
    · cases h
      rcases h2 with h2 | h2
      · rw [hw.string.1] at h2; simp at h2
      · rw [hw.string.2.1] at h2; cases h2
  | derived w o arg r _ ha ih =>
    intro h
    rcases ih h with rfl | ⟨v, rfl, hv | hv⟩
    · rw [hw.number] at ha; cases ha
    · rw [hw.num v _ hv] at ha; cases ha
    · obtain ⟨r', rfl, hr⟩ := hw.app v _ r hv ha
      exact Or.inr ⟨r', rfl, Or.inr hr⟩

omit [DecidableEq V] in
theorem expandL_vals (py : Py V) (ns : NS V) : (ts : List (Itm V)) → (∀ t ∈ ts, ∃ v, t = .val v) → ExpandL py ns ts ts
  | [], _ => .nil
  | t :: ts, h => by
    obtain ⟨v, rfl⟩ := h t (by simp)
    exact .cons (.val v) ts [.val v] ts (.val v) (expandL_vals py ns ts (fun t ht => h t (List.mem_cons_of_mem _ ht)))

omit [DecidableEq V] in
theorem forall2_drop {R : Itm V → Itm V → Prop} {ws os : List (Itm V)} (h : List.Forall₂ R ws os) (k : Nat) :
    ∀ o ∈ os.drop k, ∃ w ∈ ws.drop k, R w o := by
  induction h generalizing k with
  | nil => simp
  | cons h1 h2 ih =>
    cases k with
    | zero =>
      intro o ho
      rcases List.mem_cons.1 ho with rfl | ho
      · exact ⟨_, by simp, h1⟩
      · obtain ⟨w, hw, hr⟩ := ih 0 o (by simpa using ho)
        exact ⟨w, List.mem_cons_of_mem _ (by simpa using hw), hr⟩
    | succ k =>
      intro o ho
      exact ih k o ho

/-! ## The rules that are used -/

/-- The warning that the rule is not used. -/
def Skipped (n : Nat) (ws : List Warning) : Prop := .isNone n ∈ ws ∨ .repeated n ∈ ws

theorem step_warnings (env : Env V) (n : Nat) (st st' : St V) (r : List (Itm V)) (h : step env n st r = some st') :
    ∃ ws, st'.warnings = st.warnings ++ ws ∧ ∀ k, k ≠ n → ¬ Skipped k ws := by
  match r, h with
  | [], h => cases h; exact ⟨[], by simp, by simp [Skipped]⟩
  | [_], h => cases h; exact ⟨[], by simp, by simp [Skipped]⟩
  | p :: a :: ts, h =>
    simp only [step, stepRule] at h
    by_cases h1 : isSym env.defAct p = true
    · rw [if_pos h1] at h
      split at h
      · cases h; exact ⟨[], by simp, by simp [Skipped]⟩
      · cases h; exact ⟨[], by simp, by simp [Skipped]⟩
    rw [if_neg h1] at h
    by_cases h2 : isSym env.defTgt p = true
    · rw [if_pos h2] at h
      split at h
      · cases h; exact ⟨[], by simp, by simp [Skipped]⟩
      · cases h
        refine ⟨_, rfl, ?_⟩
        intro k _
        cases env.check (a :: ts) <;> simp [Skipped, defaultWarnings]
    rw [if_neg h2] at h
    cases hv : validateRule env n (a :: ts) with
    | none => rw [hv] at h; cases h
    | some es =>
      rw [hv] at h
      simp only at h
      have hvp : ∀ k, ¬ Skipped k (validatePattern env n p).2 := by
        intro k
        cases p with
        | val v =>
          cases hc : env.compile v with
          | none => simp [validatePattern, hc, Skipped]
          | some b => cases b <;> simp [validatePattern, hc, Skipped]
        | _ => simp [validatePattern, Skipped]
      split at h
      · cases h
        exact ⟨_, rfl, fun k hk => by simp [Skipped, hk]⟩
      · cases h
        refine ⟨_, rfl, fun k hk => ?_⟩
        have := hvp k
        simp only [Skipped, List.mem_append, not_or] at this ⊢
        refine ⟨⟨this.1, ?_⟩, ⟨this.2, ?_⟩⟩
        · split <;> simp
        · split <;> simp [hk]

theorem run_warnings (env : Env V) : (rules : List (List (Itm V))) → (n : Nat) → (st st' : St V) →
    run env n st rules = some st' → ∃ ws, st'.warnings = st.warnings ++ ws ∧ ∀ k, k < n → ¬ Skipped k ws
  | [], n, st, st', h => by cases h; exact ⟨[], by simp, by simp [Skipped]⟩
  | r :: rs, n, st, st', h => by
    unfold run at h
    cases hs : step env n st r with
    | none => rw [hs] at h; cases h
    | some st1 =>
      rw [hs] at h
      obtain ⟨w1, h1, h1'⟩ := step_warnings env n st st1 r hs
      obtain ⟨w2, h2, h2'⟩ := run_warnings env rs (n + 1) st1 st' h
      refine ⟨w1 ++ w2, by rw [h2, h1, List.append_assoc], ?_⟩
      intro k hk
      have a := h1' k (by omega)
      have b := h2' k (by omega)
      simp only [Skipped, List.mem_append, not_or] at a b ⊢
      exact ⟨⟨a.1, b.1⟩, ⟨a.2, b.2⟩⟩

theorem usedGo_ge (env : Env V) : (rules : List (List (Itm V))) → (n : Nat) → (ps : List V) → ∀ k ∈ usedGo env n ps rules, n ≤ k
  | [], _, _, k, h => by simp [usedGo] at h
  | [] :: rs, n, ps, k, h => by
    have := usedGo_ge env rs (n + 1) ps k h
    omega
  | (p :: rule) :: rs, n, ps, k, h => by
    unfold usedGo at h
    simp only at h
    split at h
    · have := usedGo_ge env rs (n + 1) ps k h; omega
    · split at h
      · have := usedGo_ge env rs (n + 1) ps k h; omega
      · split at h
        · rcases List.mem_cons.1 h with rfl | h
          · exact Nat.le_refl _
          · have := usedGo_ge env rs (n + 1) _ k h; omega
        · have := usedGo_ge env rs (n + 1) ps k h; omega

theorem seen_remember (ps : List V) (p q : Itm V) (h : seen ps p = true) : seen (remember ps p) q = seen ps q := by
  cases p with
  | val v =>
    cases q with
    | val u =>
      simp only [seen, decide_eq_true_eq] at h
      simp only [seen, remember, List.mem_cons]
      by_cases hu : u = v
      · subst hu; simp [h]
      · simp [hu]
    | _ => rfl
  | _ => cases h

theorem seen_congr {ps qs : List V} (h : ∀ q : Itm V, seen ps q = seen qs q) (p q : Itm V) :
    seen (remember ps p) q = seen (remember qs p) q := by
  cases p with
  | val v =>
    cases q with
    | val u =>
      have := h (.val u)
      simp only [seen] at this
      simp only [seen, remember, List.mem_cons]
      by_cases hu : u = v
      · simp [hu]
      · simpa [hu] using this
    | _ => rfl
  | _ => exact h q

theorem usedGo_congr (env : Env V) : (rules : List (List (Itm V))) → (n : Nat) → (ps qs : List V) →
    (∀ q : Itm V, seen ps q = seen qs q) → usedGo env n ps rules = usedGo env n qs rules
  | [], _, _, _, _ => rfl
  | [] :: rs, n, ps, qs, h => by
    unfold usedGo
    exact usedGo_congr env rs (n + 1) ps qs h
  | (p :: rule) :: rs, n, ps, qs, h => by
    unfold usedGo
    simp only [h p, usedGo_congr env rs (n + 1) ps qs h, usedGo_congr env rs (n + 1) _ _ (seen_congr h p)]

/-- The rules that are used have a pattern and something else, are not for a default, and there is no warning for them. -/
theorem used_run (env : Env V) : (rules : List (List (Itm V))) → (n : Nat) → (st st' : St V) → run env n st rules = some st' →
    (∀ k, n ≤ k → ¬ Skipped k st.warnings) → ∀ k, k ∈ usedGo env n st.patterns rules ↔
      n ≤ k ∧ (∃ p a ts, rules[k - n]? = some (p :: a :: ts) ∧ p ≠ .val env.defAct ∧ p ≠ .val env.defTgt) ∧
        ¬ Skipped k st'.warnings
  | [], n, st, st', _, _, k => by simp [usedGo]
  | r :: rs, n, st, st', h, hw, k => by
    unfold run at h
    cases hs : step env n st r with
    | none => rw [hs] at h; cases h
    | some st1 =>
      rw [hs] at h
      obtain ⟨w1, hw1, hw1'⟩ := step_warnings env n st st1 r hs
      obtain ⟨w2, hw2, hw2'⟩ := run_warnings env rs (n + 1) st1 st' h
      have hst1 : ∀ k, n + 1 ≤ k → ¬ Skipped k st1.warnings := by
        intro k hk
        have a := hw k (by omega)
        have b := hw1' k (by omega)
        rw [hw1]
        simp only [Skipped, List.mem_append, not_or] at a b ⊢
        exact ⟨⟨a.1, b.1⟩, ⟨a.2, b.2⟩⟩
      have hn' : Skipped n st'.warnings ↔ Skipped n st1.warnings := by
        rw [hw2]
        have b := hw2' n (by omega)
        simp only [Skipped, List.mem_append, not_or] at b ⊢
        simp [b.1, b.2]
      have ih := used_run env rs (n + 1) st1 st' h hst1 k
      -- the rules after this one
      have later : n + 1 ≤ k → ((n + 1 ≤ k ∧ (∃ p a ts, rs[k - (n + 1)]? = some (p :: a :: ts) ∧ p ≠ .val env.defAct ∧ p ≠ .val env.defTgt) ∧
          ¬ Skipped k st'.warnings) ↔
          (n ≤ k ∧ (∃ p a ts, (r :: rs)[k - n]? = some (p :: a :: ts) ∧ p ≠ .val env.defAct ∧ p ≠ .val env.defTgt) ∧
          ¬ Skipped k st'.warnings)) := by
        intro hk
        have e : (r :: rs)[k - n]? = rs[k - (n + 1)]? := by
          have : k - n = (k - (n + 1)) + 1 := by omega
          rw [this, List.getElem?_cons_succ]
        rw [e]
        constructor
        · rintro ⟨_, a, b⟩; exact ⟨by omega, a, b⟩
        · rintro ⟨_, a, b⟩; exact ⟨hk, a, b⟩
      -- a rule that is not used
      have skip : usedGo env n st.patterns (r :: rs) = usedGo env (n + 1) st1.patterns rs →
          ¬ ((∃ p a ts, r = p :: a :: ts ∧ p ≠ .val env.defAct ∧ p ≠ .val env.defTgt) ∧ ¬ Skipped n st1.warnings) →
          (k ∈ usedGo env n st.patterns (r :: rs) ↔ n ≤ k ∧ (∃ p a ts, (r :: rs)[k - n]? = some (p :: a :: ts) ∧
            p ≠ .val env.defAct ∧ p ≠ .val env.defTgt) ∧ ¬ Skipped k st'.warnings) := by
        intro h1 h2
        rw [h1]
        by_cases hk : n + 1 ≤ k
        · rw [ih, later hk]
        · constructor
          · intro hm; exact absurd (usedGo_ge env rs (n + 1) _ k hm) hk
          · rintro ⟨h3, ⟨p, a, ts, h4, h5⟩, h6⟩
            have : k = n := by omega
            subst this
            simp only [Nat.sub_self, List.getElem?_cons_zero, Option.some.injEq] at h4
            exact absurd ⟨⟨p, a, ts, h4, h5⟩, fun hh => h6 (hn'.2 hh)⟩ h2
      match r, hs, skip, later with
      | [], hs, skip, _ =>
        cases hs
        exact skip rfl (by rintro ⟨⟨p, a, ts, h, _⟩, _⟩; cases h)
      | [x], hs, skip, _ =>
        cases hs
        refine skip ?_ (by rintro ⟨⟨p, a, ts, h, _⟩, _⟩; cases h)
        conv => lhs; unfold usedGo
        simp
      | p :: a :: ts, hs, skip, later =>
        simp only [step, stepRule] at hs
        by_cases h1 : isSym env.defAct p = true
        · rw [if_pos h1] at hs
          have hp := (isSym_iff _ _).1 h1
          have hpat : st1.patterns = st.patterns := by
            split at hs <;> (cases hs; rfl)
          refine skip ?_ ?_
          · rw [hpat]; conv => lhs; unfold usedGo
            simp only [if_pos h1]
          · rintro ⟨⟨p', a', ts', h, h', _⟩, _⟩; cases h; exact h' hp
        rw [if_neg h1] at hs
        by_cases h2 : isSym env.defTgt p = true
        · rw [if_pos h2] at hs
          have hp := (isSym_iff _ _).1 h2
          have hpat : st1.patterns = st.patterns := by
            split at hs <;> (cases hs; rfl)
          refine skip ?_ ?_
          · rw [hpat]; conv => lhs; unfold usedGo
            simp only [if_neg h1, if_pos h2]
          · rintro ⟨⟨p', a', ts', h, _, h'⟩, _⟩; cases h; exact h' hp
        rw [if_neg h2] at hs
        cases hv : validateRule env n (a :: ts) with
        | none => rw [hv] at hs; cases hs
        | some es =>
          rw [hv] at hs
          simp only at hs
          by_cases hn : p.none? env.py = true
          · rw [if_pos hn] at hs
            cases hs
            refine skip ?_ ?_
            · conv => lhs; unfold usedGo
              simp [h1, h2, hn]
            · rintro ⟨_, h⟩; exact h (Or.inl (by simp))
          · rw [if_neg hn] at hs
            cases hs
            by_cases hse : seen st.patterns p = true
            · refine skip ?_ ?_
              · conv => lhs; unfold usedGo
                simp only [if_neg h1, if_neg h2, hse]
                simp only [Bool.not_true, Bool.and_false, Bool.false_eq_true, if_false]
                exact usedGo_congr env rs (n + 1) _ _ (fun q => (seen_remember _ p q hse).symm)
              · rintro ⟨_, h⟩; exact h (Or.inr (by simp [hse]))
            · have e : usedGo env n st.patterns ((p :: a :: ts) :: rs) = n :: usedGo env (n + 1) (remember st.patterns p) rs := by
                conv => lhs; unfold usedGo
                simp [h1, h2, hn, hse]
              rw [e, List.mem_cons]
              by_cases hk : n + 1 ≤ k
              · rw [← later hk, ← ih]
                constructor
                · rintro (rfl | h)
                  · omega
                  · exact h
                · exact Or.inr
              · constructor
                · rintro (rfl | h3)
                  · refine ⟨Nat.le_refl _, ⟨p, a, ts, by simp, fun h => h1 ((isSym_iff _ _).2 h), fun h => h2 ((isSym_iff _ _).2 h)⟩, ?_⟩
                    rw [hn']
                    have b := hw k (Nat.le_refl _)
                    have hvp : ¬ Skipped k (validatePattern env k p).2 := by
                      cases p with
                      | val v =>
                        cases hc : env.compile v with
                        | none => simp [validatePattern, hc, Skipped]
                        | some b => cases b <;> simp [validatePattern, hc, Skipped]
                      | _ => simp [validatePattern, Skipped]
                    simp only [Skipped, List.mem_append, not_or] at b hvp ⊢
                    simp [hse, b.1, b.2, hvp.1, hvp.2]
                  · exact absurd (usedGo_ge env rs (n + 1) _ k h3) hk
                · rintro ⟨h3, _⟩; exact Or.inl (by omega)

end Parce.VL

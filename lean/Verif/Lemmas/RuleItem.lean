import Verif.Spec.RuleItem
/-!
# Lemmas for rule items
-/
namespace Parce.RI
variable {V : Type}

mutual
theorem done_pre (py : Py V) (ns : NS V) : (o : Itm V) → o.Done → pre py ns o = some (o, true, true)
  | .val _, _ => rfl
  | .tup os, h => by simp only [pre, doneL_pre py ns os h]
  | .var _, h => h.elim
  | .call _ _, h => h.elim
  | .select _ _, h => h.elim
  | .target _ _, h => h.elim
  | .pattern v, h => by simp only [pre, done_pre py ns v h, if_true]
  | .subgroup as, h => by simp only [pre, doneL_pre py ns as h, if_true]
  | .delegate l, h => by simp only [pre, done_pre py ns l h, if_true]
  | .skip, _ => rfl
theorem doneL_pre (py : Py V) (ns : NS V) : (os : List (Itm V)) → DoneL os → preL py ns os = some (os, true, true)
  | [], _ => rfl
  | o :: os, h => by simp only [preL, done_pre py ns o h.1, doneL_pre py ns os h.2, Bool.and_self]
end

mutual
theorem done_eval (py : Py V) (ns : NS V) : (o : Itm V) → o.Done → evaluate py ns o = .ok o
  | .val _, _ => rfl
  | .tup os, h => by simp only [evaluate, doneL_eval py ns os h, Res.bind]
  | .var _, h => h.elim
  | .call _ _, h => h.elim
  | .select _ _, h => h.elim
  | .target _ _, h => h.elim
  | .pattern v, h => by simp only [evaluate, done_pre py ns v h, if_true]
  | .subgroup as, _ => rfl
  | .delegate l, h => by simp only [evaluate, done_pre py ns l h, if_true]
  | .skip, _ => rfl
theorem doneL_eval (py : Py V) (ns : NS V) : (os : List (Itm V)) → DoneL os → evaluateL py ns os = .ok os
  | [], _ => rfl
  | o :: os, h => by simp only [evaluateL, done_eval py ns o h.1, doneL_eval py ns os h.2, Res.bind]
end

mutual
theorem done_subOk : (o : Itm V) → o.Done → o.SubOk
  | .val _, _ => trivial
  | .tup os, h => doneL_subOk os h
  | .var _, h => h.elim
  | .call _ _, h => h.elim
  | .select _ _, h => h.elim
  | .target _ _, h => h.elim
  | .pattern v, h => done_subOk v h
  | .subgroup _, h => h
  | .delegate l, h => done_subOk l h
  | .skip, _ => trivial
theorem doneL_subOk : (os : List (Itm V)) → DoneL os → SubOkL os
  | [], _ => trivial
  | o :: os, h => ⟨done_subOk o h.1, doneL_subOk os h.2⟩
end

mutual
theorem done_bound (ns : NS V) : (o : Itm V) → o.Done → o.Bound ns
  | .val _, _ => trivial
  | .tup os, h => doneL_bound ns os h
  | .var _, h => h.elim
  | .call _ _, h => h.elim
  | .select _ _, h => h.elim
  | .target _ _, h => h.elim
  | .pattern v, h => done_bound ns v h
  | .subgroup as, h => doneL_bound ns as h
  | .delegate l, h => done_bound ns l h
  | .skip, _ => trivial
theorem doneL_bound (ns : NS V) : (os : List (Itm V)) → DoneL os → BoundL ns os
  | [], _ => trivial
  | o :: os, h => ⟨done_bound ns o h.1, doneL_bound ns os h.2⟩
end

mutual
theorem done_ruleOk : (o : Itm V) → o.Done → o.RuleOk
  | .val _, _ => trivial
  | .tup os, h => doneL_ruleOk os h
  | .var _, h => h.elim
  | .call _ _, h => h.elim
  | .select _ _, h => h.elim
  | .target _ _, h => h.elim
  | .pattern _, _ => trivial
  | .subgroup _, _ => trivial
  | .delegate _, _ => trivial
  | .skip, _ => trivial
theorem doneL_ruleOk : (os : List (Itm V)) → DoneL os → RuleOkL os
  | [], _ => trivial
  | o :: os, h => ⟨done_ruleOk o h.1, doneL_ruleOk os h.2⟩
end

mutual
theorem bound_total {ns : NS V} (h : ∀ n, ns n ≠ none) : (o : Itm V) → o.Bound ns
  | .val _ => trivial
  | .tup os => boundL_total h os
  | .var n => h n
  | .call p as => ⟨bound_total h p, boundL_total h as⟩
  | .select p as => ⟨bound_total h p, boundL_total h as⟩
  | .target p as => ⟨bound_total h p, boundL_total h as⟩
  | .pattern v => bound_total h v
  | .subgroup as => boundL_total h as
  | .delegate l => bound_total h l
  | .skip => trivial
theorem boundL_total {ns : NS V} (h : ∀ n, ns n ≠ none) : (os : List (Itm V)) → BoundL ns os
  | [] => trivial
  | o :: os => ⟨bound_total h o, boundL_total h os⟩
end

/-- Pre-evaluation is complete and gives the same as evaluation. -/
def Agree {β : Type} (p : Option (β × Bool × Bool)) (e : Res β) : Prop :=
  (∃ r u, p = some (r, true, u) ∧ e = .ok r) ∨ (p = none ∧ e = .err .error)

mutual
theorem pre_bound (py : Py V) (ns : NS V) : (o : Itm V) → o.SubOk → o.Bound ns → Agree (pre py ns o) (evaluate py ns o)
  | .val v, _, _ => Or.inl ⟨.val v, true, rfl, rfl⟩
  | .tup os, hs, hb => by
    rcases preL_bound py ns os hs hb with ⟨r, u, h1, h2⟩ | ⟨h1, h2⟩
    · exact Or.inl ⟨.tup r, u, by simp only [pre, h1], by simp only [evaluate, h2, Res.bind]⟩
    · exact Or.inr ⟨by simp only [pre, h1], by simp only [evaluate, h2, Res.bind]⟩
  | .var n, _, hb => by
    obtain ⟨v, hv⟩ := Option.ne_none_iff_exists'.1 hb
    exact Or.inl ⟨v, false, by simp only [pre, hv], by simp only [evaluate, hv]⟩
  | .call p args, hs, hb => by
    rcases pre_bound py ns p hs.1 hb.1 with ⟨r, u, h1, h2⟩ | ⟨h1, h2⟩
    · rcases preL_bound py ns args hs.2 hb.2 with ⟨r', u', h1', h2'⟩ | ⟨h1', h2'⟩
      · cases ha : py.app r r' with
        | none => exact Or.inr ⟨by simp [pre, h1, h1', ha], by simp [evaluate, h2, h2', Res.bind, ha, Res.ofOption]⟩
        | some x => exact Or.inl ⟨x, false, by simp [pre, h1, h1', ha], by simp [evaluate, h2, h2', Res.bind, ha, Res.ofOption]⟩
      · exact Or.inr ⟨by simp [pre, h1, h1'], by simp [evaluate, h2, h2', Res.bind]⟩
    · exact Or.inr ⟨by simp [pre, h1], by simp [evaluate, h2, Res.bind]⟩
  | .select i items, hs, hb => by
    rcases pre_bound py ns i hs.1 hb.1 with ⟨r, u, h1, h2⟩ | ⟨h1, h2⟩
    · cases hk : pyIndex py items.length r with
      | none => exact Or.inr ⟨by simp [pre, h1, hk], by simp [evaluate, h2, Res.bind, hk]⟩
      | some k =>
        rcases preAt_bound py ns items hs.2 hb.2 k with ⟨r', u', h1', h2'⟩ | ⟨h1', h2'⟩
        · exact Or.inl ⟨r', false, by simp [pre, h1, hk, h1'], by simp [evaluate, h2, Res.bind, hk, h2']⟩
        · exact Or.inr ⟨by simp [pre, h1, hk, h1'], by simp [evaluate, h2, Res.bind, hk, h2']⟩
    · exact Or.inr ⟨by simp [pre, h1], by simp [evaluate, h2, Res.bind]⟩
  | .target v lexs, hs, hb => by
    rcases pre_bound py ns v hs.1 hb.1 with ⟨r, u, h1, h2⟩ | ⟨h1, h2⟩
    · simp only [pre, h1, evaluate, h2, Res.bind, targetRes, if_true]
      split
      · exact Or.inl ⟨_, false, rfl, rfl⟩
      · split
        · exact Or.inr ⟨rfl, rfl⟩
        · next k hk =>
          rcases preAt_bound py ns lexs hs.2 hb.2 k with ⟨r', u', h1', h2'⟩ | ⟨h1', h2'⟩
          · simp only [h1', h2', if_true, Res.bind]
            split
            · next x hx => exact Or.inl ⟨x, false, rfl, by rw [hx]; rfl⟩
            · next hx => exact Or.inr ⟨rfl, by rw [hx]; rfl⟩
          · exact Or.inr ⟨by simp [h1'], by simp [h2', Res.bind]⟩
      · exact Or.inr ⟨rfl, rfl⟩
    · exact Or.inr ⟨by simp [pre, h1], by simp [evaluate, h2, Res.bind]⟩
  | .pattern v, hs, hb => by
    rcases pre_bound py ns v hs hb with ⟨r, u, h1, h2⟩ | ⟨h1, h2⟩
    · exact Or.inl ⟨if u then .pattern v else .pattern r, u, by simp only [pre, h1], by simp only [evaluate, h1]⟩
    · exact Or.inr ⟨by simp only [pre, h1], by simp only [evaluate, h1]⟩
  | .subgroup as, hs, _ => Or.inl ⟨.subgroup as, true, by simp only [pre, doneL_pre py ns as hs, if_true], rfl⟩
  | .delegate l, hs, hb => by
    rcases pre_bound py ns l hs hb with ⟨r, u, h1, h2⟩ | ⟨h1, h2⟩
    · exact Or.inl ⟨if u then .delegate l else .delegate r, u, by simp only [pre, h1], by simp only [evaluate, h1]⟩
    · exact Or.inr ⟨by simp only [pre, h1], by simp only [evaluate, h1]⟩
  | .skip, _, _ => Or.inl ⟨.skip, true, rfl, rfl⟩
theorem preL_bound (py : Py V) (ns : NS V) : (os : List (Itm V)) → SubOkL os → BoundL ns os →
    Agree (preL py ns os) (evaluateL py ns os)
  | [], _, _ => Or.inl ⟨[], true, rfl, rfl⟩
  | o :: os, hs, hb => by
    rcases pre_bound py ns o hs.1 hb.1 with ⟨r, u, h1, h2⟩ | ⟨h1, h2⟩
    · rcases preL_bound py ns os hs.2 hb.2 with ⟨r', u', h1', h2'⟩ | ⟨h1', h2'⟩
      · exact Or.inl ⟨r :: r', u && u', by simp [preL, h1, h1'], by simp [evaluateL, h2, h2', Res.bind]⟩
      · exact Or.inr ⟨by simp [preL, h1, h1'], by simp [evaluateL, h2, h2', Res.bind]⟩
    · exact Or.inr ⟨by simp [preL, h1], by simp [evaluateL, h2, Res.bind]⟩
theorem preAt_bound (py : Py V) (ns : NS V) : (os : List (Itm V)) → SubOkL os → BoundL ns os → (k : Nat) →
    Agree (preAt py ns os k) (evaluateAt py ns os k)
  | [], _, _, _ => Or.inr ⟨rfl, rfl⟩
  | o :: _, hs, hb, 0 => pre_bound py ns o hs.1 hb.1
  | _ :: os, hs, hb, k + 1 => preAt_bound py ns os hs.2 hb.2 k
end

/-- What is known of a pre-evaluated object. -/
structure PreOk (py : Py V) (ns1 ns2 : NS V) (o o' : Itm V) (c u : Bool) : Prop where
  done : c = true → o'.Done
  same : u = true → o' = o
  sub : o'.SubOk
  bound : o'.Bound ns2
  eval : evaluate py ns2 o' = evaluate py (ns1.union ns2) o
  rule : o.RuleOk → o'.RuleOk

structure PreOkL (py : Py V) (ns1 ns2 : NS V) (o o' : List (Itm V)) (c u : Bool) : Prop where
  done : c = true → DoneL o'
  same : u = true → o' = o
  sub : SubOkL o'
  bound : BoundL ns2 o'
  eval : evaluateL py ns2 o' = evaluateL py (ns1.union ns2) o
  evalAt : ∀ k, evaluateAt py ns2 o' k = evaluateAt py (ns1.union ns2) o k
  rule : RuleOkL o → RuleOkL o'
  len : o'.length = o.length

structure PreOkAt (py : Py V) (ns1 ns2 : NS V) (os : List (Itm V)) (k : Nat) (o' : Itm V) (c : Bool) : Prop where
  done : c = true → o'.Done
  sub : o'.SubOk
  bound : o'.Bound ns2
  eval : evaluate py ns2 o' = evaluateAt py (ns1.union ns2) os k
  rule : RuleOkL os → o'.RuleOk

mutual
theorem preSame (py : Py V) (ns : NS V) : (o : Itm V) → {o' : Itm V} → {c u : Bool} → pre py ns o = some (o', c, u) →
    u = true → o' = o
  | .val v, o', c, u, h, hu => by simp [pre] at h; exact h.1.symm
  | .tup os, o', c, u, h, hu => by
    simp only [pre] at h
    split at h
    · next os' c' u' hp =>
      simp only [Option.some.injEq, Prod.mk.injEq] at h
      obtain ⟨rfl, rfl, rfl⟩ := h
      rw [preLSame py ns os hp hu]
    · simp at h
  | .var n, o', c, u, h, hu => by
    simp only [pre] at h
    split at h <;> simp_all
  | .call p args, o', c, u, h, hu => by
    simp only [pre] at h
    repeat' split at h
    all_goals simp_all
  | .select i items, o', c, u, h, hu => by
    simp only [pre] at h
    repeat' split at h
    all_goals simp_all
  | .target i items, o', c, u, h, hu => by
    simp only [pre] at h
    repeat' split at h
    all_goals simp_all
  | .pattern v, o', c, u, h, hu => by
    simp only [pre] at h
    split at h
    · simp only [Option.some.injEq, Prod.mk.injEq] at h
      obtain ⟨h, _, rfl⟩ := h
      rw [if_pos hu] at h
      exact h.symm
    · simp at h
  | .subgroup v, o', c, u, h, hu => by
    simp only [pre] at h
    split at h
    · simp only [Option.some.injEq, Prod.mk.injEq] at h
      obtain ⟨h, _, rfl⟩ := h
      rw [if_pos hu] at h
      exact h.symm
    · simp at h
  | .delegate v, o', c, u, h, hu => by
    simp only [pre] at h
    split at h
    · simp only [Option.some.injEq, Prod.mk.injEq] at h
      obtain ⟨h, _, rfl⟩ := h
      rw [if_pos hu] at h
      exact h.symm
    · simp at h
  | .skip, o', c, u, h, hu => by simp [pre] at h; exact h.1.symm
theorem preLSame (py : Py V) (ns : NS V) : (o : List (Itm V)) → {o' : List (Itm V)} → {c u : Bool} →
    preL py ns o = some (o', c, u) → u = true → o' = o
  | [], o', c, u, h, hu => by simp [preL] at h; exact h.1
  | o :: os, o', c, u, h, hu => by
    simp only [preL] at h
    split at h
    · next o1 c1 u1 os1 c2 u2 ho hos =>
      simp only [Option.some.injEq, Prod.mk.injEq] at h
      obtain ⟨rfl, rfl, rfl⟩ := h
      simp only [Bool.and_eq_true] at hu
      rw [preSame py ns o ho hu.1, preLSame py ns os hos hu.2]
    · simp at h
end

theorem PreOk.ofDone {py : Py V} {ns1 ns2 : NS V} {o o' : Itm V} {c : Bool} (hd : o'.Done)
    (he : evaluate py (ns1.union ns2) o = .ok o') : PreOk py ns1 ns2 o o' c false where
  done := fun _ => hd
  same := fun h => by simp at h
  sub := done_subOk o' hd
  bound := done_bound ns2 o' hd
  eval := by rw [done_eval py ns2 o' hd, he]
  rule := fun _ => done_ruleOk o' hd

theorem preAt_len {py : Py V} {ns : NS V} : {os : List (Itm V)} → {k : Nat} → {r : Itm V × Bool × Bool} →
    preAt py ns os k = some r → k < os.length
  | [], _, _, h => by simp [preAt] at h
  | _ :: _, 0, _, _ => by simp
  | _ :: os, k + 1, _, h => by
    have := preAt_len (os := os) (k := k) (by simpa [preAt] using h)
    simp; omega

mutual
theorem pre_ok (py : Py V) (hpy : py.Ok) (ns1 ns2 : NS V) (h1 : ns1.Ok) (htot : ∀ n, ns1.union ns2 n ≠ none) :
    (o : Itm V) → o.SubOk → {o' : Itm V} → {c u : Bool} → pre py ns1 o = some (o', c, u) → PreOk py ns1 ns2 o o' c u
  | .val v, _, o', c, u, h => by
    simp only [pre, Option.some.injEq, Prod.mk.injEq] at h
    obtain ⟨rfl, rfl, rfl⟩ := h
    exact ⟨fun _ => trivial, fun _ => rfl, trivial, trivial, rfl, id⟩
  | .tup os, hs, o', c, u, h => by
    simp only [pre] at h
    split at h
    · next os' c' u' hp =>
      simp only [Option.some.injEq, Prod.mk.injEq] at h
      obtain ⟨rfl, rfl, rfl⟩ := h
      have ih := preL_ok py hpy ns1 ns2 h1 htot os hs hp
      exact ⟨ih.done, fun hu => by rw [ih.same hu], ih.sub, ih.bound, by simp only [evaluate, ih.eval], ih.rule⟩
    · simp at h
  | .var n, _, o', c, u, h => by
    simp only [pre] at h
    split at h
    · next v hv =>
      simp only [Option.some.injEq, Prod.mk.injEq] at h
      obtain ⟨rfl, rfl, rfl⟩ := h
      exact PreOk.ofDone (h1 n v hv) (by simp [evaluate, NS.union, hv])
    · next hv =>
      simp only [Option.some.injEq, Prod.mk.injEq] at h
      obtain ⟨rfl, rfl, rfl⟩ := h
      have hn := htot n
      simp only [NS.union, hv, Option.none_or] at hn
      exact ⟨fun h => by simp at h, fun _ => rfl, trivial, hn, by simp [evaluate, NS.union, hv], id⟩
  | .call p args, hs, o', c, u, h => by
    simp only [pre] at h
    split at h
    · next p' c1 u1 args' c2 u2 hp ha =>
      have ihp := pre_ok py hpy ns1 ns2 h1 htot p hs.1 hp
      have iha := preL_ok py hpy ns1 ns2 h1 htot args hs.2 ha
      have he : evaluate py ns2 (.call p' args') = evaluate py (ns1.union ns2) (.call p args) := by
        simp only [evaluate, ihp.eval, iha.eval]
      split at h
      · next hc =>
        simp only [Bool.and_eq_true] at hc
        split at h
        · next r hr =>
          simp only [Option.some.injEq, Prod.mk.injEq] at h
          obtain ⟨rfl, rfl, rfl⟩ := h
          refine PreOk.ofDone (hpy.app _ _ _ hr) ?_
          rw [← he]
          simp only [evaluate, done_eval py ns2 p' (ihp.done hc.1), doneL_eval py ns2 args' (iha.done hc.2), Res.bind, hr,
            Res.ofOption]
        · simp at h
      · split at h
        · next hu =>
          simp only [Bool.and_eq_true] at hu
          simp only [Option.some.injEq, Prod.mk.injEq] at h
          obtain ⟨rfl, rfl, rfl⟩ := h
          rw [ihp.same hu.1, iha.same hu.2] at he
          have hb1 := ihp.bound
          have hb2 := iha.bound
          rw [ihp.same hu.1] at hb1
          rw [iha.same hu.2] at hb2
          exact ⟨fun h => by simp at h, fun _ => rfl, hs, ⟨hb1, hb2⟩, he, id⟩
        · simp only [Option.some.injEq, Prod.mk.injEq] at h
          obtain ⟨rfl, rfl, rfl⟩ := h
          exact ⟨fun h => by simp at h, fun h => by simp at h, ⟨ihp.sub, iha.sub⟩, ⟨ihp.bound, iha.bound⟩, he, id⟩
    · simp at h
  | .select i items, hs, o', c, u, h => by
    simp only [pre] at h
    split at h
    · simp at h
    · next i' ci ui hi =>
      have ihi := pre_ok py hpy ns1 ns2 h1 htot i hs.1 hi
      split at h
      · next hc =>
        have hd := ihi.done hc
        have hfull : evaluate py (ns1.union ns2) i = .ok i' := by
          rw [← ihi.eval, done_eval py ns2 i' hd]
        split at h
        · simp at h
        · next k hk =>
          split at h
          · next r c2 u2 hr =>
            simp only [Option.some.injEq, Prod.mk.injEq] at h
            obtain ⟨rfl, rfl, rfl⟩ := h
            have ih := preAt_ok py hpy ns1 ns2 h1 htot items hs.2 k hr
            refine ⟨ih.done, fun h => by simp at h, ih.sub, ih.bound, ?_, ih.rule⟩
            rw [ih.eval]
            simp only [evaluate, hfull, Res.bind, hk]
          · simp at h
      · split at h
        · simp at h
        · next items' c2 u2 hp =>
          have ih := preL_ok py hpy ns1 ns2 h1 htot items hs.2 hp
          have he : evaluate py ns2 (.select i' items') = evaluate py (ns1.union ns2) (.select i items) := by
            simp only [evaluate, ihi.eval, ih.len, ih.evalAt]
          split at h
          · next hu =>
            simp only [Bool.and_eq_true] at hu
            simp only [Option.some.injEq, Prod.mk.injEq] at h
            obtain ⟨rfl, rfl, rfl⟩ := h
            rw [ihi.same hu.1, ih.same hu.2] at he
            have hb1 := ihi.bound
            have hb2 := ih.bound
            rw [ihi.same hu.1] at hb1
            rw [ih.same hu.2] at hb2
            exact ⟨fun h => by simp at h, fun _ => rfl, hs, ⟨hb1, hb2⟩, he, id⟩
          · simp only [Option.some.injEq, Prod.mk.injEq] at h
            obtain ⟨rfl, rfl, rfl⟩ := h
            exact ⟨fun h => by simp at h, fun h => by simp at h, ⟨ihi.sub, ih.sub⟩, ⟨ihi.bound, ih.bound⟩, he, ih.rule⟩
  | .target v lexs, hs, o', c, u, h => by
    simp only [pre] at h
    split at h
    · simp at h
    · next v' cv uv hv =>
      have ihv := pre_ok py hpy ns1 ns2 h1 htot v hs.1 hv
      split at h
      · next hc =>
        have hd := ihv.done hc
        have hfull : evaluate py (ns1.union ns2) v = .ok v' := by
          rw [← ihv.eval, done_eval py ns2 v' hd]
        split at h
        · next z hz =>
          simp only [Option.some.injEq, Prod.mk.injEq] at h
          obtain ⟨rfl, rfl, rfl⟩ := h
          exact PreOk.ofDone hd (by simp only [evaluate, hfull, Res.bind, targetRes, hz])
        · next index arg hz =>
          split at h
          · simp at h
          · next k hk =>
            split at h
            · simp at h
            · next l c2 u2 hl =>
              have ih := preAt_ok py hpy ns1 ns2 h1 htot lexs hs.2 k hl
              have hfin : evaluate py (ns1.union ns2) (.target v lexs) =
                  (evaluate py ns2 l).bind (fun l => .ofOption (derive py l arg)) := by
                simp only [evaluate, hfull, Res.bind, targetRes, hz, hk, ih.eval]
              split at h
              · next hc2 =>
                have hdl := ih.done hc2
                rw [done_eval py ns2 l hdl] at hfin
                split at h
                · next r hr =>
                  simp only [Option.some.injEq, Prod.mk.injEq] at h
                  obtain ⟨rfl, rfl, rfl⟩ := h
                  refine PreOk.ofDone ?_ (by rw [hfin]; simp [Res.bind, hr, Res.ofOption])
                  unfold derive at hr
                  split at hr
                  · cases hr; exact hdl
                  · exact hpy.app _ _ _ hr
                · simp at h
              · simp only [Option.some.injEq, Prod.mk.injEq] at h
                obtain ⟨rfl, rfl, rfl⟩ := h
                have hda : arg.Done := hd.2.1
                refine ⟨fun h => by simp at h, fun h => by simp at h, ⟨⟨trivial, done_subOk arg hda, trivial⟩, ih.sub, trivial⟩,
                  ⟨⟨trivial, done_bound ns2 arg hda, trivial⟩, ih.bound, trivial⟩, ?_, fun _ => trivial⟩
                rw [hfin]
                have hv2 : evaluate py ns2 (.tup [.val py.zero, arg]) = .ok (.tup [.val py.zero, arg]) :=
                  done_eval py ns2 _ ⟨trivial, hda, trivial⟩
                simp only [evaluate] at hv2 ⊢
                rw [hv2]
                simp [Res.bind, targetRes, Itm.int?, pyIndex, hpy.zero, evaluateAt]
        · simp at h
      · split at h
        · simp at h
        · next lexs' c2 u2 hp =>
          have ih := preL_ok py hpy ns1 ns2 h1 htot lexs hs.2 hp
          have he : evaluate py ns2 (.target v' lexs') = evaluate py (ns1.union ns2) (.target v lexs) := by
            have hat : evaluateAt py ns2 lexs' = evaluateAt py (ns1.union ns2) lexs := funext ih.evalAt
            simp only [evaluate, ihv.eval, ih.len, hat]
          split at h
          · next hu =>
            simp only [Bool.and_eq_true] at hu
            simp only [Option.some.injEq, Prod.mk.injEq] at h
            obtain ⟨rfl, rfl, rfl⟩ := h
            rw [ihv.same hu.1, ih.same hu.2] at he
            have hb1 := ihv.bound
            have hb2 := ih.bound
            rw [ihv.same hu.1] at hb1
            rw [ih.same hu.2] at hb2
            exact ⟨fun h => by simp at h, fun _ => rfl, hs, ⟨hb1, hb2⟩, he, id⟩
          · simp only [Option.some.injEq, Prod.mk.injEq] at h
            obtain ⟨rfl, rfl, rfl⟩ := h
            exact ⟨fun h => by simp at h, fun h => by simp at h, ⟨ihv.sub, ih.sub⟩, ⟨ihv.bound, ih.bound⟩, he, fun _ => trivial⟩
  | .pattern v, hs, o', c, u, h => by
    simp only [pre] at h
    split at h
    · next v' cv uv hv =>
      have ih := pre_ok py hpy ns1 ns2 h1 htot v hs hv
      simp only [Option.some.injEq, Prod.mk.injEq] at h
      obtain ⟨rfl, rfl, rfl⟩ := h
      have ho : (if uv = true then Itm.pattern v else Itm.pattern v') = .pattern v' := by
        split
        · next hu => rw [ih.same hu]
        · rfl
      rw [ho]
      refine ⟨ih.done, fun hu => by rw [ih.same hu], ih.sub, ih.bound, ?_, fun _ => trivial⟩
      have a1 := pre_bound py ns2 v' ih.sub ih.bound
      have a2 := pre_bound py (ns1.union ns2) v hs (bound_total htot v)
      rw [ih.eval] at a1
      simp only [evaluate]
      rcases a1 with ⟨r1, w1, b1, b2⟩ | ⟨b1, b2⟩
      · rcases a2 with ⟨r2, w2, b3, b4⟩ | ⟨b3, b4⟩
        · rw [b2] at b4
          cases b4
          rw [b1, b3]
          simp only
          have e1 := preSame py ns2 v' b1
          have e2 := preSame py (ns1.union ns2) v b3
          cases w1 <;> cases w2 <;> simp_all
        · rw [b2] at b4; cases b4
      · rcases a2 with ⟨r2, w2, b3, b4⟩ | ⟨b3, b4⟩
        · rw [b2] at b4; cases b4
        · rw [b1, b3]
    · simp at h
  | .subgroup as, hs, o', c, u, h => by
    simp only [pre, doneL_pre py ns1 as hs, if_true, Option.some.injEq, Prod.mk.injEq] at h
    obtain ⟨rfl, rfl, rfl⟩ := h
    exact ⟨fun _ => hs, fun _ => rfl, hs, doneL_bound ns2 as hs, rfl, id⟩
  | .delegate v, hs, o', c, u, h => by
    simp only [pre] at h
    split at h
    · next v' cv uv hv =>
      have ih := pre_ok py hpy ns1 ns2 h1 htot v hs hv
      simp only [Option.some.injEq, Prod.mk.injEq] at h
      obtain ⟨rfl, rfl, rfl⟩ := h
      have ho : (if uv = true then Itm.delegate v else Itm.delegate v') = .delegate v' := by
        split
        · next hu => rw [ih.same hu]
        · rfl
      rw [ho]
      refine ⟨ih.done, fun hu => by rw [ih.same hu], ih.sub, ih.bound, ?_, fun _ => trivial⟩
      have a1 := pre_bound py ns2 v' ih.sub ih.bound
      have a2 := pre_bound py (ns1.union ns2) v hs (bound_total htot v)
      rw [ih.eval] at a1
      simp only [evaluate]
      rcases a1 with ⟨r1, w1, b1, b2⟩ | ⟨b1, b2⟩
      · rcases a2 with ⟨r2, w2, b3, b4⟩ | ⟨b3, b4⟩
        · rw [b2] at b4
          cases b4
          rw [b1, b3]
          simp only
          have e1 := preSame py ns2 v' b1
          have e2 := preSame py (ns1.union ns2) v b3
          cases w1 <;> cases w2 <;> simp_all
        · rw [b2] at b4; cases b4
      · rcases a2 with ⟨r2, w2, b3, b4⟩ | ⟨b3, b4⟩
        · rw [b2] at b4; cases b4
        · rw [b1, b3]
    · simp at h
  | .skip, _, o', c, u, h => by
    simp only [pre, Option.some.injEq, Prod.mk.injEq] at h
    obtain ⟨rfl, rfl, rfl⟩ := h
    exact ⟨fun _ => trivial, fun _ => rfl, trivial, trivial, rfl, id⟩
theorem preL_ok (py : Py V) (hpy : py.Ok) (ns1 ns2 : NS V) (h1 : ns1.Ok) (htot : ∀ n, ns1.union ns2 n ≠ none) :
    (os : List (Itm V)) → SubOkL os → {os' : List (Itm V)} → {c u : Bool} → preL py ns1 os = some (os', c, u) →
    PreOkL py ns1 ns2 os os' c u
  | [], _, os', c, u, h => by
    simp only [preL, Option.some.injEq, Prod.mk.injEq] at h
    obtain ⟨rfl, rfl, rfl⟩ := h
    exact ⟨fun _ => trivial, fun _ => rfl, trivial, trivial, rfl, fun _ => rfl, id, rfl⟩
  | o :: os, hs, os', c, u, h => by
    simp only [preL] at h
    split at h
    · next o1 c1 u1 os1 c2 u2 ho hos =>
      have i1 := pre_ok py hpy ns1 ns2 h1 htot o hs.1 ho
      have i2 := preL_ok py hpy ns1 ns2 h1 htot os hs.2 hos
      simp only [Option.some.injEq, Prod.mk.injEq] at h
      obtain ⟨rfl, rfl, rfl⟩ := h
      refine ⟨?_, ?_, ⟨i1.sub, i2.sub⟩, ⟨i1.bound, i2.bound⟩, ?_, ?_, fun hr => ⟨i1.rule hr.1, i2.rule hr.2⟩, ?_⟩
      · intro hc
        simp only [Bool.and_eq_true] at hc
        exact ⟨i1.done hc.1, i2.done hc.2⟩
      · intro hu
        simp only [Bool.and_eq_true] at hu
        rw [i1.same hu.1, i2.same hu.2]
      · simp only [evaluateL, i1.eval, i2.eval]
      · intro k
        cases k with
        | zero => exact i1.eval
        | succ k => exact i2.evalAt k
      · simp [i2.len]
    · simp at h
theorem preAt_ok (py : Py V) (hpy : py.Ok) (ns1 ns2 : NS V) (h1 : ns1.Ok) (htot : ∀ n, ns1.union ns2 n ≠ none) :
    (os : List (Itm V)) → SubOkL os → (k : Nat) → {o' : Itm V} → {c u : Bool} → preAt py ns1 os k = some (o', c, u) →
    PreOkAt py ns1 ns2 os k o' c
  | [], _, _, _, _, _, h => by simp [preAt] at h
  | o :: os, hs, 0, o', c, u, h => by
    have i := pre_ok py hpy ns1 ns2 h1 htot o hs.1 (by simpa only [preAt] using h)
    exact ⟨i.done, i.sub, i.bound, i.eval, fun hr => i.rule hr.1⟩
  | o :: os, hs, k + 1, o', c, u, h => by
    have i := preAt_ok py hpy ns1 ns2 h1 htot os hs.2 k (by simpa only [preAt] using h)
    exact ⟨i.done, i.sub, i.bound, i.eval, fun hr => i.rule hr.2⟩
end

theorem Res.ok_bind {β γ : Type} (b : β) (f : β → Res γ) : (Res.ok b).bind f = f b := rfl

theorem Res.bind_ok {β : Type} (r : Res β) : r.bind .ok = r := by cases r <;> rfl

theorem Res.bind_assoc {β γ δ : Type} (r : Res β) (f : β → Res γ) (g : γ → Res δ) :
    (r.bind f).bind g = r.bind (fun x => (f x).bind g) := by cases r <;> rfl

theorem evalRule_append (py : Py V) (ns : NS V) (xs ys : List (Itm V)) :
    evalRule py ns (xs ++ ys) = (evalRule py ns xs).bind (fun a => (evalRule py ns ys).bind (fun b => .ok (a ++ b))) := by
  induction xs with
  | nil => simp only [List.nil_append, evalRule, Res.ok_bind]; exact (Res.bind_ok _).symm
  | cons x xs ih => simp only [List.cons_append, evalRule, ih, Res.bind_assoc, Res.ok_bind, List.append_assoc]

mutual
theorem evalRuleItem_eq (py : Py V) (ns : NS V) : (o : Itm V) → o.RuleOk →
    evalRuleItem py ns o = (evaluate py ns o).bind (fun r => .ok (unrollI r))
  | .val v, _ => rfl
  | .tup os, h => by
    simp only [evalRuleItem, evalRule_eq py ns os h, evaluate, Res.bind_assoc, Res.ok_bind, unrollI]
  | .var _, h => h.elim
  | .call _ _, h => h.elim
  | .select _ _, _ => rfl
  | .target _ _, _ => rfl
  | .pattern _, _ => rfl
  | .subgroup _, _ => rfl
  | .delegate _, _ => rfl
  | .skip, _ => rfl
theorem evalRule_eq (py : Py V) (ns : NS V) : (os : List (Itm V)) → RuleOkL os →
    evalRule py ns os = (evaluateL py ns os).bind (fun r => .ok (unrollIL r))
  | [], _ => rfl
  | o :: os, h => by
    simp only [evalRule, evalRuleItem_eq py ns o h.1, evalRule_eq py ns os h.2, evaluateL, Res.bind_assoc, Res.ok_bind, unrollIL]
end

mutual
theorem evalRule_unroll (py : Py V) (ns : NS V) : (o : Itm V) → evalRule py ns (unrollI o) = evalRuleItem py ns o
  | .tup os => by simp only [unrollI, evalRuleItem, evalRule_unrollL py ns os]
  | .val _ => by simp [unrollI, evalRule, evalRuleItem, Res.ok_bind]
  | .var _ => by simp [unrollI, evalRule, evalRuleItem, Res.ok_bind]
  | .call _ _ => by simp [unrollI, evalRule, evalRuleItem, Res.ok_bind]
  | .select _ _ => by simp [unrollI, evalRule, Res.ok_bind]; exact Res.bind_ok _
  | .target _ _ => by simp [unrollI, evalRule, Res.ok_bind]; exact Res.bind_ok _
  | .pattern _ => by simp [unrollI, evalRule, Res.ok_bind]; exact Res.bind_ok _
  | .subgroup _ => by simp [unrollI, evalRule, Res.ok_bind]; exact Res.bind_ok _
  | .delegate _ => by simp [unrollI, evalRule, Res.ok_bind]; exact Res.bind_ok _
  | .skip => by simp [unrollI, evalRule, Res.ok_bind]; exact Res.bind_ok _
theorem evalRule_unrollL (py : Py V) (ns : NS V) : (os : List (Itm V)) → evalRule py ns (unrollIL os) = evalRule py ns os
  | [] => rfl
  | o :: os => by simp only [unrollIL, evalRule_append, evalRule_unroll py ns o, evalRule_unrollL py ns os, evalRule]
end

theorem preUnroll_ok (py : Py V) (hpy : py.Ok) (ns1 ns2 : NS V) (h1 : ns1.Ok) (htot : ∀ n, ns1.union ns2 n ≠ none)
    (o : Itm V) (hs : o.SubOk) (hr : o.RuleOk) {os : List (Itm V)} (h : preUnroll py ns1 o = some os) :
    evalRule py ns2 os = evalRuleItem py (ns1.union ns2) o := by
  simp only [preUnroll, Option.map_eq_some_iff] at h
  obtain ⟨⟨o', c, u⟩, hp, rfl⟩ := h
  have ih := pre_ok py hpy ns1 ns2 h1 htot o hs hp
  rw [evalRule_unroll, evalRuleItem_eq py ns2 o' (ih.rule hr), evalRuleItem_eq py (ns1.union ns2) o hr, ih.eval]

mutual
theorem preRuleItem_ok (py : Py V) (hpy : py.Ok) (ns1 ns2 : NS V) (h1 : ns1.Ok) (htot : ∀ n, ns1.union ns2 n ≠ none) :
    (o : Itm V) → o.SubOk → o.RuleOk → {os : List (Itm V)} → preRuleItem py ns1 o = some os →
    evalRule py ns2 os = evalRuleItem py (ns1.union ns2) o
  | .val v, _, _, os, h => by
    simp only [preRuleItem, Option.some.injEq] at h
    subst h
    simp [evalRule, evalRuleItem, Res.ok_bind]
  | .tup os, hs, hr, _, h => by
    simp only [preRuleItem] at h
    exact preItems_ok py hpy ns1 ns2 h1 htot os hs hr h
  | .var _, _, hr, _, _ => hr.elim
  | .call _ _, _, hr, _, _ => hr.elim
  | .select i a, hs, hr, _, h => preUnroll_ok py hpy ns1 ns2 h1 htot _ hs hr (by simpa only [preRuleItem] using h)
  | .target i a, hs, hr, _, h => preUnroll_ok py hpy ns1 ns2 h1 htot _ hs hr (by simpa only [preRuleItem] using h)
  | .pattern a, hs, hr, _, h => preUnroll_ok py hpy ns1 ns2 h1 htot _ hs hr (by simpa only [preRuleItem] using h)
  | .subgroup a, hs, hr, _, h => preUnroll_ok py hpy ns1 ns2 h1 htot _ hs hr (by simpa only [preRuleItem] using h)
  | .delegate a, hs, hr, _, h => preUnroll_ok py hpy ns1 ns2 h1 htot _ hs hr (by simpa only [preRuleItem] using h)
  | .skip, hs, hr, _, h => preUnroll_ok py hpy ns1 ns2 h1 htot _ hs hr (by simpa only [preRuleItem] using h)
theorem preItems_ok (py : Py V) (hpy : py.Ok) (ns1 ns2 : NS V) (h1 : ns1.Ok) (htot : ∀ n, ns1.union ns2 n ≠ none) :
    (os : List (Itm V)) → SubOkL os → RuleOkL os → {os' : List (Itm V)} → preItems py ns1 os = some os' →
    evalRule py ns2 os' = evalRule py (ns1.union ns2) os
  | [], _, _, os', h => by
    simp only [preItems, Option.some.injEq] at h
    subst h
    rfl
  | o :: os, hs, hr, os', h => by
    simp only [preItems] at h
    split at h
    · next r rs ho hos =>
      simp only [Option.some.injEq] at h
      subst h
      simp only [evalRule_append, evalRule, preRuleItem_ok py hpy ns1 ns2 h1 htot o hs.1 hr.1 ho,
        preItems_ok py hpy ns1 ns2 h1 htot os hs.2 hr.2 hos]
    · simp at h
end

mutual
theorem noBare_done : (o : Itm V) → o.NoBare → needsItem o = false → o.Done
  | .val _, _, _ => trivial
  | .tup os, h, hn => noBareL_done os h hn
  | .var _, h, _ => h.elim
  | .call _ _, h, _ => h.elim
  | .select _ _, _, hn => by simp [needsItem] at hn
  | .target _ _, _, hn => by simp [needsItem] at hn
  | .pattern v, h, hn => noBare_done v h hn
  | .subgroup _, h, _ => h
  | .delegate v, h, hn => noBare_done v h hn
  | .skip, _, _ => trivial
theorem noBareL_done : (os : List (Itm V)) → NoBareL os → needs os = false → DoneL os
  | [], _, _ => trivial
  | o :: os, h, hn => by
    simp only [needs, Bool.or_eq_false_iff] at hn
    exact ⟨noBare_done o h.1 hn.1, noBareL_done os h.2 hn.2⟩
end

theorem done_evalRule (py : Py V) (ns : NS V) (os : List (Itm V)) (h : DoneL os) : evalRule py ns os = .ok (unrollIL os) := by
  rw [evalRule_eq py ns os (doneL_ruleOk os h), doneL_eval py ns os h]
  rfl

end Parce.RI

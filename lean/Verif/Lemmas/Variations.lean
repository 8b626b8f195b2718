import Verif.Lemmas.RuleItem
/-!
# Lemmas for the variations of a rule
-/
namespace Parce.RI
variable {V : Type}

theorem expandL_append {py : Py V} {ns : NS V} : {xs ys os : List (Itm V)} → ExpandL py ns (xs ++ ys) os →
    ∃ a b, os = a ++ b ∧ ExpandL py ns xs a ∧ ExpandL py ns ys b
  | [], _, os, h => ⟨[], os, rfl, .nil, h⟩
  | x :: xs, ys, _, h => by
    cases h with
    | cons _ _ o1 o2 h1 h2 =>
      obtain ⟨a, b, rfl, ha, hb⟩ := expandL_append (xs := xs) h2
      exact ⟨o1 ++ a, b, by simp, .cons _ _ _ _ h1 ha, hb⟩

theorem expandL_single {py : Py V} {ns : NS V} {x : Itm V} {os : List (Itm V)} (h : ExpandL py ns [x] os) :
    Expand py ns x os := by
  cases h with
  | cons _ _ o1 o2 h1 h2 =>
    cases h2
    simpa using h1

theorem expandL_val {py : Py V} {ns : NS V} (v : V) : ExpandL py ns [.val v] [.val v] :=
  .cons _ _ [.val v] [] (.val v) .nil

theorem coversL_append {py : Py V} {mk : Marks V} {a b c d : List (Itm V)} (h1 : CoversL py mk a b) (h2 : CoversL py mk c d) :
    CoversL py mk (a ++ c) (b ++ d) := by
  unfold CoversL at *
  induction h1 with
  | nil => exact h2
  | cons h _ ih => exact .cons h ih

theorem coversL_one {py : Py V} {mk : Marks V} {a b : Itm V} (h : Covers py mk a b) : CoversL py mk [a] [b] :=
  .cons h .nil

theorem mem_prod {ls rs : List (List (Itm V))} {l r : List (Itm V)} (h1 : l ∈ ls) (h2 : r ∈ rs) : l ++ r ∈ prod ls rs := by
  simp only [prod, List.mem_flatMap, List.mem_map]
  exact ⟨r, h2, l, h1, rfl⟩

theorem prodO_some {a b : Option (List (List (Itm V)))} {vs : List (List (Itm V))} (h : prodO a b = some vs) :
    ∃ x y, a = some x ∧ b = some y ∧ vs = prod x y := by
  cases a <;> cases b <;> simp [prodO] at h
  exact ⟨_, _, rfl, rfl, h.symm⟩

theorem varsEach_at {py : Py V} {mk : Marks V} : {os : List (Itm V)} → {vs : List (List (Itm V))} → {k : Nat} →
    {ws : List (List (Itm V))} → varsEach py mk os = some vs → varsAt py mk os k = some ws → ∀ w ∈ ws, w ∈ vs
  | [], _, _, _, _, h => by simp [varsAt] at h
  | o :: os, vs, k, ws, h1, h2 => by
    simp only [varsEach] at h1
    split at h1
    · next a b ha hb =>
      simp only [Option.some.injEq] at h1
      subst h1
      intro w hw
      cases k with
      | zero =>
        simp only [varsAt, ha, Option.some.injEq] at h2
        subst h2
        exact List.mem_append_left _ hw
      | succ k => exact List.mem_append_right _ (varsEach_at hb (by simpa [varsAt] using h2) w hw)
    · simp at h1

theorem varsEach_isSome {py : Py V} {mk : Marks V} : {os : List (Itm V)} → {vs : List (List (Itm V))} → {k : Nat} →
    varsEach py mk os = some vs → k < os.length → ∃ ws, varsAt py mk os k = some ws
  | [], _, _, _, h => by simp at h
  | o :: os, vs, k, h1, h2 => by
    simp only [varsEach] at h1
    split at h1
    · next a b ha hb =>
      cases k with
      | zero => exact ⟨a, ha⟩
      | succ k =>
        obtain ⟨ws, hws⟩ := varsEach_isSome (k := k) hb (by simpa using h2)
        exact ⟨ws, by simpa only [varsAt] using hws⟩
    · simp at h1

theorem evaluateAt_len {py : Py V} {ns : NS V} : {os : List (Itm V)} → {k : Nat} → {r : Itm V} →
    evaluateAt py ns os k = .ok r → k < os.length
  | [], _, _, h => by simp [evaluateAt] at h
  | _ :: _, 0, _, _ => by simp
  | _ :: os, k + 1, _, h => by
    have := evaluateAt_len (os := os) (k := k) (by simpa [evaluateAt] using h)
    simp; omega

theorem Res.bind_eq_ok {β γ : Type} {r : Res β} {f : β → Res γ} {c : γ} (h : r.bind f = .ok c) :
    ∃ b, r = .ok b ∧ f b = .ok c := by
  cases r with
  | ok b => exact ⟨b, rfl, h⟩
  | err e => cases h

theorem Res.ofOption_eq_ok {β : Type} {o : Option β} {b : β} (h : Res.ofOption o = .ok b) : o = some b := by
  cases o <;> simp [Res.ofOption] at h
  rw [h]

/-- The lexicon chosen by a target, with or without argument. -/
theorem cov_derive {py : Py V} {mk : Marks V} (hpl : py.Plain mk) {ns : NS V} {l arg r : Itm V} {os : List (Itm V)}
    {ws : List (List (Itm V))} (hd : derive py l arg = some r) (he : ExpandL py ns (unrollI r) os)
    (hc : ∀ os', ExpandL py ns (unrollI l) os' → ∃ w ∈ ws, CoversL py mk w os') : ∃ w ∈ ws, CoversL py mk w os := by
  unfold derive at hd
  split at hd
  · cases hd
    exact hc os he
  · obtain ⟨⟨x, rfl⟩, y, rfl⟩ := hpl.app _ _ _ hd
    obtain ⟨w, hw, hcv⟩ := hc _ (expandL_val x)
    have := expandL_single he
    cases this
    cases hcv with
    | cons hx hr =>
      cases hr
      exact ⟨_, hw, coversL_one (.derived _ _ _ _ hx hd)⟩

mutual
theorem cov (py : Py V) (mk : Marks V) (hpl : py.Plain mk) (ns : NS V) : (o : Itm V) → o.VarOk → o.Bound ns →
    {r : Itm V} → evaluate py ns o = .ok r → {os : List (Itm V)} → ExpandL py ns (unrollI r) os →
    {vs : List (List (Itm V))} → varsI py mk o = some vs → ∃ w ∈ vs, CoversL py mk w os
  | .val v, _, _, r, he, os, hx, vs, hv => by
    simp only [evaluate, Res.ok.injEq] at he
    subst he
    simp only [varsI, Option.some.injEq] at hv
    subst hv
    cases expandL_single hx
    exact ⟨_, List.mem_singleton.2 rfl, coversL_one (.same _)⟩
  | .tup l, ho, hb, r, he, os, hx, vs, hv => by
    simp only [evaluate] at he
    obtain ⟨rs, h1, h2⟩ := Res.bind_eq_ok he
    cases h2
    exact covL py mk hpl ns l ho hb h1 hx (by simpa only [varsI] using hv)
  | .var _, _, _, r, he, os, hx, vs, hv => by simp [varsI] at hv
  | .call _ _, _, _, r, he, os, hx, vs, hv => by simp [varsI] at hv
  | .select i items, ho, hb, r, he, os, hx, vs, hv => by
    simp only [evaluate] at he
    obtain ⟨i', h1, h2⟩ := Res.bind_eq_ok he
    split at h2
    · cases h2
    · next k hk =>
      simp only [varsI] at hv
      obtain ⟨ws, hws⟩ := varsEach_isSome hv (evaluateAt_len h2)
      obtain ⟨w, hw, hc⟩ := covAt py mk hpl ns items ho hb.2 k h2 hx hws
      exact ⟨w, varsEach_at hv hws w hw, hc⟩
  | .target v lexs, ho, hb, r, he, os, hx, vs, hv => by
    simp only [evaluate] at he
    obtain ⟨v', h1, h2⟩ := Res.bind_eq_ok he
    have hlex : ∀ (k : Nat) (l arg : Itm V) (ws : List (List (Itm V))), evaluateAt py ns lexs k = .ok l → varsAt py mk lexs k = some ws →
        derive py l arg = some r → ∃ w ∈ ws, CoversL py mk w os := fun k l arg ws hl hws hd =>
      cov_derive hpl hd hx (fun os' hx' => covAt py mk hpl ns lexs ho hb.2 k hl hx' hws)
    have hdyn : ∀ b, varsEach py mk lexs = some b → vs = [.val mk.number] :: b → ∃ w ∈ vs, CoversL py mk w os := by
      intro b hbs hvs
      unfold targetRes at h2
      split at h2
      · next z hz =>
        cases h2
        cases r with
        | val y =>
          cases expandL_single hx
          rw [hvs]
          exact ⟨_, List.mem_cons_self, coversL_one (.number _ (by rw [hz]; rfl))⟩
        | _ => simp [Itm.int?] at hz
      · split at h2
        · cases h2
        · next k hk =>
          obtain ⟨l, hl, hd⟩ := Res.bind_eq_ok h2
          obtain ⟨ws, hws⟩ := varsEach_isSome hbs (evaluateAt_len hl)
          obtain ⟨w, hw, hc⟩ := hlex _ l _ ws hl hws (Res.ofOption_eq_ok hd)
          exact ⟨w, by rw [hvs]; exact List.mem_cons_of_mem _ (varsEach_at hbs hws w hw), hc⟩
      · cases h2
    cases v with
    | val y =>
      simp only [varsI] at hv
      split at hv
      · next hi =>
        cases hv
        simp only [evaluate, Res.ok.injEq] at h1
        subst h1
        obtain ⟨z, hz⟩ := Option.isSome_iff_exists.1 hi
        simp only [targetRes, Itm.int?, hz, Res.ok.injEq] at h2
        subst h2
        cases expandL_single hx
        exact ⟨_, List.mem_singleton.2 rfl, coversL_one (.same _)⟩
      · simp at hv
    | tup l =>
      match l, hv, h1 with
      | [index, arg], hv, h1 =>
        simp only [varsI] at hv
        split at hv
        · next k hk =>
          have hi : ∃ y, index = .val y := by
            cases index <;> simp [pyIndex, Itm.int?] at hk ⊢
          obtain ⟨y, rfl⟩ := hi
          simp only [evaluate, evaluateL, Res.ok_bind] at h1
          obtain ⟨rs, h3, h4⟩ := Res.bind_eq_ok h1
          obtain ⟨rs', h5, h6⟩ := Res.bind_eq_ok h3
          obtain ⟨a', h7, h8⟩ := Res.bind_eq_ok h5
          cases h8; cases h6; cases h4
          simp only [targetRes, Itm.int?, hk] at h2
          obtain ⟨l, hl, hd⟩ := Res.bind_eq_ok h2
          exact hlex k l _ vs hl hv (Res.ofOption_eq_ok hd)
        · simp at hv
      | [], hv, _ => simp [varsI] at hv
      | [_], hv, _ => simp [varsI] at hv
      | _ :: _ :: _ :: _, hv, _ => simp [varsI] at hv
    | var _ => simp only [varsI, Option.map_eq_some_iff] at hv; obtain ⟨b, h3, h4⟩ := hv; exact hdyn b h3 h4.symm
    | call _ _ => simp only [varsI, Option.map_eq_some_iff] at hv; obtain ⟨b, h3, h4⟩ := hv; exact hdyn b h3 h4.symm
    | select _ _ => simp only [varsI, Option.map_eq_some_iff] at hv; obtain ⟨b, h3, h4⟩ := hv; exact hdyn b h3 h4.symm
    | target _ _ => simp only [varsI, Option.map_eq_some_iff] at hv; obtain ⟨b, h3, h4⟩ := hv; exact hdyn b h3 h4.symm
    | pattern _ => simp only [varsI, Option.map_eq_some_iff] at hv; obtain ⟨b, h3, h4⟩ := hv; exact hdyn b h3 h4.symm
    | subgroup _ => simp only [varsI, Option.map_eq_some_iff] at hv; obtain ⟨b, h3, h4⟩ := hv; exact hdyn b h3 h4.symm
    | delegate _ => simp only [varsI, Option.map_eq_some_iff] at hv; obtain ⟨b, h3, h4⟩ := hv; exact hdyn b h3 h4.symm
    | skip => simp only [varsI, Option.map_eq_some_iff] at hv; obtain ⟨b, h3, h4⟩ := hv; exact hdyn b h3 h4.symm
  | .pattern v, ho, hb, r, he, os, hx, vs, hv => by
    simp only [evaluate] at he
    split at he
    · next v' c u hp =>
      have hr : r = .pattern v' := by
        simp only [Res.ok.injEq] at he
        rw [← he]
        split
        · next hu => rw [preSame py ns v hp hu]
        · rfl
      subst hr
      have hx' := expandL_single hx
      cases hx' with
      | pattern y =>
        simp only [varsI] at hv
        split at hv
        · cases hv
          cases hn : py.isNone y with
          | true =>
            rw [hpl.none y hn]
            exact ⟨_, List.mem_cons_self, coversL_one (.same _)⟩
          | false => exact ⟨_, List.mem_cons_of_mem _ (List.mem_singleton.2 rfl), coversL_one (.string _ hn)⟩
        · cases v with
          | val z =>
            simp only [pre, Option.some.injEq, Prod.mk.injEq] at hp
            obtain ⟨hz, _⟩ := hp
            cases hz
            simp only [varsI, Option.some.injEq] at hv
            subst hv
            exact ⟨_, List.mem_singleton.2 rfl, coversL_one (.same _)⟩
          | tup l =>
            simp only [pre] at hp
            split at hp <;> simp at hp
          | _ => simp [Itm.isItem] at *
    · cases he
  | .subgroup as, ho, hb, r, he, os, hx, vs, hv => by
    simp only [evaluate, Res.ok.injEq] at he
    subst he
    have hx' := expandL_single hx
    cases hx' with
    | subgroup _ a a' _ ha hea hxa =>
      simp only [varsI] at hv
      exact covEach py mk hpl ns as ho hb a ha hea hxa hv
  | .delegate l, ho, hb, r, he, os, hx, vs, hv => by
    simp only [evaluate] at he
    split at he
    · next v' c u hp =>
      have hr : r = .delegate v' := by
        simp only [Res.ok.injEq] at he
        rw [← he]
        split
        · next hu => rw [preSame py ns l hp hu]
        · rfl
      subst hr
      have hx' := expandL_single hx
      cases hx' with
      | delegate y =>
        simp only [varsI] at hv
        rcases pre_bound py ns l ho.2 hb with ⟨r, u, h1, h2⟩ | ⟨h1, h2⟩
        · rw [hp] at h1
          cases h1
          exact cov py mk hpl ns l ho.1 hb h2 (expandL_val y) hv
        · rw [hp] at h1
          cases h1
    · cases he
  | .skip, ho, _, _, _, _, _, _, _ => ho.elim
theorem covL (py : Py V) (mk : Marks V) (hpl : py.Plain mk) (ns : NS V) : (l : List (Itm V)) → VarOkL l → BoundL ns l →
    {rs : List (Itm V)} → evaluateL py ns l = .ok rs → {os : List (Itm V)} → ExpandL py ns (unrollIL rs) os →
    {vs : List (List (Itm V))} → varsIL py mk l = some vs → ∃ w ∈ vs, CoversL py mk w os
  | [], _, _, rs, he, os, hx, vs, hv => by
    simp only [evaluateL, Res.ok.injEq] at he
    subst he
    simp only [varsIL, Option.some.injEq] at hv
    subst hv
    cases hx
    exact ⟨[], List.mem_singleton.2 rfl, .nil⟩
  | o :: l, ho, hb, rs, he, os, hx, vs, hv => by
    simp only [evaluateL] at he
    obtain ⟨r, h1, h2⟩ := Res.bind_eq_ok he
    obtain ⟨rs', h3, h4⟩ := Res.bind_eq_ok h2
    cases h4
    simp only [varsIL] at hv
    obtain ⟨x, y, hx1, hy1, rfl⟩ := prodO_some hv
    simp only [unrollIL] at hx
    obtain ⟨a, b, rfl, ha, hb'⟩ := expandL_append hx
    obtain ⟨w1, hw1, hc1⟩ := cov py mk hpl ns o ho.1 hb.1 h1 ha hx1
    obtain ⟨w2, hw2, hc2⟩ := covL py mk hpl ns l ho.2 hb.2 h3 hb' hy1
    exact ⟨w1 ++ w2, mem_prod hw1 hw2, coversL_append hc1 hc2⟩
theorem covAt (py : Py V) (mk : Marks V) (hpl : py.Plain mk) (ns : NS V) : (l : List (Itm V)) → VarOkL l → BoundL ns l → (k : Nat) →
    {r : Itm V} → evaluateAt py ns l k = .ok r → {os : List (Itm V)} → ExpandL py ns (unrollI r) os →
    {vs : List (List (Itm V))} → varsAt py mk l k = some vs → ∃ w ∈ vs, CoversL py mk w os
  | [], _, _, _, _, _, _, _, _, hv => by simp [varsAt] at hv
  | o :: _, ho, hb, 0, _, he, _, hx, _, hv => cov py mk hpl ns o ho.1 hb.1 (by simpa only [evaluateAt] using he) hx (by simpa only [varsAt] using hv)
  | _ :: l, ho, hb, k + 1, _, he, _, hx, _, hv => covAt py mk hpl ns l ho.2 hb.2 k (by simpa only [evaluateAt] using he) hx (by simpa only [varsAt] using hv)
theorem covEach (py : Py V) (mk : Marks V) (hpl : py.Plain mk) (ns : NS V) : (l : List (Itm V)) → VarOkL l → BoundL ns l → (a : Itm V) → a ∈ l →
    {r : Itm V} → evaluate py ns a = .ok r → {os : List (Itm V)} → ExpandL py ns (unrollI r) os →
    {vs : List (List (Itm V))} → varsEach py mk l = some vs → ∃ w ∈ vs, CoversL py mk w os
  | [], _, _, _, ha, _, _, _, _, _, _ => by simp at ha
  | o :: l, ho, hb, a, ha, r, he, os, hx, vs, hv => by
    simp only [varsEach] at hv
    split at hv
    · next x y hx1 hy1 =>
      cases hv
      rcases List.mem_cons.1 ha with h | ha
      · rw [h] at he
        obtain ⟨w, hw, hc⟩ := cov py mk hpl ns o ho.1 hb.1 he hx hx1
        exact ⟨w, List.mem_append_left _ hw, hc⟩
      · obtain ⟨w, hw, hc⟩ := covEach py mk hpl ns l ho.2 hb.2 a ha he hx hy1
        exact ⟨w, List.mem_append_right _ hw, hc⟩
    · simp at hv
end

theorem evalRuleItem_item (py : Py V) (ns : NS V) (mk : Marks V) (o : Itm V) (hi : o.isItem = true) {vs : List (List (Itm V))}
    (hv : varsI py mk o = some vs) : evalRuleItem py ns o = (evaluate py ns o).bind (fun r => .ok (unrollI r)) := by
  cases o <;> first | rfl | (simp [Itm.isItem] at hi; done) | simp [varsI] at hv

theorem cov_rule (py : Py V) (mk : Marks V) (hpl : py.Plain mk) (ns : NS V) : (l : List (Itm V)) → Flat l → VarOkL l → BoundL ns l →
    {rs : List (Itm V)} → evalRule py ns l = .ok rs → {os : List (Itm V)} → ExpandL py ns rs os →
    {vs : List (List (Itm V))} → variations py mk l = some vs → ∃ w ∈ vs, CoversL py mk w os
  | [], _, _, _, rs, he, os, hx, vs, hv => by
    simp only [evalRule, Res.ok.injEq] at he
    subst he
    simp only [variations, Option.some.injEq] at hv
    subst hv
    cases hx
    exact ⟨[], List.mem_singleton.2 rfl, .nil⟩
  | o :: l, hf, ho, hb, rs, he, os, hx, vs, hv => by
    simp only [evalRule] at he
    obtain ⟨r, h1, h2⟩ := Res.bind_eq_ok he
    obtain ⟨rs', h3, h4⟩ := Res.bind_eq_ok h2
    cases h4
    simp only [variations] at hv
    obtain ⟨x, y, hx1, hy1, rfl⟩ := prodO_some hv
    obtain ⟨a, b, rfl, ha, hb'⟩ := expandL_append hx
    obtain ⟨w2, hw2, hc2⟩ := cov_rule py mk hpl ns l (fun o' h' => hf o' (List.mem_cons_of_mem _ h')) ho.2 hb.2 h3 hb' hy1
    split at hx1
    · next hi =>
      rw [evalRuleItem_item py ns mk o hi hx1] at h1
      obtain ⟨r0, h5, h6⟩ := Res.bind_eq_ok h1
      cases h6
      obtain ⟨w1, hw1, hc1⟩ := cov py mk hpl ns o ho.1 hb.1 h5 ha hx1
      exact ⟨w1 ++ w2, mem_prod hw1 hw2, coversL_append hc1 hc2⟩
    · next hi =>
      cases hx1
      cases o with
      | val v =>
        simp only [evalRuleItem, Res.ok.injEq] at h1
        subst h1
        cases expandL_single ha
        exact ⟨[.val v] ++ w2, mem_prod (List.mem_singleton.2 rfl) hw2, coversL_append (coversL_one (.same _)) hc2⟩
      | tup t => exact absurd rfl (hf _ List.mem_cons_self t)
      | _ => simp [Itm.isItem] at hi

theorem mem_allSeq_append : (a b : List (VT V)) → (w : List (Itm V)) →
    (w ∈ VT.allSeq (a ++ b) ↔ ∃ x ∈ VT.allSeq a, ∃ y ∈ VT.allSeq b, x ++ y = w)
  | [], b, w => by simp [VT.allSeq]
  | t :: a, b, w => by
    simp only [List.cons_append, VT.allSeq, List.mem_flatMap, List.mem_map, mem_allSeq_append a b]
    constructor
    · rintro ⟨x, hx, y, ⟨p, hp, q, hq, rfl⟩, rfl⟩
      exact ⟨x ++ p, ⟨x, hx, p, hp, rfl⟩, q, hq, by simp⟩
    · rintro ⟨_, ⟨x, hx, p, hp, rfl⟩, q, hq, rfl⟩
      exact ⟨x, hx, p ++ q, ⟨p, hp, q, hq, rfl⟩, by simp⟩

theorem mem_allSeq_one (t : VT V) (w : List (Itm V)) : w ∈ VT.allSeq [t] ↔ w ∈ t.all := by
  simp [VT.allSeq]

theorem mem_branch (o : Itm V) (bs : List (VT V)) (h : bs ≠ []) (w : List (Itm V)) :
    w ∈ VT.allSeq [branch o bs] ↔ w ∈ VT.allChoice bs := by
  rw [mem_allSeq_one]
  match bs with
  | [] => exact absurd rfl h
  | [b] => simp [branch, VT.allChoice]
  | a :: b :: c => simp [branch, VT.all]

theorem mem_prod_iff {ls rs : List (List (Itm V))} {w : List (Itm V)} : w ∈ prod ls rs ↔ ∃ x ∈ ls, ∃ y ∈ rs, x ++ y = w := by
  simp only [prod, List.mem_flatMap, List.mem_map]
  constructor
  · rintro ⟨y, hy, x, hx, h⟩
    exact ⟨x, hx, y, hy, h⟩
  · rintro ⟨x, hx, y, hy, h⟩
    exact ⟨y, hy, x, hx, h⟩

theorem treeEach_ne {py : Py V} {mk : Marks V} {os : List (Itm V)} {bs : List (VT V)} (h : treeEach py mk os = some bs)
    (hne : os ≠ []) : bs ≠ [] := by
  cases os with
  | nil => exact absurd rfl hne
  | cons o os =>
    simp only [treeEach] at h
    split at h
    · cases h; simp
    · simp at h

mutual
theorem tree_eq (py : Py V) (mk : Marks V) : (o : Itm V) → o.TreeOk → {ts : List (VT V)} → treeI py mk o = some ts →
    {vs : List (List (Itm V))} → varsI py mk o = some vs → ∀ w, w ∈ VT.allSeq ts ↔ w ∈ vs
  | .val v, _, ts, ht, vs, hv, w => by
    simp only [treeI, Option.some.injEq] at ht
    simp only [varsI, Option.some.injEq] at hv
    subst ht hv
    simp [VT.allSeq, VT.all]
  | .tup os, ho, ts, ht, vs, hv, w => treeL_eq py mk os ho (by simpa only [treeI] using ht) (by simpa only [varsI] using hv) w
  | .var _, _, _, ht, _, _, _ => by simp [treeI] at ht
  | .call _ _, _, _, ht, _, _, _ => by simp [treeI] at ht
  | .select i items, ho, ts, ht, vs, hv, w => by
    simp only [treeI, Option.map_eq_some_iff] at ht
    obtain ⟨bs, hb, rfl⟩ := ht
    simp only [varsI] at hv
    rw [mem_branch _ _ (treeEach_ne hb ho.1)]
    exact treeEach_eq py mk items ho.2 hb hv w
  | .target v lexs, ho, ts, ht, vs, hv, w => by
    have hdyn : ∀ bs b, treeEach py mk lexs = some bs → varsEach py mk lexs = some b →
        ts = [branch (.target v lexs) (.seq [.leaf (.val mk.number)] :: bs)] →
        vs = [.val mk.number] :: b → (w ∈ VT.allSeq ts ↔ w ∈ vs) := by
      intro bs b h1 h2 h3 h4
      rw [h3, h4, mem_branch _ _ (by simp)]
      simp only [VT.allChoice, List.mem_append, treeEach_eq py mk lexs ho h1 h2 w]
      simp [VT.all, VT.allSeq]
    cases v with
    | val y =>
      simp only [treeI] at ht
      simp only [varsI] at hv
      split at ht
      · next hy =>
        rw [if_pos hy] at hv
        cases ht; cases hv
        simp [VT.allSeq, VT.all]
      · simp at ht
    | tup l =>
      match l, hv, ht with
      | [index, arg], hv, ht =>
        simp only [varsI] at hv
        simp only [treeI] at ht
        split at ht
        · next k hk =>
          rw [hk] at hv
          simp only at hv
          simp only [Option.map_eq_some_iff] at ht
          obtain ⟨b, hb, rfl⟩ := ht
          rw [mem_allSeq_one, VT.all]
          exact treeAt_eq py mk lexs ho k hb hv w
        · simp at ht
      | [], hv, _ => simp [varsI] at hv
      | [_], hv, _ => simp [varsI] at hv
      | _ :: _ :: _ :: _, hv, _ => simp [varsI] at hv
    | var _ => simp only [treeI, varsI, Option.map_eq_some_iff] at ht hv; obtain ⟨b, h1, h2⟩ := ht; obtain ⟨c, h3, h4⟩ := hv; exact hdyn b c h1 h3 h2.symm h4.symm
    | call _ _ => simp only [treeI, varsI, Option.map_eq_some_iff] at ht hv; obtain ⟨b, h1, h2⟩ := ht; obtain ⟨c, h3, h4⟩ := hv; exact hdyn b c h1 h3 h2.symm h4.symm
    | select _ _ => simp only [treeI, varsI, Option.map_eq_some_iff] at ht hv; obtain ⟨b, h1, h2⟩ := ht; obtain ⟨c, h3, h4⟩ := hv; exact hdyn b c h1 h3 h2.symm h4.symm
    | target _ _ => simp only [treeI, varsI, Option.map_eq_some_iff] at ht hv; obtain ⟨b, h1, h2⟩ := ht; obtain ⟨c, h3, h4⟩ := hv; exact hdyn b c h1 h3 h2.symm h4.symm
    | pattern _ => simp only [treeI, varsI, Option.map_eq_some_iff] at ht hv; obtain ⟨b, h1, h2⟩ := ht; obtain ⟨c, h3, h4⟩ := hv; exact hdyn b c h1 h3 h2.symm h4.symm
    | subgroup _ => simp only [treeI, varsI, Option.map_eq_some_iff] at ht hv; obtain ⟨b, h1, h2⟩ := ht; obtain ⟨c, h3, h4⟩ := hv; exact hdyn b c h1 h3 h2.symm h4.symm
    | delegate _ => simp only [treeI, varsI, Option.map_eq_some_iff] at ht hv; obtain ⟨b, h1, h2⟩ := ht; obtain ⟨c, h3, h4⟩ := hv; exact hdyn b c h1 h3 h2.symm h4.symm
    | skip => simp only [treeI, varsI, Option.map_eq_some_iff] at ht hv; obtain ⟨b, h1, h2⟩ := ht; obtain ⟨c, h3, h4⟩ := hv; exact hdyn b c h1 h3 h2.symm h4.symm
  | .pattern v, ho, ts, ht, vs, hv, w => by
    simp only [treeI] at ht
    simp only [varsI] at hv
    split at ht
    · next hi =>
      rw [if_pos hi] at hv
      cases ht; cases hv
      simp [VT.allSeq, VT.all, VT.allChoice]
    · next hi =>
      rw [if_neg hi] at hv
      simp only [Option.map_eq_some_iff] at ht
      obtain ⟨b, hb, rfl⟩ := ht
      rw [mem_allSeq_one, VT.all]
      exact tree_eq py mk v ho hb hv w
  | .subgroup as, ho, ts, ht, vs, hv, w => by
    simp only [treeI, Option.map_eq_some_iff] at ht
    obtain ⟨bs, hb, rfl⟩ := ht
    simp only [varsI] at hv
    rw [mem_branch _ _ (treeEach_ne hb ho.1)]
    exact treeEach_eq py mk as ho.2 hb hv w
  | .delegate l, ho, ts, ht, vs, hv, w => by
    simp only [treeI, Option.map_eq_some_iff] at ht
    simp only [varsI] at hv
    obtain ⟨b, hb, rfl⟩ := ht
    rw [mem_allSeq_one, VT.all]
    exact tree_eq py mk l ho hb hv w
  | .skip, ho, _, _, _, _, _ => ho.elim
theorem treeL_eq (py : Py V) (mk : Marks V) : (os : List (Itm V)) → TreeOkL os → {ts : List (VT V)} → treeIL py mk os = some ts →
    {vs : List (List (Itm V))} → varsIL py mk os = some vs → ∀ w, w ∈ VT.allSeq ts ↔ w ∈ vs
  | [], _, ts, ht, vs, hv, w => by
    simp only [treeIL, Option.some.injEq] at ht
    simp only [varsIL, Option.some.injEq] at hv
    subst ht hv
    simp [VT.allSeq]
  | o :: os, ho, ts, ht, vs, hv, w => by
    simp only [treeIL] at ht
    simp only [varsIL] at hv
    obtain ⟨x, y, hx, hy, rfl⟩ := prodO_some hv
    split at ht
    · next a b ha hb =>
      cases ht
      simp only [mem_allSeq_append, mem_prod_iff, tree_eq py mk o ho.1 ha hx, treeL_eq py mk os ho.2 hb hy]
    · simp at ht
theorem treeEach_eq (py : Py V) (mk : Marks V) : (os : List (Itm V)) → TreeOkL os → {ts : List (VT V)} → treeEach py mk os = some ts →
    {vs : List (List (Itm V))} → varsEach py mk os = some vs → ∀ w, w ∈ VT.allChoice ts ↔ w ∈ vs
  | [], _, ts, ht, vs, hv, w => by
    simp only [treeEach, Option.some.injEq] at ht
    simp only [varsEach, Option.some.injEq] at hv
    subst ht hv
    simp [VT.allChoice]
  | o :: os, ho, ts, ht, vs, hv, w => by
    simp only [treeEach] at ht
    simp only [varsEach] at hv
    split at hv
    · next x y hx hy =>
      cases hv
      split at ht
      · next a b ha hb =>
        cases ht
        simp only [VT.allChoice, VT.all, List.mem_append, tree_eq py mk o ho.1 ha hx, treeEach_eq py mk os ho.2 hb hy]
      · simp at ht
    · simp at hv
theorem treeAt_eq (py : Py V) (mk : Marks V) : (os : List (Itm V)) → TreeOkL os → (k : Nat) → {ts : List (VT V)} → treeAt py mk os k = some ts →
    {vs : List (List (Itm V))} → varsAt py mk os k = some vs → ∀ w, w ∈ VT.allSeq ts ↔ w ∈ vs
  | [], _, _, _, ht, _, _, _ => by simp [treeAt] at ht
  | o :: _, ho, 0, _, ht, _, hv, w => tree_eq py mk o ho.1 (by simpa only [treeAt] using ht) (by simpa only [varsAt] using hv) w
  | _ :: os, ho, k + 1, _, ht, _, hv, w => treeAt_eq py mk os ho.2 k (by simpa only [treeAt] using ht) (by simpa only [varsAt] using hv) w
end

theorem tree_rule (py : Py V) (mk : Marks V) : (os : List (Itm V)) → TreeOkL os → {ts : List (VT V)} → variationsTree py mk os = some ts →
    {vs : List (List (Itm V))} → variations py mk os = some vs → ∀ w, w ∈ VT.allSeq ts ↔ w ∈ vs
  | [], _, ts, ht, vs, hv, w => by
    simp only [variationsTree, Option.some.injEq] at ht
    simp only [variations, Option.some.injEq] at hv
    subst ht hv
    simp [VT.allSeq]
  | o :: os, ho, ts, ht, vs, hv, w => by
    simp only [variationsTree] at ht
    simp only [variations] at hv
    obtain ⟨x, y, hx, hy, rfl⟩ := prodO_some hv
    split at ht
    · next a b ha hb =>
      cases ht
      have h1 : ∀ w, w ∈ VT.allSeq a ↔ w ∈ x := by
        split at ha
        · next hi =>
          rw [if_pos hi] at hx
          exact tree_eq py mk o ho.1 ha hx
        · next hi =>
          rw [if_neg hi] at hx
          cases ha; cases hx
          simp [VT.allSeq, VT.all]
      simp only [mem_allSeq_append, mem_prod_iff, h1, tree_rule py mk os ho.2 hb hy]
    · simp at ht

end Parce.RI

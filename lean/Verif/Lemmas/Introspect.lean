import Verif.Spec.Introspect
import Verif.Lemmas.Variations
/-!
# Lemmas for introspection
-/
namespace Parce.Isp
open Parce.RI
variable {V D A : Type}

/-- Every outcome except `skip` is covered. -/
def AllCov (py : Py V) (mk : Marks V) (l os : List (Itm V)) : Prop :=
  ∀ o ∈ os, o ≠ .skip → ∃ w ∈ l, Covers py mk w o

theorem AllCov.mono {py : Py V} {mk : Marks V} {l l' os : List (Itm V)} (h : AllCov py mk l os) (hs : ∀ w ∈ l, w ∈ l') : AllCov py mk l' os :=
  fun o ho hn => (h o ho hn).elim fun w hw => ⟨w, hs w hw.1, hw.2⟩

theorem AllCov.append {py : Py V} {mk : Marks V} {l a b : List (Itm V)} (h1 : AllCov py mk l a) (h2 : AllCov py mk l b) : AllCov py mk l (a ++ b) :=
  fun o ho hn => (List.mem_append.1 ho).elim (fun h => h1 o h hn) (fun h => h2 o h hn)

theorem AllCov.one {py : Py V} {mk : Marks V} {l : List (Itm V)} {w o : Itm V} (hw : w ∈ l) (h : Covers py mk w o) : AllCov py mk l [o] := by
  intro o' ho _
  cases List.mem_singleton.1 ho
  exact ⟨w, hw, h⟩

theorem flattenL_nth {py : Py V} {mk : Marks V} : {os : List (Itm V)} → {l : List (Itm V)} → {k : Nat} →
    flattenL py mk os = some l → k < os.length → ∃ ws, flattenNth py mk os k = some ws ∧ ∀ w ∈ ws, w ∈ l
  | [], _, _, _, h => by simp at h
  | o :: os, l, k, h1, h2 => by
    simp only [flattenL] at h1
    split at h1
    · next a b ha hb =>
      cases h1
      cases k with
      | zero => exact ⟨a, ha, fun w hw => List.mem_append_left _ hw⟩
      | succ k =>
        obtain ⟨ws, hws, hm⟩ := flattenL_nth (k := k) hb (by simpa using h2)
        exact ⟨ws, by simpa only [flattenNth] using hws, fun w hw => List.mem_append_right _ (hm w hw)⟩
    · simp at h1

theorem icov_derive {py : Py V} {mk : Marks V} (hpl : py.Plain mk) {ns : NS V} {l arg r : Itm V} {os : List (Itm V)}
    {ws : List (Itm V)} (hd : derive py l arg = some r) (he : ExpandL py ns (unrollI r) os)
    (hc : ∀ os', ExpandL py ns (unrollI l) os' → AllCov py mk ws os') : AllCov py mk ws os := by
  unfold derive at hd
  split at hd
  · cases hd
    exact hc os he
  · obtain ⟨⟨x, rfl⟩, y, rfl⟩ := hpl.app _ _ _ hd
    obtain ⟨w, hw, hcv⟩ := hc _ (expandL_val x) _ (List.mem_singleton.2 rfl) (fun h => by cases h)
    have := expandL_single he
    cases this
    exact AllCov.one hw (.derived _ _ _ _ hcv hd)

mutual
theorem icov (py : Py V) (mk : Marks V) (hpl : py.Plain mk) (ns : NS V) : (o : Itm V) → DelOk o → o.Bound ns →
    {r : Itm V} → evaluate py ns o = .ok r → {os : List (Itm V)} → ExpandL py ns (unrollI r) os →
    {vs : List (Itm V)} → flattenI py mk o = some vs → AllCov py mk vs os
  | .val v, _, _, r, he, os, hx, vs, hv => by
    simp only [evaluate, Res.ok.injEq] at he
    subst he
    simp only [flattenI, Option.some.injEq] at hv
    subst hv
    cases expandL_single hx
    exact AllCov.one (List.mem_singleton.2 rfl) (.same _)
  | .tup l, ho, hb, r, he, os, hx, vs, hv => by
    simp only [evaluate] at he
    obtain ⟨rs, h1, h2⟩ := Res.bind_eq_ok he
    cases h2
    exact icovL py mk hpl ns l ho hb h1 hx (by simpa only [flattenI] using hv)
  | .var _, _, _, r, he, os, hx, vs, hv => by simp [flattenI] at hv
  | .call _ _, _, _, r, he, os, hx, vs, hv => by simp [flattenI] at hv
  | .select i items, ho, hb, r, he, os, hx, vs, hv => by
    simp only [evaluate] at he
    obtain ⟨i', h1, h2⟩ := Res.bind_eq_ok he
    split at h2
    · cases h2
    · next k hk =>
      simp only [flattenI] at hv
      obtain ⟨ws, hws, hm⟩ := flattenL_nth hv (evaluateAt_len h2)
      exact (icovAt py mk hpl ns items ho hb.2 k h2 hx hws).mono hm
  | .target v lexs, ho, hb, r, he, os, hx, vs, hv => by
    simp only [evaluate] at he
    obtain ⟨v', h1, h2⟩ := Res.bind_eq_ok he
    have hlex : ∀ (k : Nat) (l arg : Itm V) (ws : List (Itm V)), evaluateAt py ns lexs k = .ok l → flattenNth py mk lexs k = some ws →
        derive py l arg = some r → AllCov py mk ws os := fun k l arg ws hl hws hd =>
      icov_derive hpl hd hx (fun os' hx' => icovAt py mk hpl ns lexs ho hb.2 k hl hx' hws)
    have hdyn : ∀ b, flattenL py mk lexs = some b → vs = .val mk.number :: b → AllCov py mk vs os := by
      intro b hbs hvs
      unfold targetRes at h2
      split at h2
      · next z hz =>
        cases h2
        cases r with
        | val y =>
          cases expandL_single hx
          rw [hvs]
          exact AllCov.one List.mem_cons_self (.number _ (by rw [hz]; rfl))
        | _ => simp [Itm.int?] at hz
      · split at h2
        · cases h2
        · next k hk =>
          obtain ⟨l, hl, hd⟩ := Res.bind_eq_ok h2
          obtain ⟨ws, hws, hm⟩ := flattenL_nth hbs (evaluateAt_len hl)
          have := hlex _ l _ ws hl hws (Res.ofOption_eq_ok hd)
          rw [hvs]
          exact this.mono (fun w hw => List.mem_cons_of_mem _ (hm w hw))
      · cases h2
    cases v with
    | val y =>
      simp only [flattenI] at hv
      split at hv
      · next hi =>
        cases hv
        simp only [evaluate, Res.ok.injEq] at h1
        subst h1
        obtain ⟨z, hz⟩ := Option.isSome_iff_exists.1 hi
        simp only [targetRes, Itm.int?, hz, Res.ok.injEq] at h2
        subst h2
        cases expandL_single hx
        exact AllCov.one (List.mem_singleton.2 rfl) (.same _)
      · simp at hv
    | tup l =>
      match l, hv, h1 with
      | [index, arg], hv, h1 =>
        simp only [flattenI] at hv
        split at hv
        · next k hk =>
          have hi : ∃ y, index = .val y := by
            cases index <;> simp [pyIndex, Itm.int?] at hk ⊢
          obtain ⟨y, rfl⟩ := hi
          simp only [evaluate, evaluateL, Res.ok_bind] at h1
          obtain ⟨rs, h3, h4⟩ := Res.bind_eq_ok h1
          obtain ⟨rs', h5, h6⟩ := Res.bind_eq_ok h3
          obtain ⟨a', h7, h8⟩ := Res.bind_eq_ok h5
          cases h8; cases h6; cases h4
          simp only [targetRes, Itm.int?, hk] at h2
          obtain ⟨l, hl, hd⟩ := Res.bind_eq_ok h2
          exact hlex k l _ vs hl hv (Res.ofOption_eq_ok hd)
        · simp at hv
      | [], hv, _ => simp [flattenI] at hv
      | [_], hv, _ => simp [flattenI] at hv
      | _ :: _ :: _ :: _, hv, _ => simp [flattenI] at hv
    | var _ => simp only [flattenI, Option.map_eq_some_iff] at hv; obtain ⟨b, h3, h4⟩ := hv; exact hdyn b h3 h4.symm
    | call _ _ => simp only [flattenI, Option.map_eq_some_iff] at hv; obtain ⟨b, h3, h4⟩ := hv; exact hdyn b h3 h4.symm
    | select _ _ => simp only [flattenI, Option.map_eq_some_iff] at hv; obtain ⟨b, h3, h4⟩ := hv; exact hdyn b h3 h4.symm
    | target _ _ => simp only [flattenI, Option.map_eq_some_iff] at hv; obtain ⟨b, h3, h4⟩ := hv; exact hdyn b h3 h4.symm
    | pattern _ => simp only [flattenI, Option.map_eq_some_iff] at hv; obtain ⟨b, h3, h4⟩ := hv; exact hdyn b h3 h4.symm
    | subgroup _ => simp only [flattenI, Option.map_eq_some_iff] at hv; obtain ⟨b, h3, h4⟩ := hv; exact hdyn b h3 h4.symm
    | delegate _ => simp only [flattenI, Option.map_eq_some_iff] at hv; obtain ⟨b, h3, h4⟩ := hv; exact hdyn b h3 h4.symm
    | skip => simp only [flattenI, Option.map_eq_some_iff] at hv; obtain ⟨b, h3, h4⟩ := hv; exact hdyn b h3 h4.symm
  | .pattern v, ho, hb, r, he, os, hx, vs, hv => by
    simp only [evaluate] at he
    split at he
    · next v' c u hp =>
      have hr : r = .pattern v' := by
        simp only [Res.ok.injEq] at he
        rw [← he]
        split
        · next hu => rw [preSame py ns v hp hu]
        · rfl
      subst hr
      have hx' := expandL_single hx
      cases hx' with
      | pattern y =>
        simp only [flattenI] at hv
        split at hv
        · cases hv
          cases hn : py.isNone y with
          | true =>
            rw [hpl.none y hn]
            exact AllCov.one List.mem_cons_self (.same _)
          | false => exact AllCov.one (List.mem_cons_of_mem _ (List.mem_singleton.2 rfl)) (.string _ hn)
        · cases v with
          | val z =>
            simp only [pre, Option.some.injEq, Prod.mk.injEq] at hp
            obtain ⟨hz, _⟩ := hp
            cases hz
            simp only [flattenI, Option.some.injEq] at hv
            subst hv
            exact AllCov.one (List.mem_singleton.2 rfl) (.same _)
          | tup l =>
            simp only [pre] at hp
            split at hp <;> simp at hp
          | _ => simp [Itm.isItem] at *
    · cases he
  | .subgroup as, ho, hb, r, he, os, hx, vs, hv => by
    simp only [evaluate, Res.ok.injEq] at he
    subst he
    have hx' := expandL_single hx
    cases hx' with
    | subgroup _ a a' _ ha hea hxa =>
      simp only [flattenI] at hv
      exact icovEach py mk hpl ns as ho hb a ha hea hxa hv
  | .delegate l, ho, hb, r, he, os, hx, vs, hv => by
    simp only [evaluate] at he
    split at he
    · next v' c u hp =>
      have hr : r = .delegate v' := by
        simp only [Res.ok.injEq] at he
        rw [← he]
        split
        · next hu => rw [preSame py ns l hp hu]
        · rfl
      subst hr
      have hx' := expandL_single hx
      cases hx' with
      | delegate y =>
        simp only [flattenI] at hv
        rcases pre_bound py ns l ho.2 hb with ⟨r, u, h1, h2⟩ | ⟨h1, h2⟩
        · rw [hp] at h1
          cases h1
          exact icov py mk hpl ns l ho.1 hb h2 (expandL_val y) hv
        · rw [hp] at h1
          cases h1
    · cases he
  | .skip, _, _, r, he, os, hx, vs, hv => by
    simp only [evaluate, Res.ok.injEq] at he
    subst he
    cases expandL_single hx
    intro o ho hn
    exact absurd (List.mem_singleton.1 ho) hn
theorem icovL (py : Py V) (mk : Marks V) (hpl : py.Plain mk) (ns : NS V) : (l : List (Itm V)) → DelOkL l → BoundL ns l →
    {rs : List (Itm V)} → evaluateL py ns l = .ok rs → {os : List (Itm V)} → ExpandL py ns (unrollIL rs) os →
    {vs : List (Itm V)} → flattenL py mk l = some vs → AllCov py mk vs os
  | [], _, _, rs, he, os, hx, vs, hv => by
    simp only [evaluateL, Res.ok.injEq] at he
    subst he
    cases hx
    intro o ho
    cases ho
  | o :: l, ho, hb, rs, he, os, hx, vs, hv => by
    simp only [evaluateL] at he
    obtain ⟨r, h1, h2⟩ := Res.bind_eq_ok he
    obtain ⟨rs', h3, h4⟩ := Res.bind_eq_ok h2
    cases h4
    simp only [flattenL] at hv
    split at hv
    · next a b ha' hb2 =>
      cases hv
      simp only [unrollIL] at hx
      obtain ⟨x, y, rfl, ha, hb'⟩ := expandL_append hx
      exact ((icov py mk hpl ns o ho.1 hb.1 h1 ha ha').mono (fun w hw => List.mem_append_left _ hw)).append
        ((icovL py mk hpl ns l ho.2 hb.2 h3 hb' hb2).mono (fun w hw => List.mem_append_right _ hw))
    · cases hv
theorem icovAt (py : Py V) (mk : Marks V) (hpl : py.Plain mk) (ns : NS V) : (l : List (Itm V)) → DelOkL l → BoundL ns l → (k : Nat) →
    {r : Itm V} → evaluateAt py ns l k = .ok r → {os : List (Itm V)} → ExpandL py ns (unrollI r) os →
    {vs : List (Itm V)} → flattenNth py mk l k = some vs → AllCov py mk vs os
  | [], _, _, _, _, _, _, _, _, hv => by simp [flattenNth] at hv
  | o :: _, ho, hb, 0, _, he, _, hx, _, hv => icov py mk hpl ns o ho.1 hb.1 (by simpa only [evaluateAt] using he) hx (by simpa only [flattenNth] using hv)
  | _ :: l, ho, hb, k + 1, _, he, _, hx, _, hv => icovAt py mk hpl ns l ho.2 hb.2 k (by simpa only [evaluateAt] using he) hx (by simpa only [flattenNth] using hv)
theorem icovEach (py : Py V) (mk : Marks V) (hpl : py.Plain mk) (ns : NS V) : (l : List (Itm V)) → DelOkL l → BoundL ns l → (a : Itm V) → a ∈ l →
    {r : Itm V} → evaluate py ns a = .ok r → {os : List (Itm V)} → ExpandL py ns (unrollI r) os →
    {vs : List (Itm V)} → flattenL py mk l = some vs → AllCov py mk vs os
  | [], _, _, _, ha, _, _, _, _, _, _ => by simp at ha
  | o :: l, ho, hb, a, ha, r, he, os, hx, vs, hv => by
    simp only [flattenL] at hv
    split at hv
    · next x y hx1 hy1 =>
      cases hv
      rcases List.mem_cons.1 ha with h | ha
      · rw [h] at he
        exact (icov py mk hpl ns o ho.1 hb.1 he hx hx1).mono (fun w hw => List.mem_append_left _ hw)
      · exact (icovEach py mk hpl ns l ho.2 hb.2 a ha he hx hy1).mono (fun w hw => List.mem_append_right _ hw)
    · simp at hv
end

theorem evalRuleItem_flat (py : Py V) (ns : NS V) (mk : Marks V) (o : Itm V) (hi : o.isItem = true) {vs : List (Itm V)}
    (hv : flattenI py mk o = some vs) : evalRuleItem py ns o = (evaluate py ns o).bind (fun r => .ok (unrollI r)) := by
  cases o <;> first | rfl | (simp [Itm.isItem] at hi; done) | simp [flattenI] at hv

mutual
theorem icov_item (py : Py V) (mk : Marks V) (hpl : py.Plain mk) (ns : NS V) : (o : Itm V) → DelOk o → o.Bound ns →
    {rs : List (Itm V)} → evalRuleItem py ns o = .ok rs → {os : List (Itm V)} → ExpandL py ns rs os →
    {vs : List (Itm V)} → flattenI py mk o = some vs → AllCov py mk vs os
  | .tup l, ho, hb, rs, he, os, hx, vs, hv =>
    icov_rule py mk hpl ns l ho hb (by simpa only [evalRuleItem] using he) hx (by simpa only [flattenI] using hv)
  | .val v, ho, hb, rs, he, os, hx, vs, hv => by
    simp only [evalRuleItem, Res.ok.injEq] at he
    subst he
    exact icov py mk hpl ns (.val v) ho hb (r := .val v) rfl (by simpa only [unrollI] using hx) hv
  | .var _, _, _, rs, he, os, hx, vs, hv => by simp [flattenI] at hv
  | .call _ _, _, _, rs, he, os, hx, vs, hv => by simp [flattenI] at hv
  | .select i a, ho, hb, rs, he, os, hx, vs, hv => by
    rw [evalRuleItem_flat py ns mk _ rfl hv] at he
    obtain ⟨r, h1, h2⟩ := Res.bind_eq_ok he
    cases h2
    exact icov py mk hpl ns _ ho hb h1 hx hv
  | .target i a, ho, hb, rs, he, os, hx, vs, hv => by
    rw [evalRuleItem_flat py ns mk _ rfl hv] at he
    obtain ⟨r, h1, h2⟩ := Res.bind_eq_ok he
    cases h2
    exact icov py mk hpl ns _ ho hb h1 hx hv
  | .pattern v, ho, hb, rs, he, os, hx, vs, hv => by
    rw [evalRuleItem_flat py ns mk _ rfl hv] at he
    obtain ⟨r, h1, h2⟩ := Res.bind_eq_ok he
    cases h2
    exact icov py mk hpl ns _ ho hb h1 hx hv
  | .subgroup as, ho, hb, rs, he, os, hx, vs, hv => by
    rw [evalRuleItem_flat py ns mk _ rfl hv] at he
    obtain ⟨r, h1, h2⟩ := Res.bind_eq_ok he
    cases h2
    exact icov py mk hpl ns _ ho hb h1 hx hv
  | .delegate l, ho, hb, rs, he, os, hx, vs, hv => by
    rw [evalRuleItem_flat py ns mk _ rfl hv] at he
    obtain ⟨r, h1, h2⟩ := Res.bind_eq_ok he
    cases h2
    exact icov py mk hpl ns _ ho hb h1 hx hv
  | .skip, ho, hb, rs, he, os, hx, vs, hv => by
    rw [evalRuleItem_flat py ns mk _ rfl hv] at he
    obtain ⟨r, h1, h2⟩ := Res.bind_eq_ok he
    cases h2
    exact icov py mk hpl ns _ ho hb h1 hx hv
theorem icov_rule (py : Py V) (mk : Marks V) (hpl : py.Plain mk) (ns : NS V) : (l : List (Itm V)) → DelOkL l → BoundL ns l →
    {rs : List (Itm V)} → evalRule py ns l = .ok rs → {os : List (Itm V)} → ExpandL py ns rs os →
    {vs : List (Itm V)} → flattenL py mk l = some vs → AllCov py mk vs os
  | [], _, _, rs, he, os, hx, vs, hv => by
    simp only [evalRule, Res.ok.injEq] at he
    subst he
    cases hx
    intro o ho
    cases ho
  | o :: l, ho, hb, rs, he, os, hx, vs, hv => by
    simp only [evalRule] at he
    obtain ⟨r, h1, h2⟩ := Res.bind_eq_ok he
    obtain ⟨rs', h3, h4⟩ := Res.bind_eq_ok h2
    cases h4
    simp only [flattenL] at hv
    split at hv
    · next a b ha' hb2 =>
      cases hv
      obtain ⟨x, y, rfl, ha, hb'⟩ := expandL_append hx
      exact ((icov_item py mk hpl ns o ho.1 hb.1 h1 ha ha').mono (fun w hw => List.mem_append_left _ hw)).append
        ((icov_rule py mk hpl ns l ho.2 hb.2 h3 hb' hb2).mono (fun w hw => List.mem_append_right _ hw))
    · cases hv
end

/-! The other direction: what is listed is in a variation -/

mutual
theorem isub (py : Py V) (mk : Marks V) : (o : Itm V) → o.TreeOk → {l : List (Itm V)} → flattenI py mk o = some l →
    ∃ vs, varsI py mk o = some vs ∧ vs ≠ [] ∧ ∀ x ∈ l, ∃ w ∈ vs, x ∈ w
  | .val v, _, l, h => by
    simp only [flattenI, Option.some.injEq] at h
    subst h
    exact ⟨_, rfl, by simp, fun x hx => ⟨_, List.mem_singleton.2 rfl, hx⟩⟩
  | .tup os, ho, l, h => by
    simp only [flattenI] at h
    simpa only [varsI] using isubL py mk os ho h
  | .var _, _, _, h => by simp [flattenI] at h
  | .call _ _, _, _, h => by simp [flattenI] at h
  | .select _ items, ho, l, h => by
    simp only [flattenI] at h
    obtain ⟨vs, h1, h2, h3⟩ := isubEach py mk items ho.2 h
    exact ⟨vs, by simpa only [varsI] using h1, h2 ho.1, h3⟩
  | .target v lexs, ho, l, h => by
    have hdyn : ∀ b, flattenL py mk lexs = some b → l = .val mk.number :: b →
        ∃ vs, (varsEach py mk lexs).map ([.val mk.number] :: ·) = some vs ∧ vs ≠ [] ∧ ∀ x ∈ l, ∃ w ∈ vs, x ∈ w := by
      intro b hb hl
      obtain ⟨vs, h1, _, h3⟩ := isubEach py mk lexs ho hb
      refine ⟨[.val mk.number] :: vs, by rw [h1]; rfl, by simp, ?_⟩
      rw [hl]
      intro x hx
      rcases List.mem_cons.1 hx with rfl | hx
      · exact ⟨_, List.mem_cons_self, List.mem_singleton.2 rfl⟩
      · obtain ⟨w, hw, hxw⟩ := h3 x hx
        exact ⟨w, List.mem_cons_of_mem _ hw, hxw⟩
    cases v with
    | val y =>
      simp only [flattenI] at h
      split at h
      · next hi =>
        cases h
        exact ⟨[[.val y]], by simp only [varsI, hi, if_true], by simp, fun x hx => ⟨_, List.mem_singleton.2 rfl, hx⟩⟩
      · cases h
    | tup t =>
      match t, h with
      | [index, arg], h =>
        simp only [flattenI] at h
        split at h
        · next k hk =>
          obtain ⟨vs, h1, h2, h3⟩ := isubNth py mk lexs ho k h
          exact ⟨vs, by simpa only [varsI, hk] using h1, h2, h3⟩
        · cases h
      | [], h => simp [flattenI] at h
      | [_], h => simp [flattenI] at h
      | _ :: _ :: _ :: _, h => simp [flattenI] at h
    | var _ => simp only [flattenI, Option.map_eq_some_iff] at h; obtain ⟨b, h3, h4⟩ := h; simpa only [varsI] using hdyn b h3 h4.symm
    | call _ _ => simp only [flattenI, Option.map_eq_some_iff] at h; obtain ⟨b, h3, h4⟩ := h; simpa only [varsI] using hdyn b h3 h4.symm
    | select _ _ => simp only [flattenI, Option.map_eq_some_iff] at h; obtain ⟨b, h3, h4⟩ := h; simpa only [varsI] using hdyn b h3 h4.symm
    | target _ _ => simp only [flattenI, Option.map_eq_some_iff] at h; obtain ⟨b, h3, h4⟩ := h; simpa only [varsI] using hdyn b h3 h4.symm
    | pattern _ => simp only [flattenI, Option.map_eq_some_iff] at h; obtain ⟨b, h3, h4⟩ := h; simpa only [varsI] using hdyn b h3 h4.symm
    | subgroup _ => simp only [flattenI, Option.map_eq_some_iff] at h; obtain ⟨b, h3, h4⟩ := h; simpa only [varsI] using hdyn b h3 h4.symm
    | delegate _ => simp only [flattenI, Option.map_eq_some_iff] at h; obtain ⟨b, h3, h4⟩ := h; simpa only [varsI] using hdyn b h3 h4.symm
    | skip => simp only [flattenI, Option.map_eq_some_iff] at h; obtain ⟨b, h3, h4⟩ := h; simpa only [varsI] using hdyn b h3 h4.symm
  | .pattern v, ho, l, h => by
    simp only [flattenI] at h
    by_cases hi : v.isItem = true
    · rw [if_pos hi] at h
      cases h
      refine ⟨[[.val mk.none], [.val mk.string]], by simp only [varsI, hi, if_true], by simp, ?_⟩
      intro x hx
      simp only [List.mem_cons, List.not_mem_nil, or_false] at hx
      rcases hx with rfl | rfl
      · exact ⟨[.val mk.none], by simp, by simp⟩
      · exact ⟨[.val mk.string], by simp, by simp⟩
    · rw [if_neg hi] at h
      obtain ⟨vs, h1, h2⟩ := isub py mk v ho h
      exact ⟨vs, by simpa only [varsI, if_neg hi] using h1, h2⟩
  | .subgroup as, ho, l, h => by
    simp only [flattenI] at h
    obtain ⟨vs, h1, h2, h3⟩ := isubEach py mk as ho.2 h
    exact ⟨vs, by simpa only [varsI] using h1, h2 ho.1, h3⟩
  | .delegate d, ho, l, h => by
    simp only [flattenI] at h
    simpa only [varsI] using isub py mk d ho h
  | .skip, ho, _, _ => ho.elim
theorem isubL (py : Py V) (mk : Marks V) : (os : List (Itm V)) → TreeOkL os → {l : List (Itm V)} → flattenL py mk os = some l →
    ∃ vs, varsIL py mk os = some vs ∧ vs ≠ [] ∧ ∀ x ∈ l, ∃ w ∈ vs, x ∈ w
  | [], _, l, h => by
    simp only [flattenL, Option.some.injEq] at h
    subst h
    exact ⟨[[]], rfl, by simp, by simp⟩
  | o :: os, ho, l, h => by
    simp only [flattenL] at h
    split at h
    · next a b ha hb =>
      cases h
      obtain ⟨vs, h1, h2, h3⟩ := isub py mk o ho.1 ha
      obtain ⟨ws, k1, k2, k3⟩ := isubL py mk os ho.2 hb
      obtain ⟨v0, hv0⟩ := List.exists_mem_of_ne_nil _ h2
      obtain ⟨w0, hw0⟩ := List.exists_mem_of_ne_nil _ k2
      refine ⟨prod vs ws, by simp only [varsIL, h1, k1, prodO], ?_, ?_⟩
      · intro hn
        have := mem_prod hv0 hw0
        rw [hn] at this
        cases this
      · intro x hx
        rcases List.mem_append.1 hx with hx | hx
        · obtain ⟨v, hv, hxv⟩ := h3 x hx
          exact ⟨v ++ w0, mem_prod hv hw0, List.mem_append_left _ hxv⟩
        · obtain ⟨w, hw, hxw⟩ := k3 x hx
          exact ⟨v0 ++ w, mem_prod hv0 hw, List.mem_append_right _ hxw⟩
    · cases h
theorem isubEach (py : Py V) (mk : Marks V) : (os : List (Itm V)) → TreeOkL os → {l : List (Itm V)} → flattenL py mk os = some l →
    ∃ vs, varsEach py mk os = some vs ∧ (os ≠ [] → vs ≠ []) ∧ ∀ x ∈ l, ∃ w ∈ vs, x ∈ w
  | [], _, l, h => by
    simp only [flattenL, Option.some.injEq] at h
    subst h
    exact ⟨[], rfl, fun h => absurd rfl h, by simp⟩
  | o :: os, ho, l, h => by
    simp only [flattenL] at h
    split at h
    · next a b ha hb =>
      cases h
      obtain ⟨vs, h1, h2, h3⟩ := isub py mk o ho.1 ha
      obtain ⟨ws, k1, _, k3⟩ := isubEach py mk os ho.2 hb
      refine ⟨vs ++ ws, by simp only [varsEach, h1, k1], fun _ hn => h2 (List.append_eq_nil_iff.1 hn).1, ?_⟩
      intro x hx
      rcases List.mem_append.1 hx with hx | hx
      · obtain ⟨v, hv, hxv⟩ := h3 x hx
        exact ⟨v, List.mem_append_left _ hv, hxv⟩
      · obtain ⟨w, hw, hxw⟩ := k3 x hx
        exact ⟨w, List.mem_append_right _ hw, hxw⟩
    · cases h
theorem isubNth (py : Py V) (mk : Marks V) : (os : List (Itm V)) → TreeOkL os → (k : Nat) → {l : List (Itm V)} → flattenNth py mk os k = some l →
    ∃ vs, varsAt py mk os k = some vs ∧ vs ≠ [] ∧ ∀ x ∈ l, ∃ w ∈ vs, x ∈ w
  | [], _, _, _, h => by simp [flattenNth] at h
  | o :: _, ho, 0, _, h => by simpa only [varsAt] using isub py mk o ho.1 (by simpa only [flattenNth] using h)
  | _ :: os, ho, k + 1, _, h => by simpa only [varsAt] using isubNth py mk os ho.2 k (by simpa only [flattenNth] using h)
end

theorem varsI_flat {o : Itm V} (py : Py V) (mk : Marks V) (hf : ∀ l, o ≠ .tup l) :
    (if o.isItem then varsI py mk o else some [[o]]) = varsI py mk o := by
  cases o <;> first | rfl | exact absurd rfl (hf _)

theorem variations_flat (py : Py V) (mk : Marks V) : (rule : List (Itm V)) → Flat rule → variations py mk rule = varsIL py mk rule
  | [], _ => rfl
  | o :: rule, hf => by
    simp only [variations, varsIL]
    rw [varsI_flat py mk (fun l => hf o List.mem_cons_self l), variations_flat py mk rule (fun o' h => hf o' (List.mem_cons_of_mem _ h))]

/-! Names -/

theorem mem_insertName (x y : Nat) : (l : List Nat) → (y ∈ insertName x l ↔ y = x ∨ y ∈ l)
  | [] => by simp [insertName]
  | z :: l => by
    unfold insertName
    split
    · simp
    · split
      · next h => subst h; simp
      · simp only [List.mem_cons, mem_insertName x y l]
        constructor
        · rintro (h | h | h)
          · exact .inr (.inl h)
          · exact .inl h
          · exact .inr (.inr h)
        · rintro (h | h | h)
          · exact .inr (.inl h)
          · exact .inl h
          · exact .inr (.inr h)

theorem pairwise_insertName (x : Nat) : (l : List Nat) → l.Pairwise (· < ·) → (insertName x l).Pairwise (· < ·)
  | [], _ => by simp [insertName]
  | z :: l, h => by
    have h' := List.pairwise_cons.1 h
    unfold insertName
    split
    · next hlt =>
      refine List.pairwise_cons.2 ⟨fun y hy => ?_, h⟩
      rcases List.mem_cons.1 hy with rfl | hy
      · exact hlt
      · exact Nat.lt_trans hlt (h'.1 y hy)
    · split
      · exact h
      · next h1 h2 =>
        refine List.pairwise_cons.2 ⟨fun y hy => ?_, pairwise_insertName x l h'.2⟩
        rcases (mem_insertName x y l).1 hy with rfl | hy
        · omega
        · exact h'.1 y hy

theorem mem_sortedSet (y : Nat) : (l : List Nat) → (y ∈ sortedSet l ↔ y ∈ l)
  | [] => by simp [sortedSet]
  | x :: l => by
    have : sortedSet (x :: l) = insertName x (sortedSet l) := rfl
    rw [this, mem_insertName, mem_sortedSet y l, List.mem_cons]

theorem pairwise_sortedSet : (l : List Nat) → (sortedSet l).Pairwise (· < ·)
  | [] => List.Pairwise.nil
  | x :: l => pairwise_insertName x _ (pairwise_sortedSet l)

theorem mem_lexNames (c : Cls D A) (k : Nat) : k ∈ lexNames c ↔ ∃ d, (k, .lexicon d) ∈ c.dict := by
  simp only [lexNames, List.mem_filterMap]
  constructor
  · rintro ⟨⟨k', a⟩, he, h⟩
    cases a with
    | lexicon d => simp only [Option.some.injEq] at h; subst h; exact ⟨d, he⟩
    | other a => simp at h
  · rintro ⟨d, h⟩
    exact ⟨(k, .lexicon d), h, rfl⟩

theorem itemsOf_mem {py : Py V} {mk : Marks V} {rules : D → List (List (Itm V))} : {es : List (Nat × Option (Attr D A))} → {l : List (Itm V)} →
    itemsOf py mk rules es = some l →
    (∀ e ∈ es, ∃ a, lexItems py mk rules e.2 = some a ∧ ∀ x ∈ a, x ∈ l) ∧
    (∀ x ∈ l, ∃ e ∈ es, ∃ a, lexItems py mk rules e.2 = some a ∧ x ∈ a)
  | [], l, h => by
    simp only [itemsOf, Option.some.injEq] at h
    subst h
    exact ⟨by simp, by simp⟩
  | e :: es, l, h => by
    simp only [itemsOf] at h
    split at h
    · next a b ha hb =>
      cases h
      have ih := itemsOf_mem hb
      constructor
      · intro e' he'
        rcases List.mem_cons.1 he' with rfl | he'
        · exact ⟨a, ha, fun x hx => List.mem_append_left _ hx⟩
        · obtain ⟨a', h1, h2⟩ := ih.1 e' he'
          exact ⟨a', h1, fun x hx => List.mem_append_right _ (h2 x hx)⟩
      · intro x hx
        rcases List.mem_append.1 hx with hx | hx
        · exact ⟨e, List.mem_cons_self, a, ha, hx⟩
        · obtain ⟨e', he', h⟩ := ih.2 x hx
          exact ⟨e', List.mem_cons_of_mem _ he', h⟩
    · cases h

theorem flatten_rules {py : Py V} {mk : Marks V} : {rs : List (List (Itm V))} → {l : List (Itm V)} → flattenL py mk (rs.map .tup) = some l →
    (∀ r ∈ rs, ∃ a, flattenL py mk r = some a ∧ ∀ x ∈ a, x ∈ l) ∧
    (∀ x ∈ l, ∃ r ∈ rs, ∃ a, flattenL py mk r = some a ∧ x ∈ a)
  | [], l, h => by
    simp only [List.map_nil, flattenL, Option.some.injEq] at h
    subst h
    exact ⟨by simp, by simp⟩
  | r :: rs, l, h => by
    simp only [List.map_cons, flattenL, flattenI] at h
    split at h
    · next a b ha hb =>
      cases h
      have ih := flatten_rules hb
      constructor
      · intro r' hr
        rcases List.mem_cons.1 hr with rfl | hr
        · exact ⟨a, ha, fun x hx => List.mem_append_left _ hx⟩
        · obtain ⟨a', h1, h2⟩ := ih.1 r' hr
          exact ⟨a', h1, fun x hx => List.mem_append_right _ (h2 x hx)⟩
      · intro x hx
        rcases List.mem_append.1 hx with hx | hx
        · exact ⟨r, List.mem_cons_self, a, ha, hx⟩
        · obtain ⟨e', he', h⟩ := ih.2 x hx
          exact ⟨e', List.mem_cons_of_mem _ he', h⟩
    · cases h

end Parce.Isp

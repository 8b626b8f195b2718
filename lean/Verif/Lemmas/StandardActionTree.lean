import Verif.Lemmas.StandardAction
import Verif.Spec.StandardAction

/-
Lemmas about the hierarchy of standard actions.
-/

namespace Parce.SA

theorem Inv.fields {s : St} (h : Inv s) {i : Nat} (hi : i < s.size) (hb : ¬ Busy s i) :
    ∃ p n, ¬ reserved p n ∧ s.dict p n = some (.act i) ∧ below p i ∧
      s.dict (some i) "_name" = some (.str n) ∧ s.dict (some i) "_parent" = some (parentVal p) := by
  obtain ⟨p, n, h1, h2, h3⟩ := h.objs i hi
  obtain ⟨j, h4, _, h5⟩ := h.key p n _ h1 h2
  injection h4 with h4; subst h4
  rcases h3 with ⟨t, h3⟩ | ⟨t, h3⟩ | h3
  · exact absurd ⟨t, p, n, Or.inl h3⟩ hb
  · exact absurd ⟨t, p, n, Or.inr h3⟩ hb
  · exact ⟨p, n, h1, h2, h5, h3.1, h3.2⟩

theorem Inv.notBusy {s : St} (h : Inv s) {p i : Nat} (hi : i < s.size) (hp : p < i) : ¬ Busy s p := by
  rintro ⟨t, p', n', h1 | h1⟩
  · have := (h.made t p' n' p h1).1; omega
  · have := (h.named t p' n' p h1).1; omega

theorem Inv.chain {s : St} (h : Inv s) : (fuel i : Nat) → i < s.size → ¬ Busy s i → i < fuel →
    ∃ l, SA.chain s fuel i = some l ∧ (∀ b, b ∈ l ↔ Anc s i b) ∧ l.Pairwise (fun x y => Anc s x y) ∧ ∀ b ∈ l, b ≤ i
  | 0, i, _, _, hf => by omega
  | fuel + 1, i, hi, hb, hf => by
    obtain ⟨p, n, _, _, h3, _, h5⟩ := h.fields hi hb
    cases p with
    | none =>
      refine ⟨[i], ?_, ?_, by simp, by simp⟩
      · simp only [SA.chain, h5, parentVal]
      · intro b
        rw [List.mem_singleton]
        constructor
        · rintro rfl; exact .refl _
        · intro h6
          cases h6 with
          | refl => rfl
          | up h7 _ => rw [h5] at h7; simp [parentVal] at h7
    | some p =>
      have hp : p < i := h3
      obtain ⟨l, h6, h7, h8, h9⟩ := h.chain fuel p (by omega) (h.notBusy hi hp) (by omega)
      refine ⟨i :: l, ?_, ?_, ?_, ?_⟩
      · simp only [SA.chain, h5, parentVal, h6, Option.map_some]
      · intro b
        rw [List.mem_cons, h7]
        constructor
        · rintro (rfl | h10)
          · exact .refl _
          · exact .up h5 h10
        · intro h10
          cases h10 with
          | refl => exact Or.inl rfl
          | up h11 h12 =>
            rw [h5] at h11
            injection h11 with h11; injection h11 with h11; subst h11
            exact Or.inr h12
      · exact List.pairwise_cons.2 ⟨fun y hy => .up h5 ((h7 y).1 hy), h8⟩
      · intro b hb
        rcases List.mem_cons.1 hb with rfl | hb
        · exact Nat.le_refl _
        · have := h9 b hb; omega

theorem Inv.ancestors {s : St} (h : Inv s) {i : Nat} (hi : i < s.size) (hb : ¬ Busy s i) :
    ∃ l, SA.ancestors s i = some l ∧ (∀ b, b ∈ l ↔ Anc s i b) ∧ l.Pairwise (fun x y => Anc s x y) ∧ ∀ b ∈ l, b ≤ i :=
  h.chain s.size i hi hb hi

theorem mapM_names {s : St} (f : Nat → String) : (l : List Nat) → (∀ j ∈ l, s.dict (some j) "_name" = some (.str (f j))) →
    l.mapM (fun j => s.dict (some j) "_name") = some (l.map (fun j => .str (f j)))
  | [], _ => rfl
  | j :: l, h => by
    rw [List.mapM_cons, h j (by simp), mapM_names f l (fun k hk => h k (by simp [hk]))]
    rfl

theorem HasPath.name {s : St} (h : Inv s) {i : Nat} {path : List String} (hp : HasPath s i path) : i < s.size ∧ path ≠ [] := by
  cases hp with
  | top hd =>
    obtain ⟨j, h1, h2, _⟩ := h.key none _ _ (by simp [reserved]) hd
    injection h1 with h1; subst h1; exact ⟨h2, by simp⟩
  | sub hp hn1 hn2 hd =>
    obtain ⟨j, h1, h2, _⟩ := h.key _ _ _ (by simp [reserved, hn1, hn2]) hd
    injection h1 with h1; subst h1; exact ⟨h2, by simp⟩

/-- An action has one path. -/
theorem HasPath.unique {s : St} (h : Inv s) {i : Nat} {a : List String} (ha : HasPath s i a) :
    ∀ b, HasPath s i b → a = b := by
  induction ha with
  | top hd =>
    intro b hb
    cases hb with
    | top hd' =>
      obtain ⟨_, rfl⟩ := h.inj _ _ _ _ _ (by simp [reserved]) (by simp [reserved]) hd hd'
      rfl
    | sub hp hn1 hn2 hd' =>
      obtain ⟨h1, _⟩ := h.inj _ _ _ _ _ (by simp [reserved]) (by simp [reserved, hn1, hn2]) hd hd'
      cases h1
  | sub hp hn1 hn2 hd ih =>
    intro b hb
    cases hb with
    | top hd' =>
      obtain ⟨h1, _⟩ := h.inj _ _ _ _ _ (by simp [reserved, hn1, hn2]) (by simp [reserved]) hd hd'
      cases h1
    | sub hp' hn1' hn2' hd' =>
      obtain ⟨h1, rfl⟩ := h.inj _ _ _ _ _ (by simp [reserved, hn1, hn2]) (by simp [reserved, hn1', hn2']) hd hd'
      injection h1 with h1; subst h1
      rw [ih _ hp']

theorem HasPath.ne_nil {s : St} {i : Nat} {a : List String} (h : HasPath s i a) : a ≠ [] := by
  cases h <;> simp

/-- A path leads to one action. -/
theorem HasPath.same {s : St} {i : Nat} {a : List String} (ha : HasPath s i a) :
    ∀ j, HasPath s j a → i = j := by
  induction ha with
  | top hd =>
    intro j hb
    generalize hl : [_] = l at hb
    cases hb with
    | top hd' =>
      injection hl with hl; subst hl
      rw [hd] at hd'; injection hd' with hd'; injection hd'
    | sub hp hn1 hn2 hd' =>
      rename_i q path m
      cases path with
      | nil => exact absurd rfl hp.ne_nil
      | cons x xs => simp at hl
  | sub hp hn1 hn2 hd ih =>
    intro j hb
    rename_i q i' path m
    generalize hl : path ++ [m] = l at hb
    cases hb with
    | top hd' =>
      cases path with
      | nil => exact absurd rfl hp.ne_nil
      | cons x xs => simp at hl
    | sub hp' hn1' hn2' hd' =>
      obtain ⟨rfl, h2⟩ := List.append_inj' hl rfl
      injection h2 with h2; subst h2
      have := ih _ hp'
      subst this
      rw [hd] at hd'; injection hd' with hd'; injection hd'

theorem Inv.path {s : St} (h : Inv s) : (i : Nat) → i < s.size → ¬ Busy s i → ∃ path, HasPath s i path ∧
    ∃ l, SA.ancestors s i = some l ∧ l.mapM (fun j => s.dict (some j) "_name") = some ((path.map Val.str).reverse) := by
  intro i
  have key : ∀ (fuel i : Nat), i < fuel → i < s.size → ¬ Busy s i → ∃ path, HasPath s i path ∧
      ∃ l, SA.chain s fuel i = some l ∧ l.mapM (fun j => s.dict (some j) "_name") = some ((path.map Val.str).reverse) := by
    intro fuel
    induction fuel with
    | zero => intro i hi; omega
    | succ fuel ih =>
      intro i hf hi hb
      obtain ⟨p, n, h1, h2, h3, h4, h5⟩ := h.fields hi hb
      cases p with
      | none =>
        refine ⟨[n], .top h2, [i], ?_, ?_⟩
        · simp only [SA.chain, h5, parentVal]
        · simp [h4]
      | some p =>
        have hp : p < i := h3
        obtain ⟨path, h6, l, h7, h8⟩ := ih p (by omega) (by omega) (h.notBusy hi hp)
        have hr : n ≠ "_name" ∧ n ≠ "_parent" := by
          simp only [reserved, not_or] at h1; exact h1
        refine ⟨path ++ [n], .sub h6 hr.1 hr.2 h2, i :: l, ?_, ?_⟩
        · simp only [SA.chain, h5, parentVal, h7, Option.map_some]
        · simp [List.mapM_cons, h4, h8]
  intro hi hb
  exact key s.size i hi hi hb

/-- Thread 0 makes the toplevel action "A", starts making "A.B" and is interrupted when it has just stored
    the new action (line 112). -/
def half : St :=
  ⟨2, fun p n => if p = some 0 ∧ n = "B" then some (.act 1) else
      if p = some 0 ∧ n = "_parent" then some .nothing else
      if p = some 0 ∧ n = "_name" then some (.str "A") else
      if p = none ∧ n = "A" then some (.act 0) else none,
    some 0, fun t => if t = 0 then .made (some 0) "B" 1 else .idle, [(some 0, "B", .act 1), (none, "A", .act 0)]⟩

theorem half_reach : Reach half := by
  have h0 := Reach.init
  have h1 := h0.step (.call 0 none "A" rfl trivial)
  have h2 := h1.step (.acquire 0 none "A" rfl rfl)
  have h3 := h2.step (.make 0 none "A" rfl rfl)
  have h4 := h3.step (.name 0 none "A" 0 rfl)
  have h5 := h4.step (.parent 0 none "A" 0 rfl)
  have h6 := h5.step (.release 0 none "A" (.act 0) rfl)
  have h7 := h6.step (.call 0 (some 0) "B" rfl Nat.zero_lt_one)
  have h8 := h7.step (.acquire 0 (some 0) "B" rfl rfl)
  have h9 := h8.step (.make 0 (some 0) "B" rfl (by decide))
  have h10 := h9.step (.attr 0 "B" (.act 1) (by decide) (by decide))
  have : half = _ := rfl
  refine cast (congrArg Reach ?_) h10
  simp only [half, St.goto, St.put, St.init, St.mk.injEq, true_and, and_true]
  refine ⟨?_, ?_⟩
  · funext p n; rfl
  · funext t
    by_cases h : t = 0 <;> simp [h]

end Parce.SA

import Verif.Spec.LexiconStore
/-!
# Lemmas on how lexicons are kept
-/
namespace Parce.Lex
set_option linter.unusedSectionVars false
variable {D C A : Type} [DecidableEq D] [DecidableEq C]

theorem getElem?_append_some {X : Type} {l : List X} {i : Nat} {x : X} (m : List X) (h : l[i]? = some x) : (l ++ m)[i]? = some x := by
  have hi : i < l.length := by
    rcases Nat.lt_or_ge i l.length with hi | hi
    · exact hi
    · rw [List.getElem?_eq_none hi] at h; cases h
  rw [List.getElem?_append_left hi]; exact h

theorem getElem?_snoc_inv {X : Type} {l : List X} {i : Nat} {x y : X} (h : (l ++ [y])[i]? = some x) : l[i]? = some x ∨ (i = l.length ∧ x = y) := by
  rcases Nat.lt_trichotomy i l.length with hi | hi | hi
  · rw [List.getElem?_append_left hi] at h; exact Or.inl h
  · subst hi; simp at h; exact Or.inr ⟨rfl, h.symm⟩
  · rw [List.getElem?_eq_none (by simp; omega)] at h; cases h

structure Inv (eqv : A → A → Bool) (s : Store D C A) : Prop where
  vanilla : ∀ d c i, s.vanilla d c = some i ↔ s.objs[i]? = some ⟨d, c, none⟩
  derived : ∀ l a i, s.derived l a = some i → ∃ d c b, s.objs[l]? = some ⟨d, c, none⟩ ∧ s.objs[i]? = some ⟨d, c, some b⟩ ∧ eqv b a = true
  alike : ∀ l a b, eqv a b = true → s.derived l a = s.derived l b
  kept : ∀ d c a (i : Nat), s.objs[i]? = some ⟨d, c, some a⟩ → ∃ l : Nat, s.objs[l]? = some (⟨d, c, none⟩ : Lexicon D C A) ∧ s.derived l a = some i

theorem Inv.init (eqv : A → A → Bool) : Inv (D := D) (C := C) eqv {} := by
  constructor <;> simp

theorem Inv.get {eqv : A → A → Bool} {s : Store D C A} (h : Inv eqv s) (d : D) (c : C) : Inv eqv (s.get d c).1 := by
  unfold Store.get
  cases hv : s.vanilla d c with
  | some i => exact h
  | none =>
    have hnew : ∀ i : Nat, s.objs[i]? ≠ some (⟨d, c, none⟩ : Lexicon D C A) := by
      intro i hi
      rw [(h.vanilla d c i).2 hi] at hv
      cases hv
    constructor
    · intro d' c' i
      dsimp only
      constructor
      · intro hi
        by_cases e : d' = d ∧ c' = c
        · rw [if_pos e] at hi
          cases hi
          rw [e.1, e.2]
          simp
        · rw [if_neg e] at hi
          exact getElem?_append_some _ ((h.vanilla d' c' i).1 hi)
      · intro hi
        rcases getElem?_snoc_inv hi with hi1 | ⟨hi1, hi2⟩
        · have e : ¬ (d' = d ∧ c' = c) := by rintro ⟨rfl, rfl⟩; exact hnew i hi1
          rw [if_neg e]
          exact (h.vanilla d' c' i).2 hi1
        · clear hi
          cases hi2
          simp [hi1]
    · intro l a i hi
      obtain ⟨d', c', b, h1, h2, h3⟩ := h.derived l a i hi
      exact ⟨d', c', b, getElem?_append_some _ h1, getElem?_append_some _ h2, h3⟩
    · exact h.alike
    · intro d' c' a i hi
      rcases getElem?_snoc_inv hi with hi | ⟨_, hi⟩
      · obtain ⟨l, h1, h2⟩ := h.kept d' c' a i hi
        exact ⟨l, getElem?_append_some _ h1, h2⟩
      · cases hi

theorem Inv.derive {eqv : A → A → Bool} (he : IsEqv eqv) {s : Store D C A} (h : Inv eqv s) {l : Nat} {o : Lexicon D C A}
    (hl : s.objs[l]? = some ⟨o.descriptor, o.language, none⟩) (a : A) : Inv eqv (s.derive eqv l o a).1 := by
  unfold Store.derive
  cases hv : s.derived l a with
  | some i => exact h
  | none =>
    constructor
    · intro d c i
      rw [h.vanilla]
      constructor
      · exact getElem?_append_some _
      · intro hi
        rcases getElem?_snoc_inv hi with hi | ⟨_, hi⟩
        · exact hi
        · cases hi
    · intro l' a' i hi
      dsimp only at hi
      by_cases e : l' = l ∧ eqv a a' = true
      · rw [if_pos e] at hi
        cases hi
        exact ⟨_, _, a, by rw [e.1]; exact getElem?_append_some _ hl, by simp, e.2⟩
      · rw [if_neg e] at hi
        obtain ⟨d', c', b, h1, h2, h3⟩ := h.derived l' a' i hi
        exact ⟨d', c', b, getElem?_append_some _ h1, getElem?_append_some _ h2, h3⟩
    · intro l' x y hxy
      dsimp only
      by_cases e : l' = l ∧ eqv a x = true
      · rw [if_pos e, if_pos ⟨e.1, he.trans _ _ _ e.2 hxy⟩]
      · rw [if_neg e, if_neg (fun h' => e ⟨h'.1, he.trans _ _ _ h'.2 (he.symm _ _ hxy)⟩)]
        exact h.alike l' x y hxy
    · intro d' c' x i hi
      dsimp only at hi ⊢
      rcases getElem?_snoc_inv hi with hi | ⟨hi1, hi2⟩
      · obtain ⟨l', h1, h2⟩ := h.kept d' c' x i hi
        refine ⟨l', getElem?_append_some _ h1, ?_⟩
        rw [if_neg]
        · exact h2
        · rintro ⟨rfl, e⟩
          rw [h.alike _ _ _ e, h2] at hv
          cases hv
      · clear hi
        subst hi1
        cases hi2
        exact ⟨l, getElem?_append_some _ hl, by rw [if_pos ⟨rfl, he.refl a⟩]⟩

theorem get_spec (s : Store D C A) (d : D) (c : C) {eqv : A → A → Bool} (h : Inv eqv s) :
    (s.get d c).1.objs[(s.get d c).2]? = some ⟨d, c, none⟩ := by
  have h1 := h.get d c
  unfold Store.get at h1 ⊢
  cases hv : s.vanilla d c with
  | some i => exact (h.vanilla d c i).1 hv
  | none => simp

theorem Inv.call {eqv : A → A → Bool} (he : IsEqv eqv) {s : Store D C A} (h : Inv eqv s) (l : Nat) (a : Option A) : Inv eqv (s.call eqv l a).1 := by
  unfold Store.call
  cases a with
  | none => exact h
  | some a =>
    cases hl : s.objs[l]? with
    | none => exact h
    | some o =>
      dsimp only
      cases ho : o.arg with
      | none => exact h.derive he (by rw [hl, ← ho]) a
      | some _ => exact (h.get _ _).derive he (get_spec s _ _ h) a

theorem Later.inv {eqv : A → A → Bool} (he : IsEqv eqv) {s s' : Store D C A} (h : Inv eqv s) (hl : Later eqv s s') : Inv eqv s' := by
  induction hl with
  | refl => exact h
  | get d c _ ih => exact ih.get d c
  | call l a _ ih => exact ih.call he l a

theorem Store.Ok.inv {eqv : A → A → Bool} (he : IsEqv eqv) {s : Store D C A} (h : s.Ok eqv) : Inv eqv s := Later.inv he (Inv.init eqv) h

/-- What is there stays. -/
structure Keeps (s s' : Store D C A) : Prop where
  objs : ∀ (i : Nat) o, s.objs[i]? = some o → s'.objs[i]? = some o
  vanilla : ∀ d c i, s.vanilla d c = some i → s'.vanilla d c = some i
  derived : ∀ l a i, s.derived l a = some i → s'.derived l a = some i

theorem Keeps.refl (s : Store D C A) : Keeps s s := ⟨fun _ _ h => h, fun _ _ _ h => h, fun _ _ _ h => h⟩

theorem Keeps.trans {s t u : Store D C A} (h : Keeps s t) (h' : Keeps t u) : Keeps s u :=
  ⟨fun i o e => h'.objs i o (h.objs i o e), fun d c i e => h'.vanilla d c i (h.vanilla d c i e), fun l a i e => h'.derived l a i (h.derived l a i e)⟩

theorem keeps_get (s : Store D C A) (d : D) (c : C) : Keeps s (s.get d c).1 := by
  unfold Store.get
  cases hv : s.vanilla d c with
  | some i => exact Keeps.refl s
  | none =>
    refine ⟨fun i o h => getElem?_append_some _ h, ?_, fun _ _ _ h => h⟩
    intro d' c' i h
    dsimp only
    rw [if_neg]
    · exact h
    · rintro ⟨rfl, rfl⟩; rw [hv] at h; cases h

theorem keeps_derive {eqv : A → A → Bool} {s : Store D C A} (h : Inv eqv s) (l : Nat) (o : Lexicon D C A) (a : A) : Keeps s (s.derive eqv l o a).1 := by
  unfold Store.derive
  cases hv : s.derived l a with
  | some i => exact Keeps.refl s
  | none =>
    refine ⟨fun i o h => getElem?_append_some _ h, fun _ _ _ h => h, ?_⟩
    intro l' a' i hi
    dsimp only
    rw [if_neg]
    · exact hi
    · rintro ⟨rfl, e⟩; rw [h.alike _ _ _ e, hi] at hv; cases hv

theorem keeps_call {eqv : A → A → Bool} {s : Store D C A} (h : Inv eqv s) (l : Nat) (a : Option A) : Keeps s (s.call eqv l a).1 := by
  unfold Store.call
  cases a with
  | none => exact Keeps.refl s
  | some a =>
    cases hl : s.objs[l]? with
    | none => exact Keeps.refl s
    | some o =>
      dsimp only
      cases ho : o.arg with
      | none => exact keeps_derive h l o a
      | some _ => exact (keeps_get s _ _).trans (keeps_derive (h.get _ _) _ o a)

theorem Later.keeps {eqv : A → A → Bool} (he : IsEqv eqv) {s s' : Store D C A} (h : Inv eqv s) (hl : Later eqv s s') : Keeps s s' := by
  induction hl with
  | refl => exact Keeps.refl s
  | get d c _ ih => exact ih.trans (keeps_get _ d c)
  | call l a hl ih => exact ih.trans (keeps_call (hl.inv he h) l a)

/-- The vanilla lexicon of a lexicon, once it is there. -/
theorem Inv.home {eqv : A → A → Bool} {s : Store D C A} (h : Inv eqv s) {l : Nat} {o : Lexicon D C A} (hl : s.objs[l]? = some o) :
    ∃ v, s.vanilla o.descriptor o.language = some v ∧ s.objs[v]? = some ⟨o.descriptor, o.language, none⟩ := by
  obtain ⟨d, c, arg⟩ := o
  cases arg with
  | none => exact ⟨l, (h.vanilla d c l).2 hl, hl⟩
  | some a =>
    obtain ⟨v, hv, _⟩ := h.kept d c a l hl
    exact ⟨v, (h.vanilla d c v).2 hv, hv⟩

/-- A call derives from the vanilla lexicon. -/
theorem Inv.call_eq {eqv : A → A → Bool} {s : Store D C A} (h : Inv eqv s) {l v : Nat} {o : Lexicon D C A} (hl : s.objs[l]? = some o)
    (hv : s.vanilla o.descriptor o.language = some v) (a : A) : s.call eqv l (some a) = s.derive eqv v o a := by
  unfold Store.call
  simp only [hl]
  cases ho : o.arg with
  | none =>
    have : s.vanilla o.descriptor o.language = some l := (h.vanilla _ _ l).2 (by rw [hl, ← ho])
    rw [hv] at this
    cases this
    rfl
  | some _ =>
    unfold Store.get
    simp only [hv]

theorem derive_congr {eqv : A → A → Bool} (s : Store D C A) (v : Nat) {o o' : Lexicon D C A} (hd : o.descriptor = o'.descriptor)
    (hc : o.language = o'.language) (a : A) : s.derive eqv v o a = s.derive eqv v o' a := by
  unfold Store.derive
  rw [hd, hc]

/-- What a call gives. -/
theorem derive_spec {eqv : A → A → Bool} (he : IsEqv eqv) {s : Store D C A} (h : Inv eqv s) {v : Nat} {o : Lexicon D C A}
    (hv : s.objs[v]? = some ⟨o.descriptor, o.language, none⟩) (a : A) :
    (s.derive eqv v o a).1.derived v a = some (s.derive eqv v o a).2 ∧
    ∃ b, (s.derive eqv v o a).1.objs[(s.derive eqv v o a).2]? = some ⟨o.descriptor, o.language, some b⟩ ∧ eqv b a = true := by
  unfold Store.derive
  cases hd : s.derived v a with
  | some i =>
    refine ⟨hd, ?_⟩
    obtain ⟨d', c', b, h1, h2, h3⟩ := h.derived v a i hd
    rw [hv] at h1
    cases h1
    exact ⟨b, h2, h3⟩
  | none => exact ⟨by simp [he.refl], a, by simp, he.refl a⟩

theorem derive_old {eqv : A → A → Bool} {s : Store D C A} {v i : Nat} (o : Lexicon D C A) {a : A} (h : s.derived v a = some i) :
    s.derive eqv v o a = (s, i) := by
  unfold Store.derive
  rw [h]

end Parce.Lex

import Verif.Lemmas.LexiconStore
/-!
# C89: identity and equality of lexicons
-/
namespace Parce.Lex
set_option linter.unusedSectionVars false
variable {D C A : Type} [DecidableEq D] [DecidableEq C]

/-- **C89.** Access through a class gives a lexicon without argument, of that class. Whatever is done in between, it gives the same object
    again, and the store does not change. -/
theorem C89_access {eqv : A → A → Bool} (he : IsEqv eqv) {s s' : Store D C A} (h : s.Ok eqv) (d : D) (c : C) (hl : Later eqv (s.get d c).1 s') :
    s'.objs[(s.get d c).2]? = some ⟨d, c, none⟩ ∧ s'.get d c = (s', (s.get d c).2) := by
  have hi := h.inv he
  have h1 := get_spec s d c hi
  have h2 := (hl.keeps he (hi.get d c)).objs _ _ h1
  refine ⟨h2, ?_⟩
  have h3 := ((hl.inv he (hi.get d c)).vanilla d c _).2 h2
  unfold Store.get at h3 ⊢
  rw [h3]

/-- **C89.** Other classes or other descriptors give other lexicons. -/
theorem C89_apart {eqv : A → A → Bool} (he : IsEqv eqv) {s s' : Store D C A} (h : s.Ok eqv) {d d' : D} {c c' : C}
    (hl : Later eqv (s.get d c).1 s') (hne : (d, c) ≠ (d', c')) : (s'.get d' c').2 ≠ (s.get d c).2 := by
  intro e
  have hi := h.inv he
  have h1 := (C89_access he h d c hl).1
  have h2 := get_spec s' d' c' (hl.inv he (hi.get d c))
  have h3 := (keeps_get s' d' c').objs _ _ h1
  rw [← e, h2] at h3
  cases h3
  exact hne rfl

/-- **C89.** A call with None gives the lexicon itself. -/
theorem C89_none (eqv : A → A → Bool) (s : Store D C A) (l : Nat) : s.call eqv l none = (s, l) := rfl

/-- **C89.** A call with an argument gives a lexicon with an argument that is equal to it, of the same descriptor and the same language;
    it is another object than the lexicon that was called, if that has no argument or another one. -/
theorem C89_derived {eqv : A → A → Bool} (he : IsEqv eqv) {s : Store D C A} (h : s.Ok eqv) {l : Nat} {o : Lexicon D C A}
    (hl : s.objs[l]? = some o) (a : A) :
    ∃ b, (s.call eqv l (some a)).1.objs[(s.call eqv l (some a)).2]? = some ⟨o.descriptor, o.language, some b⟩ ∧ eqv b a = true ∧
      ((∀ b, o.arg = some b → eqv b a = false) → (s.call eqv l (some a)).2 ≠ l) := by
  have hi := h.inv he
  obtain ⟨v, hv, hv'⟩ := hi.home hl
  have e := hi.call_eq hl hv a
  obtain ⟨_, b, h1, h2⟩ := derive_spec he hi hv' a
  refine ⟨b, by rw [e]; exact h1, h2, ?_⟩
  intro hne el
  have h3 := (keeps_call (eqv := eqv) hi l (some a)).objs _ _ hl
  rw [← e] at h1
  rw [el, h3] at h1
  have h4 : o.arg = some b := congrArg Lexicon.arg (Option.some.inj h1)
  rw [hne b h4] at h2
  cases h2

/-- **C89.** The derived lexicon is kept: whatever is done in between, a call with an equal argument, of that lexicon or of any lexicon of
    the same descriptor and language, gives the same object again. -/
theorem C89_kept {eqv : A → A → Bool} (he : IsEqv eqv) {s s' : Store D C A} (h : s.Ok eqv) {l m : Nat} {o o' : Lexicon D C A}
    (hl : s.objs[l]? = some o) {a b : A} (hab : eqv a b = true) (hla : Later eqv (s.call eqv l (some a)).1 s')
    (hm : s'.objs[m]? = some o') (ho : o'.eq o = true) : s'.call eqv m (some b) = (s', (s.call eqv l (some a)).2) := by
  have hi := h.inv he
  obtain ⟨v, hv, hv'⟩ := hi.home hl
  have e := hi.call_eq hl hv a
  have h1 := (derive_spec he hi hv' a).1
  rw [← e] at h1
  have hk := hla.keeps he (hi.call he l (some a))
  have hi' := hla.inv he (hi.call he l (some a))
  have h2 := hk.derived _ _ _ h1
  rw [hi'.alike _ _ _ hab] at h2
  simp [Lexicon.eq] at ho
  have h3 : s'.vanilla o'.descriptor o'.language = some v := by
    rw [ho.1, ho.2]
    exact hk.vanilla _ _ _ ((keeps_call hi l (some a)).vanilla _ _ _ hv)
  rw [hi'.call_eq hm h3 b]
  exact derive_old o' h2

/-- **C89.** The argument of a derived lexicon is replaced: `lexicon(a)(b)` is `lexicon(b)`. -/
theorem C89_replaced {eqv : A → A → Bool} (he : IsEqv eqv) {s : Store D C A} (h : s.Ok eqv) {l : Nat} {o : Lexicon D C A}
    (hl : s.objs[l]? = some o) (a b : A) :
    (s.call eqv l (some a)).1.call eqv (s.call eqv l (some a)).2 (some b) = (s.call eqv l (some a)).1.call eqv l (some b) := by
  have hi := h.inv he
  obtain ⟨v, hv, _⟩ := hi.home hl
  obtain ⟨x, h1, _, _⟩ := C89_derived he h hl a
  have hk := keeps_call (eqv := eqv) hi l (some a)
  have hi' := hi.call he l (some a)
  have hv' := hk.vanilla _ _ _ hv
  rw [hi'.call_eq h1 hv' b, hi'.call_eq (hk.objs _ _ hl) hv' b]
  exact derive_congr _ v rfl rfl b

/-- **C89.** Other arguments give other lexicons. -/
theorem C89_distinct {eqv : A → A → Bool} (he : IsEqv eqv) {s : Store D C A} (h : s.Ok eqv) {l : Nat} {o : Lexicon D C A}
    (hl : s.objs[l]? = some o) {a b : A} (hab : eqv a b = false) :
    ((s.call eqv l (some a)).1.call eqv l (some b)).2 ≠ (s.call eqv l (some a)).2 := by
  intro e
  obtain ⟨x, h1, hx, _⟩ := C89_derived he h hl a
  have h' : (s.call eqv l (some a)).1.Ok eqv := .call l (some a) h
  have hl' := (keeps_call (eqv := eqv) (h.inv he) l (some a)).objs _ _ hl
  obtain ⟨y, h2, hy, _⟩ := C89_derived he h' hl' b
  have h3 := (keeps_call (eqv := eqv) (h'.inv he) l (some b)).objs _ _ h1
  rw [e, h3] at h2
  cases h2
  have := he.trans _ _ _ (he.symm _ _ hx) hy
  rw [hab] at this
  cases this

/-- **C89.** `==` is an equivalence, `!=` is its opposite, and derived lexicons are equal to the lexicon that was called. -/
theorem C89_equal (x y z : Lexicon D C A) :
    x.eq x = true ∧ (x.eq y = true → y.eq x = true) ∧ (x.eq y = true → y.eq z = true → x.eq z = true) ∧ x.ne y = !x.eq y ∧
    (∀ arg, x.eq ⟨x.descriptor, x.language, arg⟩ = true) := by
  refine ⟨by simp [Lexicon.eq], ?_, ?_, ?_, by simp [Lexicon.eq]⟩
  · simp only [Lexicon.eq, decide_eq_true_eq]
    rintro ⟨h1, h2⟩
    exact ⟨h1.symm, h2.symm⟩
  · simp only [Lexicon.eq, decide_eq_true_eq]
    rintro ⟨h1, h2⟩ ⟨h3, h4⟩
    exact ⟨h1.trans h3, h2.trans h4⟩
  · simp only [Lexicon.ne, Lexicon.eq]
    by_cases h1 : x.descriptor = y.descriptor <;> by_cases h2 : x.language = y.language <;> simp [h1, h2]

/-- Python's equality of numbers, truth values and texts is an equivalence. -/
theorem Val.isEqv : IsEqv Val.eqv := by
  constructor
  · intro a; cases a <;> simp [Val.eqv]
  · intro a b; cases a <;> cases b <;> simp [Val.eqv] <;> grind
  · intro a b c; cases a <;> cases b <;> cases c <;> simp [Val.eqv] <;> grind

/-- **C89, violated.** The argument of the derived lexicon is not always the one that was given: after `lexicon(1)`, `lexicon(True)` has the
    argument 1. -/
theorem C89_argument_violated : ∃ (s : Store Nat Nat Val) (l : Nat), s.Ok Val.eqv ∧
    ((s.call Val.eqv l (some (.bool true))).1.objs[(s.call Val.eqv l (some (.bool true))).2]?).bind (·.arg) = some (.num 1) := by
  refine ⟨_, 0, .call 0 (some (.num 1)) (.get 5 6 (.refl {})), ?_⟩
  rfl

/-- **C89, violated.** Equal lexicons do not have equal hashes, as Python demands: the hash is that of the object (`object.__hash__`, here
    the number), and there are two objects that are equal. -/
theorem C89_hash_violated : ∃ (s : Store Nat Nat Val) (i j : Nat) (x y : Lexicon Nat Nat Val), s.Ok Val.eqv ∧ s.objs[i]? = some x ∧ s.objs[j]? = some y ∧
    x.eq y = true ∧ i ≠ j :=
  ⟨_, 0, 1, _, _, .call 0 (some (.num 1)) (.get 5 6 (.refl {})), rfl, rfl, rfl, by decide⟩

/-- A lexicon, two derived lexicons, and one of another class. -/
example : ∃ s : Store Nat Nat Val, s.Ok Val.eqv ∧ s.objs = [⟨5, 6, none⟩, ⟨5, 6, some (.num 1)⟩, ⟨5, 7, none⟩, ⟨5, 6, some (.str "a")⟩] ∧
    Val.eqv (.num 1) (.str "a") = false :=
  ⟨_, .call 1 (some (.str "a")) (.get 5 7 (.call 0 (some (.num 1)) (.get 5 6 (.refl {})))), rfl, rfl⟩

end Parce.Lex

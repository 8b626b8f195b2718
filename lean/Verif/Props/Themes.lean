import Verif.Lemmas.Themes

/-!
C105: themes that are added to formatters, removed and copied.
-/

namespace Parce.Thm

variable {T X F G A R : Type} [DecidableEq G]

/-- A small theme: the formats are numbers, 0 is no format; the theme is the format of the window. -/
def exThemes : Themes Nat Nat Nat Unit where
  textformat t a := t * a
  baseformat t _ := t
  window := ()
  unparsed := 0
  add a b := a + b

/-- The factory: 0 gives None. -/
def exFactory : Nat → Nat → Option Nat := fun _ x => if x = 0 then none else some x

/-- A formatter with a default theme and one for language 7. -/
def exState : State Nat Nat Nat Nat Nat Unit :=
  addTheme exThemes 0 3 (some 7) true (addTheme exThemes 0 2 none false ⟨exFactory, fun _ => []⟩)

theorem exState_reach : Reach exThemes exFactory exState := .add 0 3 (some 7) true (.add 0 2 none false .start)

/-- C105. After adding a theme for a language, that is the theme of the language, and its formats are
used, with the base format before them if asked for. All other languages and formatters have what they
had. -/
theorem C105_add (th : Themes T X A R) (factory : Nat → X → Option F) (s : State T X F G A R)
    (h : Reach th factory s) (i : Nat) (t : T) (lang : Option G) (addBase : Bool) :
    shows i lang (addTheme th i t lang addBase s) =
      ⟨some t, fun a => factory i (if addBase then th.add (th.baseformat t th.window) (th.textformat t a) else th.textformat t a),
        fun r => factory i (th.baseformat t r)⟩ ∧
    ∀ j lang', (j, lang') ≠ (i, lang) → shows j lang' (addTheme th i t lang addBase s) = shows j lang' s := by
  have hi := reach_inv h
  constructor
  · simp only [shows, getTheme, textformat, baseformat, addTheme, State.set, if_true, look_put, hi.same,
      Option.bind_some, mkCache]
    congr 1
    funext a
    cases addBase <;> rfl
  · intro j lang' hne
    by_cases hj : j = i
    · subst hj
      have hl : lang' ≠ lang := fun e => hne (by rw [e])
      simp only [shows, getTheme, textformat, baseformat, addTheme, State.set, if_true, look_put, if_neg hl]
    · simp only [shows, getTheme, textformat, baseformat, addTheme, State.set, if_neg hj]

example : Reach exThemes exFactory exState ∧ (shows 0 (some 7) exState).theme = some 3 ∧
    (shows 0 (some 7) exState).textformat 4 = some 15 := ⟨exState_reach, rfl, rfl⟩

/-- C105. Removing a theme raises KeyError exactly when the language has no theme; else the language has
no theme any more, and all other languages and formatters have what they had. -/
theorem C105_remove (th : Themes T X A R) (factory : Nat → X → Option F) (s : State T X F G A R)
    (h : Reach th factory s) (i : Nat) (lang : Option G) :
    (removeTheme i lang s = none ↔ getTheme i lang s = none) ∧
    ∀ s', removeTheme i lang s = some s' →
      shows i lang s' = ⟨none, fun _ => none, fun _ => none⟩ ∧
      ∀ j lang', (j, lang') ≠ (i, lang) → shows j lang' s' = shows j lang' s := by
  have hi := reach_inv h
  constructor
  · unfold removeTheme getTheme
    rw [Option.map_eq_none_iff, del_none]
    cases hl : look lang (s.caches i) with
    | none => simp
    | some c =>
      obtain ⟨t, b, hc⟩ := hi.made i (lang, c) (look_mem _ _ _ hl)
      simp only at hc
      rw [hc]
      simp [mkCache]
  · intro s' hr
    unfold removeTheme at hr
    cases hd : del lang (s.caches i) with
    | none => rw [hd] at hr; cases hr
    | some d =>
      rw [hd] at hr
      cases hr
      obtain ⟨-, h2⟩ := del_some lang _ _ (hi.once i) hd
      constructor
      · simp only [shows, getTheme, textformat, baseformat, State.set, if_true, h2 lang, Option.bind_none]
      · intro j lang' hne
        by_cases hj : j = i
        · subst hj
          have hl : lang' ≠ lang := fun e => hne (by rw [e])
          simp only [shows, getTheme, textformat, baseformat, State.set, if_true, h2 lang', if_neg hl]
        · simp only [shows, getTheme, textformat, baseformat, State.set, if_neg hj]

example : (removeTheme 0 (some 7) exState).isSome = true ∧ (removeTheme 0 (some 8) exState).isSome = false := by decide

/-- C105 (partial: the other formatter must be another one, see `C105_copy_violated`). After copying the
themes, both formatters have the same theme for every language; no other formatter changes. -/
theorem C105_copy_partial (th : Themes T X A R) (factory : Nat → X → Option F) (s : State T X F G A R)
    (h : Reach th factory s) (i j : Nat) (hij : i ≠ j) :
    (copyThemes th i j s).2 = false ∧
    (∀ lang, getTheme i lang (copyThemes th i j s).1 = getTheme j lang s) ∧
    (∀ k lang, k ≠ i → shows k lang (copyThemes th i j s).1 = shows k lang s) := by
  have hi := reach_inv h
  have h1 := inv_set hi i [] (List.nil_sublist _)
  obtain ⟨g1, -, g3, g4, g5⟩ := copy_loop th factory i j _ _ h1 (h1.once j) (h1.made j)
  have hj : (s.set i []).caches j = s.caches j := by simp [State.set, Ne.symm hij]
  have hii : (s.set i []).caches i = [] := by simp [State.set]
  refine ⟨g1, ?_, ?_⟩
  · intro lang
    unfold getTheme copyThemes
    cases hl : look lang ((s.set i []).caches j) with
    | none =>
      rw [g5 lang hl, hii]
      rw [hj] at hl
      rw [hl]; rfl
    | some c =>
      obtain ⟨t, ht, hl'⟩ := g4 lang c hl
      rw [hl']
      rw [hj] at hl
      rw [hl, Option.bind_some, Option.bind_some, ht]
      rfl
  · intro k lang hk
    simp only [shows, getTheme, textformat, baseformat, copyThemes, g3 k hk]
    simp [State.set, hk]

/-- C105 (partial: as above, and the factory gives something for the base format of every theme). If both
have the same factory, then also all formats are the same after copying. -/
theorem C105_copy_formats_partial (th : Themes T X A R) (factory : Nat → X → Option F) (s : State T X F G A R)
    (h : Reach th factory s) (i j : Nat) (hij : i ≠ j) (hf : factory i = factory j)
    (hb : ∀ t, (factory i (th.baseformat t th.window)).isSome) (lang : Option G) :
    shows i lang (copyThemes th i j s).1 = shows j lang s := by
  have hi := reach_inv h
  have h1 := inv_set hi i [] (List.nil_sublist _)
  obtain ⟨-, -, -, g4, g5⟩ := copy_loop th factory i j _ _ h1 (h1.once j) (h1.made j)
  have hj : (s.set i []).caches j = s.caches j := by simp [State.set, Ne.symm hij]
  have hii : (s.set i []).caches i = [] := by simp [State.set]
  unfold shows getTheme textformat baseformat copyThemes
  cases hl : look lang ((s.set i []).caches j) with
  | none =>
    rw [g5 lang hl, hii]
    rw [hj] at hl
    rw [hl]; rfl
  | some c =>
    obtain ⟨t, ht, hl'⟩ := g4 lang c hl
    rw [hl']
    obtain ⟨t', b, hc⟩ := h1.made j (lang, c) (look_mem _ _ _ hl)
    simp only at hc
    have htt : t' = t := by rw [hc] at ht; simpa [mkCache] using ht
    have hbb : c.base.isSome = b := by
      rw [hc]
      cases b
      · rfl
      · simp only [mkCache, if_true]; rw [← hf]; exact hb t'
    rw [hj] at hl
    rw [hl, hbb, hf, ← htt, ← hc]

example : Reach exThemes exFactory exState ∧ exFactory 1 = exFactory 0 ∧ (0 : Nat) ≠ 1 ∧
    (∀ t, (some (exThemes.baseformat t ())).isSome) := ⟨exState_reach, rfl, by decide, fun _ => rfl⟩

/-- C105 is violated: copying the themes of a formatter to itself removes all of them, whatever they
were. -/
theorem C105_copy_violated (th : Themes T X A R) (s : State T X F G A R) (i : Nat) (lang : Option G) :
    getTheme i lang (copyThemes th i i s).1 = none ∧ getTheme 0 none exState = some 2 := by
  refine ⟨?_, rfl⟩
  simp [copyThemes, State.set, copyLoop, getTheme, look]

/-- C105 is violated: when the factory gives None for the base format, the copy does not add the base
format. Here 10 is a base format that the factory gives None for. -/
theorem C105_base_violated :
    ∃ (factory : Nat → Nat → Option Nat) (s : State Nat Nat Nat Nat Nat Unit), Reach exThemes factory s ∧
      factory 0 = factory 1 ∧ textformat 0 none 3 s = some 40 ∧ textformat 1 none 3 (copyThemes exThemes 1 0 s).1 = some 30 :=
  ⟨fun _ x => if x = 10 then none else some x, addTheme exThemes 0 10 none true ⟨_, fun _ => []⟩,
    .add 0 10 none true .start, rfl, rfl, rfl⟩

/-- C105 is violated: copying from a formatter without theme (such as `SimpleFormatter`) raises an
exception, after the themes were removed. -/
theorem C105_simple_violated (th : Themes T X A R) (s : State T X F G A R) (i j : Nat) (hij : i ≠ j)
    (c : Cache T F A R) (hc : c.theme = none) (hs : s.caches j = [(none, c)]) (lang : Option G) :
    (copyThemes th i j s).2 = true ∧ getTheme i lang (copyThemes th i j s).1 = none := by
  have hj : (s.set i []).caches j = s.caches j := by simp [State.set, Ne.symm hij]
  unfold copyThemes
  simp only [hj, hs, copyLoop, hc]
  exact ⟨trivial, by simp [getTheme, State.set, look]⟩

example : (⟨none, none, fun _ => some 1, fun _ => none, none⟩ : Cache Nat Nat Nat Unit).theme = none := rfl

end Parce.Thm

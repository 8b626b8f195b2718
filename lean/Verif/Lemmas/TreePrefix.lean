import Verif.Lemmas.CssEnd
/-!
# The children of the root context that are there stay there
-/
namespace Parce
variable {α L A ρ : Type}

/-- The frame of the root. -/
def lowFrame : Frame α L A → List (Frame α L A) → Frame α L A
  | c, [] => c
  | _, f :: fs => lowFrame f fs

/-- The root has these children, and maybe more. -/
def Has (root : L) (ks : List (Node α L A)) (b : BState α L A) : Prop := ∃ ms, lowFrame b.cur b.up = ⟨root, ks ++ ms⟩

variable {root : L} {ks : List (Node α L A)}

theorem Has.more {f : Frame α L A} {fs : List (Frame α L A)} {x : List (Node α L A)} (h : Has root ks ⟨f, fs⟩) : Has root ks ⟨⟨f.lex, f.kids ++ x⟩, fs⟩ := by
  obtain ⟨ms, h⟩ := h
  cases fs with
  | nil =>
    simp only [lowFrame] at h
    subst h
    exact ⟨ms ++ x, by simp [lowFrame]⟩
  | cons g gs => exact ⟨ms, h⟩

theorem Has.leave {b : BState α L A} (h : Has root ks b) : Has root ks b.leave := by
  obtain ⟨c, up⟩ := b
  cases up with
  | nil => exact h
  | cons f fs => exact Has.more (f := f) (fs := fs) h

theorem Has.leaves (n : Nat) : ∀ {b : BState α L A}, Has root ks b → Has root ks (b.leaves n) := by
  induction n with
  | zero => intro b h; exact h
  | succ n ih => intro b h; exact ih h.leave

theorem Has.enters (ls : List L) : ∀ {b : BState α L A}, Has root ks b → Has root ks (ls.foldl BState.enter b) := by
  induction ls with
  | nil => intro b h; exact h
  | cons l ls ih => intro b h; exact ih (b := b.enter l) h

theorem Has.le {b : BState α L A} {m n : Nat} (h : Has root ks (b.leaves m)) (hmn : m ≤ n) : Has root ks (b.leaves n) := by
  rw [show n = m + (n - m) by omega, leaves_add]
  exact h.leaves _

theorem add_fpop (f : Factory L) (t : Target L) : f.fpop ≤ (f.add t).fpop := by
  unfold Factory.add
  split
  · exact Nat.le_refl _
  · split
    · exact Nat.le_refl _
    · exact Nat.le_add_right _ _

theorem Has.emit [DecidableEq α] {lang : Lang α L A ρ} {fac : Factory L} {tok : Tok α L A ρ} {b : BState α L A} (h : Has root ks (b.leaves fac.fpop)) :
    Has root ks (((emit lang fac tok).2.foldl BState.event b).leaves (emit lang fac tok).1.fpop) := by
  unfold Parce.emit
  split
  · exact h
  · simp only [List.foldl_cons, List.foldl_nil]
    refine Has.leaves _ ?_
    unfold BState.event
    simp only
    refine Has.more (f := (b.target _).cur) (fs := (b.target _).up) ?_
    show Has root ks (b.target fac.get.1)
    unfold Factory.get
    split
    · exact Has.enters _ h
    · next hne =>
      simp only [not_or, ne_eq, Decidable.not_not] at hne
      rw [hne.1] at h
      exact h

theorem Has.step [DecidableEq α] {lang : Lang α L A ρ} {t : List α} {s s' : LState L ρ} {ev : List (Event α L A)} (hs : lexStep lang t s = some (s', ev))
    {b : BState α L A} (h : Has root ks (b.leaves s.fac.fpop)) : Has root ks ((ev.foldl BState.event b).leaves s'.fac.fpop) := by
  unfold lexStep at hs
  split at hs
  · cases hs
  · split at hs
    · cases hs
    · split at hs
      · split at hs
        · cases hs; exact h.emit
        · cases hs; exact h
      · simp only at hs
        split at hs
        · split at hs
          · cases hs
            exact Has.emit (h.le (add_fpop _ _))
          · cases hs
            exact (Has.emit h).le (add_fpop _ _)
        · split at hs
          · cases hs
            exact h.le (add_fpop _ _)
          · cases hs
            exact h.le (add_fpop _ _)

theorem Has.run [DecidableEq α] {lang : Lang α L A ρ} {t : List α} : ∀ (n : Nat) (s : LState L ρ) (b : BState α L A), Has root ks (b.leaves s.fac.fpop) →
    ∃ k, Has root ks (((lexRun lang t n s).1.foldl BState.event b).leaves k)
  | 0, s, b, h => ⟨_, h⟩
  | n + 1, s, b, h => by
    unfold lexRun
    split
    · exact ⟨_, h⟩
    · next s' ev hs =>
      obtain ⟨k, hk⟩ := Has.run n s' _ (h.step hs)
      refine ⟨k, ?_⟩
      simp only [List.foldl_append]
      exact hk

theorem Has.close {b : BState α L A} (h : Has root ks b) : ∃ ms, b.close = .ctx root (ks ++ ms) := by
  obtain ⟨c, up⟩ := b
  have key : ∀ (up : List (Frame α L A)) (c : Frame α L A), Has root ks ⟨c, up⟩ → ∃ ms, (⟨c, up⟩ : BState α L A).close = .ctx root (ks ++ ms) := by
    intro up
    induction up with
    | nil =>
      rintro c ⟨ms, h⟩
      simp only [lowFrame] at h
      subst h
      exact ⟨ms, rfl⟩
    | cons f fs ih =>
      intro c h
      have hh := Has.leave (b := ⟨c, f :: fs⟩) h
      simp only [BState.leave] at hh
      exact ih _ hh
  exact key up c h

/-- When the lexer has made these children of the root, and nothing but the root is open, then they are there at the end. -/
theorem fgoes_has [DecidableEq α] {lang : Lang α L A ρ} {t : List α} {q : Nat} {c : List (Nat × Nat × Nat)}
    (h : FGoes lang t ⟨0, ⟨⟨root, []⟩, []⟩, 0, []⟩ ⟨q, ⟨⟨root, ks⟩, []⟩, 0, c⟩) (n : Nat) (hn : RB.Finished lang root t n) :
    ∃ ms, buildTree lang root t 0 n = .ctx root (ks ++ ms) := by
  obtain ⟨k, s', h1, h2⟩ := h (LState.start [root] 0) ⟨⟨root, []⟩, []⟩ ⟨rfl, rfl, rfl, rfl, rfl⟩
  have h3 : _ = (⟨⟨root, ks⟩, []⟩ : BState α L A) := h2.tree
  have h4 : s'.fac.fpush = [] := List.eq_nil_of_length_eq_zero h2.fresh
  have e2 : RB.Ends lang t n (LState.start [root] 0) (lexRun lang t n (LState.start [root] 0)).1 := by
    unfold RB.Ends
    unfold RB.Finished at hn
    rw [Option.isNone_iff_eq_none] at hn
    rw [← hn]
  have e3 : RB.Ends lang t (k + n) (LState.start [root] 0) (lexRun lang t n (LState.start [root] 0)).1 := e2.mono (by omega)
  unfold RB.Ends at e3
  rw [lexRun_add lang t k n _ s' h1] at e3
  have e4 := congrArg Prod.fst e3
  simp only at e4
  unfold buildTree buildEvents
  rw [← e4, List.foldl_append]
  generalize hb : List.foldl BState.event ⟨⟨root, []⟩, []⟩ (lexRun lang t k (LState.start [root] 0)).1 = b at *
  have h5 : Has root ks (b.leaves s'.fac.fpop) := by
    have : b.leaves s'.fac.fpop = ⟨⟨root, ks⟩, []⟩ := by
      rw [← h3]
      unfold Factory.get
      split
      · rw [h4]; rfl
      · next hne =>
        simp only [not_or, ne_eq, Decidable.not_not] at hne
        rw [hne.1]
        rfl
    rw [this]
    exact ⟨[], by simp [lowFrame]⟩
  obtain ⟨k', h6⟩ := Has.run (lang := lang) (t := t) n s' b h5
  rw [← CssL.close_leaves k']
  exact h6.close

end Parce

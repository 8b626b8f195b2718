import Verif.Lemmas.ReAhead
import Verif.Lemmas.ReShift
import Verif.Lemmas.RebuildAll
import Verif.Spec.Rebuild
/-!
# C33: a rebuilt tree is the tree of the new text
-/
namespace Parce.RB
variable {α L A ρ : Type} [DecidableEq α] [DecidableEq L] [DecidableEq A]

/-- **C33** (partial: for languages that only look ahead at most 9 characters, do not look behind,
    and whose actions do not drop the start of a match; see the `C33_…_violated` theorems for what
    happens otherwise). After any edit, the updated tree is the tree `build_tree` would produce for
    the new text. -/
theorem C33_edit_partial (lang : Lang α L A ρ) (hl : Restartable 9 lang) (same : L → L → Bool) (root : L)
    (hs : same root root = true) (t : List α) (e : Edit α) (hfit : e.start + e.removed ≤ t.length)
    (n0 n1 : Nat) (h0 : Finished lang root t n0) (h1 : Finished lang root (Edit.run t e) n1) (N : Nat) (hN : n1 + 1 ≤ N) :
    rebuild lang same N ⟨some root, (buildTree lang root t 0 n0).kids⟩ ⟨Edit.run t e, none, e.start, e.removed, e.ins.length⟩ =
      some ⟨some root, (buildTree lang root (Edit.run t e) 0 n1).kids⟩ :=
  rebuild_ok (hl.usable.sit hfit h0 h1) hfit rfl hN hs

/-- **C33** (partial: for languages whose patterns look at most 9 characters ahead and at most one
    character behind (`\b`, `^`), if in each lexicon tokens with the same text and action have the same
    target; see `C33_lookbehind_violated`). -/
theorem C33_behind_partial (lang : Lang α L A ρ) (hl : Restartable1 9 lang) (same : L → L → Bool) (root : L)
    (hs : same root root = true) (t : List α) (e : Edit α) (hfit : e.start + e.removed ≤ t.length)
    (n0 n1 : Nat) (h0 : Finished lang root t n0) (h1 : Finished lang root (Edit.run t e) n1) (N : Nat) (hN : n1 + 1 ≤ N) :
    rebuild lang same N ⟨some root, (buildTree lang root t 0 n0).kids⟩ ⟨Edit.run t e, none, e.start, e.removed, e.ins.length⟩ =
      some ⟨some root, (buildTree lang root (Edit.run t e) 0 n1).kids⟩ :=
  rebuild_ok (hl.usable.sit hfit h0 h1) hfit rfl hN hs

/-- The tree and text after a number of edits, each followed by an update of the tree; `fuel t`
    is enough for the text `t`. -/
def rebuildAll (lang : Lang α L A ρ) (same : L → L → Bool) (fuel : List α → Nat) :
    List (Edit α) → List α → TTree α L A → Option (List α × TTree α L A)
  | [], t, tree => some (t, tree)
  | e :: es, t, tree =>
    (rebuild lang same (fuel (Edit.run t e) + 1) tree ⟨Edit.run t e, none, e.start, e.removed, e.ins.length⟩).bind
      (fun tree => rebuildAll lang same fuel es (Edit.run t e) tree)

/-- **C33** (partial, as above). This also holds after any number of edits. -/
theorem C33_edits_partial (lang : Lang α L A ρ) (hl : Restartable 9 lang) (same : L → L → Bool) (root : L)
    (hs : same root root = true) (fuel : List α → Nat) (hfuel : ∀ t, Finished lang root t (fuel t)) (es : List (Edit α)) :
    ∀ t, Fits t es →
    rebuildAll lang same fuel es t ⟨some root, (buildTree lang root t 0 (fuel t)).kids⟩ =
      some (es.foldl Edit.run t, ⟨some root, (buildTree lang root (es.foldl Edit.run t) 0 (fuel (es.foldl Edit.run t))).kids⟩) := by
  induction es with
  | nil => intro t _; rfl
  | cons e es ih =>
    intro t h
    simp only [rebuildAll]
    rw [C33_edit_partial lang hl same root hs t e h.1 (fuel t) (fuel (Edit.run t e)) (hfuel _) (hfuel _) _ (Nat.le_refl _)]
    exact ih _ h.2

/-- **C33.** When a root lexicon is set that is not equal to the current one (or is the same), the
    tree is the tree of the text with that root lexicon, for every language and every old tree. -/
theorem C33_root (lang : Lang α L A ρ) (same : L → L → Bool) (old : TTree α L A) (root : L)
    (hs : ∀ l, old.lex = some l → same root l = true → l = root) (t : List α) (n N : Nat)
    (h : Finished lang root t n) (hN : n ≤ N) (start removed added : Nat) :
    rebuild lang same N old ⟨t, some (some root), start, removed, added⟩ = some ⟨some root, (buildTree lang root t 0 n).kids⟩ := by
  simp only [Finished, Option.isNone_iff_eq_none] at h
  exact rebuild_root (cs := old.kids) old.lex hs (E1 := (lexRun lang t n (LState.start [root] 0)).1) (Prod.ext rfl h) hN _ _ _

/-- **C33.** When the root lexicon is set to None, or it is None and only the text changes, the tree is
    empty and has no lexicon. -/
theorem C33_no_lexicon (lang : Lang α L A ρ) (same : L → L → Bool) (N : Nat) (old : TTree α L A) (c : Change α L)
    (h : c.root = some none ∨ (c.root = none ∧ old.lex = none)) : rebuild lang same N old c = some ⟨none, []⟩ := by
  rcases h with h | ⟨h1, h2⟩
  · simp [rebuild, buildNew, h, replaceTree]
  · simp [rebuild, buildNew, h1, h2, replaceTree]

/-! ## Examples -/

/-- `(` enters lexicon 1, which has the default action 21, `)` leaves it. -/
private def paren : Lang Char Nat Nat Unit where
  ld
    | 0 => .literal ['('] 10 (some ⟨0, [1]⟩) (.action fun _ => 11)
    | _ => .literal [')'] 20 (some ⟨1, []⟩) (.action fun _ => 21)
  consume _ := false
  expand tok := [⟨tok.pos, tok.text, tok.act⟩]
  noAct := 0

private theorem paren_ok : Restartable 9 paren := by
  refine ⟨fun l => ?_, fun l => ?_, fun l => ?_, fun l => ?_, ?_, fun k a => rfl, ?_⟩
  · match l with
    | 0 => simp [paren, LexOK]
    | n + 1 => simp [paren, LexOK]
  · match l with
    | 0 => trivial
    | n + 1 => trivial
  · match l with
    | 0 => trivial
    | n + 1 => trivial
  · match l with
    | 0 => trivial
    | n + 1 => trivial
  · intro t _ _ _ tok _ _ h1 h2 h3
    exact ⟨Nat.le_refl _, h1, h2, h3, Nat.le_refl _⟩
  · intro _ _ _ _ k lx ls _ _ _ h
    simp only [paren, List.cons.injEq] at h
    rw [← h.1]

/-- Inserting `)` in the parentheses of `a(bc)d(e)`: the old tokens from `)` on are not the same, those
    from the second `(` on are used again, and moved. -/
private def insClose : Edit Char := ⟨3, 0, [')']⟩

example : Restartable 9 paren ∧ Finished paren 0 "a(bc)d(e)".toList 12 ∧
    Finished paren 0 (Edit.run "a(bc)d(e)".toList insClose) 12 ∧
    Edit.run "a(bc)d(e)".toList insClose = "a(b)c)d(e)".toList ∧
    ((buildNew paren 20 ⟨some 0, (buildTree paren 0 "a(bc)d(e)".toList 0 12).kids⟩
      ⟨"a(b)c)d(e)".toList, none, 3, 0, 1⟩).map (fun r => (r.start, r.stop, r.offset, r.lexicons.isNone))) = some (2, 6, 1, true) ∧
    ((rebuild paren (fun a b => a == b) 20 ⟨some 0, (buildTree paren 0 "a(bc)d(e)".toList 0 12).kids⟩
      ⟨"a(b)c)d(e)".toList, none, 3, 0, 1⟩).map (fun r => toksL r.kids)) =
      some [⟨0, ['a'], 11, none⟩, ⟨1, ['('], 10, none⟩, ⟨2, ['b'], 21, none⟩, ⟨3, [')'], 20, none⟩,
        ⟨4, ['c', ')', 'd'], 11, none⟩, ⟨7, ['('], 10, none⟩, ⟨8, ['e'], 21, none⟩, ⟨9, [')'], 20, none⟩] := by
  refine ⟨paren_ok, by unfold Finished; decide +kernel, by unfold Finished; decide +kernel, ?_, ?_, ?_⟩ <;> decide +kernel

/-- A longer text, where the start of the tree is kept as well. -/
example :
    ((buildNew paren 90 ⟨some 0, (buildTree paren 0 "()()()()()()()a(bc)d(e)".toList 0 80).kids⟩
      ⟨"()()()()()()()a(b)c)d(e)".toList, none, 17, 0, 1⟩).map (fun r => (r.start, r.stop, r.offset, r.lexicons.isNone))) =
      some (16, 20, 1, true) := by decide +kernel

/-- Enough fuel for all texts, for the language that is one default action. -/
example : ∃ (lang : Lang Char Nat Nat Unit), Restartable 9 lang ∧ ∀ t, Finished lang 0 t 2 := by
  refine ⟨⟨fun _ => .empty (.action fun _ => 1), fun _ => false, fun tok => [⟨tok.pos, tok.text, tok.act⟩], 0⟩, ?_, ?_⟩
  · refine ⟨fun _ => trivial, fun _ => trivial, fun _ => trivial, fun _ => trivial, ?_, fun k a => rfl, ?_⟩
    · intro t _ _ _ tok _ _ h1 h2 h3
      exact ⟨Nat.le_refl _, h1, h2, h3, Nat.le_refl _⟩
    · intro _ _ _ _ k lx ls _ _ _ h
      simp only [List.cons.injEq] at h
      rw [← h.1]
  · intro t
    cases t <;> simp [Finished, lexRun, lexStep, LState.start, parseNext, tailTok]

example : Fits "abc".toList [⟨1, 1, "xy".toList⟩, ⟨4, 0, "z".toList⟩] ∧
    [⟨1, 1, "xy".toList⟩, ⟨4, 0, "z".toList⟩].foldl Edit.run "abc".toList = "axycz".toList := by
  refine ⟨⟨by decide, by decide, trivial⟩, by decide⟩

/-- `\bif\b` enters lexicon 1; other words have another action. -/
private def kw : Lang Char Nat Nat RM :=
  patLang 0 (fun _ => false) (fun _ => false)
    (fun l => match l with
      | 0 => [⟨.cat (.bound Char.isAlpha) (.cat (.str ['i', 'f']) (.bound Char.isAlpha)), fun _ _ => (1, some ⟨0, [1]⟩)⟩,
        ⟨.plus (.set Char.isAlpha), fun _ _ => (2, none)⟩]
      | _ => [⟨.plus (.set Char.isAlpha), fun _ _ => (3, some ⟨1, []⟩)⟩]) (fun _ => .skip)

private theorem kw_ok : Restartable1 9 kw := by
  refine ⟨fun l => compile_ok _ _ _, fun l => compile_leftmost _ _ _, fun l => compile_behindN _ _ _ ?_,
    patLang_determined _ _ _ _ _ (fun l => ?_), fun l => compile_ahead _ _ _ ?_, patLang_within _ _ _ _ _, patLang_moved _ _ _ _ _,
    patLang_atStart _ _ _ _ _⟩
  · match l with
    | 0 =>
      intro r hr
      simp only [List.mem_cons, List.not_mem_nil, or_false] at hr
      rcases hr with rfl | rfl
      · exact ⟨bound_behind _, str_behind _ _, bound_behind _⟩
      · simp [Pat.plus, Pat.Behind]
    | n + 1 =>
      intro r hr
      simp only [List.mem_cons, List.not_mem_nil, or_false] at hr
      subst hr
      simp [Pat.plus, Pat.Behind]
  · match l with
    | 0 =>
      intro r hr w gs _ _
      refine ⟨fun r' hr' gs' _ h => ?_, fun f h => by cases h⟩
      simp only [List.mem_cons, List.not_mem_nil, or_false] at hr hr'
      rcases hr with rfl | rfl <;> rcases hr' with rfl | rfl <;> simp_all
    | n + 1 =>
      intro r hr w gs _ _
      refine ⟨fun r' hr' gs' _ h => ?_, fun f h => by cases h⟩
      simp only [List.mem_cons, List.not_mem_nil, or_false] at hr hr'
      subst hr hr'
      rfl
  · match l with
    | 0 =>
      intro r hr
      simp only [List.mem_cons, List.not_mem_nil, or_false] at hr
      rcases hr with rfl | rfl
      · exact Or.inr ⟨bound_fixed _ (by decide), 0, 5, rfl, by decide,
          Or.inr ⟨str_fixed _ _ (by decide), 2, 3, rfl, by decide, bound_known _ (by decide)⟩⟩
      · simp [Pat.plus, Pat.Known, Pat.maxLen, Pat.always]
    | n + 1 =>
      intro r hr
      simp only [List.mem_cons, List.not_mem_nil, or_false] at hr
      subst hr
      simp [Pat.plus, Pat.Known, Pat.maxLen, Pat.always]

/-- Inserting a letter just before `if`: the word is `if` no more. -/
example : Restartable1 9 kw ∧ Finished kw 0 "a if b c".toList 12 ∧ Finished kw 0 (Edit.run "a if b c".toList ⟨2, 0, ['x']⟩) 12 ∧
    ((rebuild kw (fun a b => a == b) 20 ⟨some 0, (buildTree kw 0 "a if b c".toList 0 12).kids⟩
      ⟨"a xif b c".toList, none, 2, 0, 1⟩).map (fun r => toksL r.kids)) =
      some [⟨0, ['a'], 2, none⟩, ⟨2, ['x', 'i', 'f'], 2, none⟩, ⟨6, ['b'], 2, none⟩, ⟨8, ['c'], 2, none⟩] := by
  refine ⟨kw_ok, by unfold Finished; decide +kernel, by unfold Finished; decide +kernel, ?_⟩
  decide +kernel

/-! ## What happens for other languages -/

/-- A regular expression that matches any character. -/
private def any1 : List Nat → Nat → Option (Mtch Unit) := fun t p => if p < t.length then some ⟨p, p + 1, ()⟩ else none

/-- All lexicons match one character, with some action and target. -/
private def chars (rule : Nat → List Nat → Mtch Unit → Nat × Option (Target Nat)) : Lang Nat Nat Nat Unit where
  ld l := .regex (fun t p _ => any1 t p) any1 (rule l) .skip
  consume _ := false
  expand tok := [⟨tok.pos, tok.text, tok.act⟩]
  noAct := 0

private theorem any1_some {t : List Nat} {p : Nat} {m : Mtch Unit} : any1 t p = some m ↔ p < t.length ∧ m = ⟨p, p + 1, ()⟩ := by
  unfold any1
  split
  · rename_i h
    simp [h, eq_comm]
  · rename_i h
    simp [h]

private theorem any1_none {t : List Nat} {p : Nat} : any1 t p = none ↔ t.length ≤ p := by
  unfold any1
  split <;> simp_all

private theorem any1_move (t : List Nat) (p : Nat) : any1 t p = (any1 (t.drop p) 0).map (Mtch.move p) := by
  by_cases h : p < t.length
  · rw [any1_some.2 ⟨h, rfl⟩, any1_some.2 ⟨by rw [List.length_drop]; omega, rfl⟩]
    simp [Mtch.move, Nat.add_comm]
  · rw [any1_none.2 (by omega), any1_none.2 (by rw [List.length_drop]; omega)]; rfl

private theorem chars_ok (rule : Nat → List Nat → Mtch Unit → Nat × Option (Target Nat)) :
    (∀ l, LexOK ((chars rule).ld l)) ∧ (∀ l, Leftmost ((chars rule).ld l)) ∧ (∀ t, ExpandsWithin (chars rule) t) ∧
    ExpandsMoved (chars rule) ∧ ExpandsAtStart (chars rule) := by
  refine ⟨fun l => ⟨?_, ?_⟩, fun l => ⟨?_, ?_⟩, ?_, fun k a => rfl, ?_⟩
  · intro t p b m h
    obtain ⟨h1, rfl⟩ := any1_some.1 h
    exact ⟨Nat.le_refl _, Nat.le_succ _, h1, fun _ => Nat.lt_succ_self _⟩
  · intro t p m h
    obtain ⟨h1, rfl⟩ := any1_some.1 h
    exact ⟨rfl, Nat.le_succ _, h1⟩
  · intro t p b m h h'
    obtain ⟨h1, rfl⟩ := any1_some.1 h
    exact absurd h' (Nat.lt_irrefl _)
  · intro t p b q h h1 h2
    have := any1_none.1 h
    omega
  · intro t _ _ _ tok _ _ h1 h2 h3
    exact ⟨Nat.le_refl _, h1, h2, h3, Nat.le_refl _⟩
  · intro _ _ _ _ k lx ls _ _ _ h
    simp only [chars, List.cons.injEq] at h
    rw [← h.1]

private theorem chars_ahead (k : Nat) (hk1 : 1 ≤ k) (rule : Nat → List Nat → Mtch Unit → Nat × Option (Target Nat))
    (h : ∀ l (t t' : List Nat) (q : Nat) m, t.take q = t'.take q → m.stop + k ≤ q → rule l t' m = rule l t m) :
    ∀ l, Ahead k ((chars rule).ld l) := by
  intro l t t' q ht h1 h2
  refine ⟨?_, ?_, ?_, fun m hm => h l t t' q m ht hm⟩
  · intro p b m hm hk
    obtain ⟨h3, rfl⟩ := any1_some.1 hm
    exact any1_some.2 ⟨by simp only at hk; omega, rfl⟩
  · intro p m hm hk
    obtain ⟨h3, rfl⟩ := any1_some.1 hm
    exact any1_some.2 ⟨by simp only at hk; omega, rfl⟩
  · intro p hp hk
    have := any1_none.1 hp
    omega

/-- The kids of the tree after an edit are those of the tree of the new text. -/
private def exact (lang : Lang Nat Nat Nat Unit) (n : Nat) (t : List Nat) (e : Edit Nat) : Bool :=
  decide ((rebuild lang (fun a b => a == b) (n + 1) ⟨some 0, (buildTree lang 0 t 0 n).kids⟩
    ⟨Edit.run t e, none, e.start, e.removed, e.ins.length⟩).map (·.kids) = some (buildTree lang 0 (Edit.run t e) 0 n).kids)

/-- What `exact` is false for contradicts the theorem. -/
private theorem exact_spec (lang : Lang Nat Nat Nat Unit) (n : Nat) (t : List Nat) (e : Edit Nat) (h : exact lang n t e = false) :
    rebuild lang (fun a b => a == b) (n + 1) ⟨some 0, (buildTree lang 0 t 0 n).kids⟩
      ⟨Edit.run t e, none, e.start, e.removed, e.ins.length⟩ ≠ some ⟨some 0, (buildTree lang 0 (Edit.run t e) 0 n).kids⟩ := by
  intro h'
  rw [exact, h'] at h
  simp at h

/-- The action of a character depends on the twelfth character after it. -/
private def ahead12 : Nat → List Nat → Mtch Unit → Nat × Option (Target Nat) :=
  fun _ t m => (if t[m.start + 12]? = some 1 then 1 else 0, none)

/-- **C33** is violated by a language that meets all other requirements, but looks twelve characters
    ahead (over at least twelve tokens): the first token is not lexed again. -/
theorem C33_lookahead_violated : ∃ (lang : Lang Nat Nat Nat Unit) (t : List Nat) (e : Edit Nat) (n : Nat),
    Restartable 12 lang ∧ e.start + e.removed ≤ t.length ∧ Finished lang 0 t n ∧ Finished lang 0 (Edit.run t e) n ∧
    rebuild lang (fun a b => a == b) (n + 1) ⟨some 0, (buildTree lang 0 t 0 n).kids⟩
      ⟨Edit.run t e, none, e.start, e.removed, e.ins.length⟩ ≠ some ⟨some 0, (buildTree lang 0 (Edit.run t e) 0 n).kids⟩ := by
  obtain ⟨h1, h2, h3, h4, h5⟩ := chars_ok (fun l t m => if m.start + 1 = m.stop then ahead12 l t m else (0, none))
  refine ⟨_, List.replicate 13 0, ⟨12, 1, [1]⟩, 14, ⟨h1, h2, ?_, ?_, h3, h4, h5⟩, by decide,
    by unfold Finished; decide +kernel, by unfold Finished; decide +kernel, exact_spec _ _ _ _ (by decide +kernel)⟩
  · intro l
    refine ⟨fun t p b _ => any1_move t p, fun t p _ => any1_move t p, ?_⟩
    intro t p m hp
    simp only [Mtch.move, ahead12, List.getElem?_drop]
    have e1 : m.start + p + 12 = p + (m.start + 12) := by omega
    have e2 : (m.start + p + 1 = m.stop + p) = (m.start + 1 = m.stop) := by
      apply propext; omega
    simp only [e1, e2]
  · apply chars_ahead 12 (by decide)
    intro l t t' q m ht hm
    by_cases hms : m.start + 1 = m.stop
    · simp only [hms, if_true, ahead12]
      have : t'[m.start + 12]? = t[m.start + 12]? := by
        have h := congrArg (fun x => x[m.start + 12]?) ht
        simp only [List.getElem?_take] at h
        rw [if_pos (by omega), if_pos (by omega)] at h
        exact h.symm
      rw [this]
    · simp only [if_neg hms]

/-- After a 1, a character has another target (with a lookbehind assertion). -/
private def behind1 : Nat → List Nat → Mtch Unit → Nat × Option (Target Nat) :=
  fun l t m => (l, if 0 < m.start ∧ t[m.start - 1]? = some 1 then some ⟨0, [1]⟩ else none)

/-- **C33** is violated by a language that meets all other requirements, but looks one character
    behind: a token with the same text, action and context is used again together with all that
    follows, although the next token now belongs in another context. -/
theorem C33_lookbehind_violated : ∃ (lang : Lang Nat Nat Nat Unit) (t : List Nat) (e : Edit Nat) (n : Nat),
    ((∀ l, LexOK (lang.ld l)) ∧ (∀ l, Leftmost (lang.ld l)) ∧ (∀ l, Ahead 1 (lang.ld l)) ∧ (∀ t, ExpandsWithin lang t) ∧
      ExpandsMoved lang ∧ ExpandsAtStart lang) ∧
    e.start + e.removed ≤ t.length ∧ Finished lang 0 t n ∧ Finished lang 0 (Edit.run t e) n ∧
    rebuild lang (fun a b => a == b) (n + 1) ⟨some 0, (buildTree lang 0 t 0 n).kids⟩
      ⟨Edit.run t e, none, e.start, e.removed, e.ins.length⟩ ≠ some ⟨some 0, (buildTree lang 0 (Edit.run t e) 0 n).kids⟩ := by
  obtain ⟨h1, h2, h3, h4, h5⟩ := chars_ok (fun l t m => if m.start + 1 = m.stop then behind1 l t m else (0, none))
  refine ⟨_, [0, 0, 0], ⟨0, 1, [1]⟩, 8, ⟨h1, h2, ?_, h3, h4, h5⟩, by decide,
    by unfold Finished; decide +kernel, by unfold Finished; decide +kernel, exact_spec _ _ _ _ (by decide +kernel)⟩
  apply chars_ahead 1 (by decide)
  intro l t t' q m ht hm
  by_cases hms : m.start + 1 = m.stop
  · simp only [hms, if_true, behind1]
    have : t'[m.start - 1]? = t[m.start - 1]? := by
      have h := congrArg (fun x => x[m.start - 1]?) ht
      simp only [List.getElem?_take] at h
      rw [if_pos (by omega), if_pos (by omega)] at h
      exact h.symm
    rw [this]
  · simp only [if_neg hms]

/-- The pattern `1(2)|.`. -/
private def sub1 (t : List Nat) (p : Nat) : Option (Mtch Unit) :=
  if p < t.length then some ⟨p, if t[p]? = some 1 ∧ t[p + 1]? = some 2 then p + 2 else p + 1, ()⟩ else none

/-- The pattern `1(2)|.`: of a match of two characters only the second is a lexeme (`bygroup`), which
    enters lexicon 1. -/
private def sub : Lang Nat Nat Nat Unit where
  ld l := .regex (fun t p _ => sub1 t p) sub1 (fun _ m => (l, if m.stop = m.start + 2 then some ⟨0, [1]⟩ else none)) .skip
  consume _ := false
  expand tok := if tok.text.length = 2 then [⟨tok.pos + 1, tok.text.drop 1, tok.act⟩] else [⟨tok.pos, tok.text, tok.act⟩]
  noAct := 0

private theorem sub_some {t : List Nat} {p : Nat} {m : Mtch Unit}
    (h : sub1 t p = some m) : p < t.length ∧ m.start = p ∧ p < m.stop ∧ m.stop ≤ t.length := by
  unfold sub1 at h
  split at h
  · rename_i hp
    simp only [Option.some.injEq] at h
    subst h
    refine ⟨hp, rfl, ?_, ?_⟩
    · simp only; split <;> omega
    · simp only
      split
      · rename_i h1
        have := getElem?_lt h1.2
        omega
      · omega
  · simp at h

private theorem sub_none {t : List Nat} {p : Nat} (h : sub1 t p = none) : t.length ≤ p := by
  unfold sub1 at h
  split at h
  · simp at h
  · omega

private theorem sub_stop (t t' : List Nat) (q p : Nat) (ht : t.take q = t'.take q) (hp : p + 1 < q) :
    (t[p]? = some 1 ∧ t[p + 1]? = some 2) = (t'[p]? = some 1 ∧ t'[p + 1]? = some 2) := by
  have h1 := congrArg (fun x => x[p]?) ht
  have h2 := congrArg (fun x => x[p + 1]?) ht
  simp only [List.getElem?_take] at h1 h2
  rw [if_pos (by omega), if_pos (by omega)] at h1 h2
  rw [h1, h2]

/-- **C33** is violated by a language that meets all other requirements, but has an action that drops
    the start of a match: after changing `32` to `12` the token `2` looks the same. -/
theorem C33_subgroup_violated : ∃ (lang : Lang Nat Nat Nat Unit) (t : List Nat) (e : Edit Nat) (n : Nat),
    ((∀ l, LexOK (lang.ld l)) ∧ (∀ l, Leftmost (lang.ld l)) ∧ (∀ l, NoLookbehind (lang.ld l)) ∧ (∀ l, Ahead 1 (lang.ld l)) ∧
      (∀ t, ExpandsWithin lang t) ∧ ExpandsMoved lang) ∧
    e.start + e.removed ≤ t.length ∧ Finished lang 0 t n ∧ Finished lang 0 (Edit.run t e) n ∧
    rebuild lang (fun a b => a == b) (n + 1) ⟨some 0, (buildTree lang 0 t 0 n).kids⟩
      ⟨Edit.run t e, none, e.start, e.removed, e.ins.length⟩ ≠ some ⟨some 0, (buildTree lang 0 (Edit.run t e) 0 n).kids⟩ := by
  refine ⟨sub, [3, 2, 4], ⟨0, 1, [1]⟩, 8, ⟨?_, ?_, ?_, ?_, ?_, ?_⟩, by decide,
    by unfold Finished; decide +kernel, by unfold Finished; decide +kernel, exact_spec _ _ _ _ (by decide +kernel)⟩
  · intro l
    refine ⟨fun t p b m h => ?_, fun t p m h => ?_⟩
    · have := sub_some h; omega
    · have := sub_some h; omega
  · intro l
    refine ⟨fun t p b m h h' => ?_, fun t p b q h h1 h2 => ?_⟩
    · have := sub_some h; omega
    · have := sub_none h; omega
  · intro l
    have key : ∀ (t : List Nat) (p : Nat), sub1 t p = (sub1 (t.drop p) 0).map (Mtch.move p) := by
      intro t p
      unfold sub1
      by_cases hp : p < t.length
      · have hp' : 0 < (t.drop p).length := by rw [List.length_drop]; omega
        simp only [hp, hp', if_true, List.getElem?_drop, Nat.add_zero, Nat.zero_add, Option.map_some, Mtch.move]
        split
        · rw [Nat.add_comm]
        · rw [Nat.add_comm]
      · have hp' : ¬ 0 < (t.drop p).length := by rw [List.length_drop]; omega
        simp only [hp, hp', if_false, Option.map_none]
    refine ⟨fun t p b _ => key t p, fun t p _ => key t p, fun t p m _ => ?_⟩
    have : ((Mtch.move p m).stop = (Mtch.move p m).start + 2) = (m.stop = m.start + 2) := by
      simp only [Mtch.move]; apply propext; omega
    simp only [this]
  · intro l t t' q ht h1 h2
    have key : ∀ (p : Nat) (m : Mtch Unit), sub1 t p = some m → m.stop + 1 ≤ q → sub1 t' p = some m := by
      intro p m h hq
      have h3 := sub_some h
      unfold sub1 at h ⊢
      rw [if_pos h3.1] at h
      rw [if_pos (by omega), ← h]
      simp only [sub_stop t t' q p ht (by omega)]
    refine ⟨fun p b m h hq => key p m h hq, fun p m h hq => key p m h hq, ?_, fun m _ => rfl⟩
    intro p h hq
    have := sub_none h
    omega
  · intro t _ _ _ tok _ _ h1 h2 h3
    simp only [sub]
    split
    · rename_i hl
      refine ⟨by simp only; omega, ?_, ?_, ?_, ?_⟩
      · intro h
        have := congrArg List.length h
        simp only [List.length_drop, List.length_nil] at this
        omega
      · simp only [List.length_drop, hl]
        conv => lhs; rw [h2]
        simp only [slice, hl, List.drop_drop]
      · simp only [List.length_drop]; omega
      · simp only [List.length_drop, Within]; omega
    · exact ⟨Nat.le_refl _, h1, h2, h3, Nat.le_refl _⟩
  · intro k a
    simp only [sub, Tok.move]
    split
    · simp only [List.map_cons, List.map_nil, Lexeme.move]
      congr 2; omega
    · rfl

/-- **C33** is violated when the root lexicon is changed to one that compares equal but is another
    (a variant of the same lexicon, derived with an argument): the tree is built with the new lexicon,
    but the root keeps the old one. -/
theorem C33_derived_root_violated : ∃ (lang : Lang Nat Nat Nat Unit) (same : Nat → Nat → Bool) (t : List Nat) (n : Nat),
    Restartable 9 lang ∧ Finished lang 0 t n ∧ Finished lang 1 t n ∧
    (rebuild lang same (n + 1) ⟨some 0, (buildTree lang 0 t 0 n).kids⟩ ⟨t, some (some 1), 0, 0, 0⟩).map
      (fun r => (r.lex, decide (r.kids = (buildTree lang 1 t 0 n).kids))) = some (some 0, true) := by
  refine ⟨chars (fun l _ _ => (l, none)), fun _ _ => true, [5, 6], 8, ?_, by unfold Finished; decide +kernel,
    by unfold Finished; decide +kernel, by decide +kernel⟩
  obtain ⟨h1, h2, h3, h4, h5⟩ := chars_ok (fun l _ _ => (l, none))
  exact ⟨h1, h2, fun l => ⟨fun t p b _ => any1_move t p, fun t p _ => any1_move t p, fun _ _ _ _ => rfl⟩,
    chars_ahead 9 (by decide) _ (fun _ _ _ _ _ _ _ => rfl), h3, h4, h5⟩

end Parce.RB

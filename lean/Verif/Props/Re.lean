import Verif.Lemmas.ReAhead
import Verif.Lemmas.ReWay
import Verif.Lemmas.ReShift
import Verif.Props.Lexer
/-!
# C70: what a lexicon made of regular expressions finds
-/
namespace Parce
variable {α L A : Type}

/-- The match is the preferred one of its rule, and none of the rules before it matches there. -/
def Wins (pats : List (Pat α)) (t : List α) (m : Mtch RM) : Prop :=
  ∃ a c, pats[m.rest.index]? = some a ∧ a.First t (fun _ => True) m.start m.stop c ∧ m.rest.caps = c.rel m.start ∧
    ∀ j b, pats[j]? = some b → j < m.rest.index → ∀ r, ¬ b.mat t m.start r

/-- **C70.** What has a way is what matches. -/
theorem C70_way (a : Pat α) (t : List α) (p q : Nat) : (∃ x c, a.way t p x q c) ↔ a.mat t p q := by
  rw [← run_mat t a p [] q]
  constructor
  · rintro ⟨x, c, h⟩
    refine ⟨c ++ [], ?_⟩
    rw [run_ways]
    exact List.mem_map.2 ⟨_, (mem_ways t a p x q c).2 h, rfl⟩
  · rintro ⟨c, h⟩
    rw [run_ways] at h
    obtain ⟨⟨x, q', c'⟩, h', he⟩ := List.mem_map.1 h
    cases he
    exact ⟨x, c', (mem_ways t a p x _ c').1 h'⟩

/-- **C70.** The match that is found first is the preferred one, with its groups. -/
theorem C70_preferred (a : Pat α) (t : List α) (p q : Nat) (c : Caps) :
    (a.run t p []).head? = some (q, c) ↔ a.First t (fun _ => True) p q c := by
  rw [← run_first]
  cases a.run t p [] <;> simp

/-- **C70.** The backtracking matcher finds an end exactly if the expression matches up to there. -/
theorem C70_meaning (a : Pat α) (t : List α) (p q : Nat) :
    (∃ c, (q, c) ∈ a.run t p []) ↔ a.mat t p q := run_mat t a p [] q

theorem match_wins {pats : List (Pat α)} {t : List α} {p : Nat} {m : Mtch RM} (h : rxMatch pats t p = some m) :
    Wins pats t m := by
  have hp := (rxMatch_some h).1
  unfold rxMatch at h
  split at h
  · obtain ⟨a, r, h1, h2, h3, _, h5⟩ := head_allAt h
    refine ⟨a, r.2, by simpa using h1, ?_, by rw [h3], by rw [hp]; simpa using h5⟩
    rw [← C70_preferred, hp, h2, h3]
  · cases h

/-- **C70.** A search finds the leftmost position where a rule matches, and the match is of the first
    rule that matches there, also if the match of another rule is longer. -/
theorem C70_first_rule (pats : List (Pat α)) (t : List α) (p : Nat) (m : Mtch RM) (h : rxSearch pats t p false = some m) :
    p ≤ m.start ∧ m.start ≤ m.stop ∧ m.stop ≤ t.length ∧
    (∀ i, p ≤ i → i < m.start → ¬ Starts pats t i) ∧ Wins pats t m := by
  obtain ⟨h1, h2, h3, _, h5, _⟩ := rxSearch_some h
  rcases h5 with ⟨h5, _⟩ | h5
  · cases h5
  · refine ⟨h1, h2, h3, fun i hi1 hi2 => ?_, match_wins h5⟩
    simp only [rxSearch, Bool.false_eq_true, if_false] at h
    exact (rxMatch_none (by omega)).1 ((rxScan_some h).2.2 i hi1 hi2)

/-- **C70.** A search finds nothing exactly if no rule matches from there on. -/
theorem C70_none (pats : List (Pat α)) (t : List α) (p : Nat) :
    rxSearch pats t p false = none ↔ ∀ i, p ≤ i → i ≤ t.length → ¬ Starts pats t i := by
  simp only [rxSearch, Bool.false_eq_true, if_false, rxScan_none]
  constructor
  · intro h i h1 h2
    exact (rxMatch_none h2).1 (h i h1 (by omega))
  · intro h i h1 h2
    exact (rxMatch_none (by omega)).2 (h i h1 (by omega))

private theorem find_allAt {t : List α} {p : Nat} {pats : List (Pat α)} {i : Nat} {m : Mtch RM} (P : Nat → Prop) [DecidablePred P]
    (h : (allAt t p i pats).find? (fun m => P m.stop) = some m) :
    ∃ a c, pats[m.rest.index - i]? = some a ∧ (a.run t p []).find? (fun r => P r.1) = some (m.stop, c) ∧ m.start = p ∧
      m.rest.caps = Caps.rel p c ∧ i ≤ m.rest.index ∧
      ∀ j b, pats[j]? = some b → j < m.rest.index - i → ∀ q, b.mat t p q → ¬ P q := by
  induction pats generalizing i with
  | nil => cases h
  | cons a as ih =>
    simp only [allAt, List.find?_append, List.find?_map, Function.comp_def] at h
    cases hr : (a.run t p []).find? (fun r => P r.1) with
    | none =>
      rw [hr] at h
      simp only [Option.map_none, Option.none_or] at h
      obtain ⟨b, c, h1, h2, h3, h4, h5, h6⟩ := ih h
      refine ⟨b, c, ?_, h2, h3, h4, by omega, fun j x hx hj q hq => ?_⟩
      · rw [show m.rest.index - i = (m.rest.index - (i + 1)) + 1 by omega, List.getElem?_cons_succ]
        exact h1
      · cases j with
        | zero =>
          simp only [List.getElem?_cons_zero, Option.some.injEq] at hx
          subst hx
          obtain ⟨c', hc⟩ := (run_mat t a p [] q).2 hq
          have := List.find?_eq_none.1 hr _ hc
          simpa using this
        | succ j => exact h6 j x (by simpa using hx) (by omega) q hq
    | some r =>
      rw [hr] at h
      simp only [Option.map_some, Option.some_or, Option.some.injEq] at h
      subst h
      exact ⟨a, r.2, by simp, hr, rfl, rfl, Nat.le_refl _, fun j b _ hj => by simp at hj⟩

/-- **C70.** After an empty match the search goes on with a match at the same position that is not
    empty if there is one, and else with the first match further on. -/
theorem C70_advance (pats : List (Pat α)) (t : List α) (p : Nat) (m : Mtch RM) (h : rxSearch pats t p true = some m) :
    p < m.stop ∧
    ((m.start = p ∧ ∃ a c, pats[m.rest.index]? = some a ∧ a.First t (fun q => p < q) p m.stop c ∧ m.rest.caps = c.rel p ∧
        ∀ j b, pats[j]? = some b → j < m.rest.index → ∀ r, b.mat t p r → r = p) ∨
     (p < m.start ∧ (∀ a ∈ pats, ∀ q, a.mat t p q → q = p) ∧ (∀ i, p < i → i < m.start → ¬ Starts pats t i) ∧
      Wins pats t m)) := by
  obtain ⟨h1, h2, h3, h4, _, _⟩ := rxSearch_some h
  refine ⟨h4 rfl, ?_⟩
  simp only [rxSearch, if_true] at h
  split at h
  · next m' hm =>
    injection h with h; subst h
    obtain ⟨a, c, g1, g2, g3, g4, _, g5⟩ := find_allAt (fun q => p < q) hm
    exact Or.inl ⟨g3, a, c, by simpa using g1, run_first.1 g2, g4, fun j b h1 h2 r h3 => by
      have := g5 j b h1 (by omega) r h3
      have := (mat_bounds t b p r h3).1
      omega⟩
  · next hm =>
    obtain ⟨g1, g2, g3⟩ := rxScan_some h
    refine Or.inr ⟨by omega, fun a ha q hq => ?_, fun i hi1 hi2 => ?_, match_wins g2⟩
    · have hb := mat_bounds t a p q hq
      by_cases hqp : q = p
      · exact hqp
      · exfalso
        obtain ⟨c, hc⟩ := (run_mat t a p [] q).2 hq
        have hall : ∀ (ps : List (Pat α)) (i : Nat), a ∈ ps → ∃ m' ∈ allAt t p i ps, m'.stop = q := by
          intro ps
          induction ps with
          | nil => intro i h; cases h
          | cons b bs ih =>
            intro i hmem
            rcases List.mem_cons.1 hmem with rfl | hmem
            · exact ⟨_, List.mem_append.2 (Or.inl (List.mem_map.2 ⟨_, hc, rfl⟩)), rfl⟩
            · obtain ⟨m', h1, h2⟩ := ih (i + 1) hmem
              exact ⟨m', List.mem_append.2 (Or.inr h1), h2⟩
        obtain ⟨m', h5, h6⟩ := hall pats 0 ha
        have := List.find?_eq_none.1 hm m' h5
        simp only [decide_eq_true_eq] at this
        omega
    · have := rxMatch_some g2
      exact (rxMatch_none (by omega)).1 (g3 i (by omega) hi2)

/-- **C70.** Every lexicon made of rules with regular expressions meets what the theorems about the
    lexer ask for. -/
theorem C70_lexicon (noAct : A) (rules : List (PRule α L A)) (d : Dflt α L A) :
    LexOK (compile noAct rules d) ∧ Leftmost (compile noAct rules d) :=
  ⟨compile_ok noAct rules d, compile_leftmost noAct rules d⟩

/-- **C70.** A language of such lexicons, in which no pattern looks back or more than 9 characters
    ahead, meets what the exact update of the tree (C33) asks for. -/
theorem C70_restartable [DecidableEq α] (noAct : A) (skip : A → Bool) (consume : L → Bool) (rules : L → List (PRule α L A))
    (d : L → Dflt α L A) (hb : ∀ l, ∀ r ∈ rules l, r.pat.Behind 0) (hk : ∀ l, ∀ r ∈ rules l, r.pat.Known 9) :
    RB.Restartable 9 (patLang noAct skip consume rules d) := by
  refine ⟨fun l => compile_ok _ _ _, fun l => compile_leftmost _ _ _, fun l => compile_behind _ _ _ (hb l),
    fun l => compile_ahead _ _ _ (hk l), patLang_within _ _ _ _ _, patLang_moved _ _ _ _ _, patLang_atStart _ _ _ _ _⟩

/-- **C70.** The same for patterns that look at one character before the position, as `\b` and `^` do, if
    tokens of a lexicon with the same text and action have the same target. -/
theorem C70_restartable1 [DecidableEq α] (noAct : A) (skip : A → Bool) (consume : L → Bool) (rules : L → List (PRule α L A))
    (d : L → Dflt α L A) (hb : ∀ l, ∀ r ∈ rules l, r.pat.Behind 1) (hk : ∀ l, ∀ r ∈ rules l, r.pat.Known 9) (hd : ∀ l, SameLooks (rules l) (d l)) :
    RB.Restartable1 9 (patLang noAct skip consume rules d) := by
  refine ⟨fun l => compile_ok _ _ _, fun l => compile_leftmost _ _ _, fun l => compile_behindN _ _ _ (hb l),
    patLang_determined _ _ _ _ _ hd, fun l => compile_ahead _ _ _ (hk l), patLang_within _ _ _ _ _, patLang_moved _ _ _ _ _,
    patLang_atStart _ _ _ _ _⟩

theorem finds_consumes {pats : List (Pat α)} (hc : ∀ a ∈ pats, a.Consumes) {t : List α} {m : Mtch RM}
    (h : Finds (rxSearch pats) (rxMatch pats) t m) : m.start < m.stop := by
  have hm : ∀ p m, rxMatch pats t p = some m → m.start < m.stop := by
    intro p m h
    obtain ⟨a, c, h1, ⟨_, x, h2, _⟩, _⟩ := match_wins h
    exact hc a (List.mem_of_getElem? h1) _ _ _ ((C70_way a t _ _).1 ⟨x, c, h2⟩)
  rcases h with ⟨p, h⟩ | ⟨p, b, h⟩
  · exact hm p m h
  · obtain ⟨h1, h2, h3, h4, h5, _⟩ := rxSearch_some h
    rcases h5 with ⟨h5, h6⟩ | h5
    · have := h4 h5; omega
    · exact hm _ _ h5

/-- **C70.** Lexing a text with such a language ends, if no pattern matches the empty text and there
    is no endless chain of default targets. -/
theorem C70_terminates [DecidableEq α] (noAct : A) (skip : A → Bool) (consume : L → Bool) (rules : L → List (PRule α L A))
    (d : L → Dflt α L A) (hc : ∀ l, ∀ r ∈ rules l, r.pat.Consumes) (root : L) (μ : List L → Nat)
    (hμ : ∀ top rest tg, (top :: rest).getLast? = some root → d top = .target tg →
      μ ((clampPop (top :: rest) tg).apply (top :: rest)) < μ (top :: rest)) (t : List α) :
    ∃ n, RB.Finished (patLang noAct skip consume rules d) root t n := by
  have hc' : ∀ l, ∀ a ∈ (rules l).map (·.pat), a.Consumes := by
    intro l a ha
    obtain ⟨r, hr, rfl⟩ := List.mem_map.1 ha
    exact hc l r hr
  suffices h : ∃ n, (lexRun (patLang noAct skip consume rules d) t n (LState.start [root] 0)).2 = none by
    obtain ⟨n, hn⟩ := h
    exact ⟨n, by unfold RB.Finished; rw [hn]; rfl⟩
  refine C23_terminates_partial (patLang noAct skip consume rules d) t (fun l => compile_ok _ _ _) (fun l => ?_) [root] root rfl (fun _ _ s => μ s) ?_ 0 (Nat.zero_le _)
  · have := hc' l
    show NoStuckMatch (compile noAct (rules l) (d l))
    unfold compile
    split
    · trivial
    · next hne =>
      cases d l with
      | skip => trivial
      | action f => trivial
      | target tg =>
        intro t p m h he
        have := finds_consumes this (Or.inl ⟨p, h⟩)
        omega
  · intro t top rest ps ps' tok tg hr hps h1 h2 h3
    refine hμ top rest tg hr (parseNext_emptyTgts (P := fun tg => d top = .target tg) (compile_ok _ _ _) ?_ hps h1 h2 h3)
    have := hc' top
    unfold compile
    split
    · exact fun tg h => h
    · refine ⟨fun tg h => h, fun t m tg hf he _ => ?_⟩
      have h4 := finds_consumes this hf
      have h5 : m.stop ≤ t.length := by
        rcases hf with ⟨p, h⟩ | ⟨p, b, h⟩
        · exact (rxMatch_some h).2.2
        · exact (rxSearch_some h).2.2.1
      have h6 : (slice t m.start m.stop).length = m.stop - m.start := slice_self_length (by omega) h5
      rw [he] at h6
      simp at h6
      omega

/-! ## Examples -/

/-- `a|ab`, `[ab]+`, `\s+` -/
private def pats3 : List (Pat Char) :=
  [.alt (.chr 'a') (.str ['a', 'b']), .plus (.set (fun c => c == 'a' || c == 'b')), .plus (.set (· == ' '))]

/-- The first rule wins, although the second rule would match more text. -/
example : rxSearch pats3 "xxabab".toList 0 false = some ⟨2, 3, ⟨0, []⟩⟩ := by decide +kernel
example : rxSearch pats3 "xxbab ".toList 0 false = some ⟨2, 5, ⟨1, []⟩⟩ := by decide +kernel
example : rxSearch pats3 "xx".toList 0 false = none := by decide +kernel
/-- `a*?`: the empty match at 1, and then the one that is not empty. -/
example : rxSearch [Pat.lazy (.chr 'a')] "xaa".toList 1 true = some ⟨1, 2, ⟨0, []⟩⟩ ∧
    rxSearch [Pat.lazy (.chr 'a')] "xxa".toList 1 true = some ⟨2, 2, ⟨0, []⟩⟩ := by decide +kernel
/-- `(a+)(b)` with the groups. -/
example : rxSearch [Pat.cat (.grp 1 (.plus (.chr 'a'))) (.grp 2 (.chr 'b'))] "xaab".toList 0 false =
    some ⟨1, 4, ⟨0, [(2, 2, 3), (1, 0, 2)]⟩⟩ := by decide +kernel

/-- The way of `(a+)(b)` above is the preferred one. -/
example : (Pat.cat (.grp 1 (.plus (.chr 'a'))) (.grp 2 (.chr 'b'))).First "xaab".toList (fun _ => True) 1 4 [(2, 3, 4), (1, 1, 3)] :=
  (C70_preferred _ _ _ _ _).1 (by decide +kernel)

/-- Words, and numbers like `-12.5` that are followed by no letter. -/
private def word : Pat Char := .plus (.set Char.isAlpha)
private def number : Pat Char :=
  .cat (.opt (.chr '-')) (.plus (.set Char.isDigit))

example : ∀ r ∈ [(⟨word, fun _ _ => (1, none)⟩ : PRule Char Nat Nat), ⟨number, fun _ _ => (2, some ⟨0, [1]⟩)⟩],
    r.pat.Behind 0 ∧ r.pat.Known 9 := by
  intro r hr
  simp only [List.mem_cons, List.not_mem_nil, or_false] at hr
  rcases hr with rfl | rfl
  · simp [word, Pat.plus, Pat.Behind, Pat.Known, Pat.maxLen, Pat.always]
  · refine ⟨by simp [number, Pat.opt, Pat.chr, Pat.plus, Pat.Behind], ?_⟩
    refine Or.inr ⟨?_, 1, 1, rfl, by decide, Or.inl ?_⟩ <;> simp [Pat.opt, Pat.chr, Pat.Known, Pat.Fixed, Pat.always]

/-- `\bif\b`, which enters another lexicon, and words with another action. -/
private def kw : Pat Char := .cat (.bound Char.isAlpha) (.cat (.str ['i', 'f']) (.bound Char.isAlpha))

example : ∀ r ∈ [(⟨kw, fun _ _ => (1, some ⟨0, [1]⟩)⟩ : PRule Char Nat Nat), ⟨word, fun _ _ => (2, none)⟩],
    r.pat.Behind 1 ∧ r.pat.Known 9 := by
  intro r hr
  simp only [List.mem_cons, List.not_mem_nil, or_false] at hr
  rcases hr with rfl | rfl
  · refine ⟨⟨bound_behind _, str_behind _ _, bound_behind _⟩, Or.inr ⟨bound_fixed _ (by decide), 0, 5, rfl, by decide,
      Or.inr ⟨str_fixed _ _ (by decide), 2, 3, rfl, by decide, bound_known _ (by decide)⟩⟩⟩
  · simp [word, Pat.plus, Pat.Behind, Pat.Known, Pat.maxLen, Pat.always]

example : kw.Consumes ∧ word.Consumes := by
  constructor
  · rintro t p q ⟨_, ⟨rfl, _⟩, _, ⟨_, ⟨rfl, _⟩, rfl, _⟩, rfl, _⟩
    omega
  · rintro t p q ⟨_, ⟨rfl, _⟩, h⟩
    have := (mat_bounds t (.star (.set Char.isAlpha)) _ _ h).1
    omega

example : SameLooks [(⟨kw, fun _ _ => (1, some ⟨0, [1]⟩)⟩ : PRule Char Nat Nat), ⟨word, fun _ _ => (2, none)⟩] .skip := by
  intro r hr w gs _ _
  refine ⟨fun r' hr' gs' _ h => ?_, fun f h => by cases h⟩
  simp only [List.mem_cons, List.not_mem_nil, or_false] at hr hr'
  rcases hr with rfl | rfl <;> rcases hr' with rfl | rfl <;> simp_all

/-- With `\b`, adding a character before `if` changes what the text is. -/
private def kwLang : Lang Char Nat Nat RM :=
  patLang 0 (fun _ => false) (fun _ => false)
    (fun l => if l = 0 then [⟨kw, fun _ _ => (1, some ⟨0, [1]⟩)⟩, ⟨word, fun _ _ => (2, none)⟩]
      else [⟨word, fun _ _ => (3, some ⟨1, []⟩)⟩]) (fun _ => .skip)

example : ((lexRun kwLang "a if b c".toList 10 (LState.start [0] 0)).1.map (fun e => (e.target, e.lexemes.map (fun x => (x.pos, x.act))))) =
    [(none, [(0, 2)]), (none, [(2, 1)]), (some ⟨0, [1]⟩, [(5, 3)]), (some ⟨1, []⟩, [(7, 2)])] ∧
    ((lexRun kwLang "axif b c".toList 10 (LState.start [0] 0)).1.map (fun e => (e.target, e.lexemes.map (fun x => (x.pos, x.act))))) =
    [(none, [(0, 2)]), (none, [(5, 2)]), (none, [(7, 2)])] := by decide +kernel

end Parce

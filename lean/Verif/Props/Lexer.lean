import Verif.Lemmas.Resume
/-!
# Properties C17-C20 and C23-C25: targets and the lexer
-/
set_option linter.unusedSectionVars false
namespace Parce
variable {α L A ρ : Type}

/-! ## C17 -/

/-- A factory after a sequence of requests. -/
def Req.feed (f : Factory L) : Req L → Factory L
  | .pop n => f.pop n
  | .push ls => f.push ls

/-- **C17.** The one target of the factory does to any stack what the requests do one after
    the other; the factory is empty again afterwards. (Stacks that are not deep enough are
    emptied, as by `del lexicons[-n:]`.) -/
theorem C17_compose (reqs : List (Req L)) (stack : List L) :
    applyOpt (reqs.foldl Req.feed Factory.init).get.1 stack = reqs.foldl Req.run stack ∧
    (reqs.foldl Req.feed Factory.init).get.2 = Factory.init := by
  refine ⟨?_, get_init _⟩
  rw [get_eff]
  have key : ∀ (reqs : List (Req L)) (f : Factory L),
      (reqs.foldl Req.feed f).eff stack = reqs.foldl Req.run (f.eff stack) := by
    intro reqs
    induction reqs with
    | nil => intro f; rfl
    | cons r rs ih =>
      intro f
      rw [List.foldl_cons, List.foldl_cons, ih]
      cases r with
      | pop n => simp only [Req.feed, Req.run, eff_pop]
      | push ls => simp only [Req.feed, Req.run, eff_push]
  rw [key, eff_init]

/-- **C17.** `add` composes with what is pending. -/
theorem C17_add (f : Factory L) (t : Target L) (stack : List L) :
    applyOpt (f.add t).get.1 stack = t.apply (applyOpt f.get.1 stack) := by
  rw [get_eff, get_eff, eff_add]

/-- **C17.** `get()` returns None exactly when the combined effect is empty. -/
theorem C17_none_iff [Nonempty L] (reqs : List (Req L)) :
    (reqs.foldl Req.feed Factory.init).get.1 = none ↔ ∀ stack, reqs.foldl Req.run stack = stack := by
  constructor
  · intro h stack
    have := (C17_compose reqs stack).1
    rw [h] at this
    exact this.symm
  · intro h
    have h2 : ∀ stack, (reqs.foldl Req.feed Factory.init).eff stack = stack := by
      intro stack; rw [← get_eff, (C17_compose reqs stack).1, h]
    generalize reqs.foldl Req.feed Factory.init = f at h2 ⊢
    have h3 : f.fpush = [] := by simpa [Factory.eff] using h2 []
    have h4 : f.fpop = 0 := by
      obtain ⟨x⟩ := ‹Nonempty L›
      have := congrArg List.length (h2 [x])
      simp [Factory.eff, h3] at this
      omega
    simp [Factory.get, h3, h4]

/-- **C17.** The target made of a rule has the effect of the rule's items in turn: negative
    numbers pop, positive numbers push the current lexicon that many times, lexicons are
    pushed. -/
theorem C17_make (self : L) (rule : List (TItem L)) (stack : List L) :
    applyOpt (makeTarget self rule) stack = (rule.map (TItem.req self)).foldl Req.run stack := by
  rw [← (C17_compose _ stack).1]
  unfold makeTarget
  congr 2
  rw [List.foldl_map]
  have key : ∀ (rule : List (TItem L)) (f : Factory L),
      rule.foldl (Factory.item self) f = rule.foldl (fun f i => Req.feed f (i.req self)) f := by
    intro rule
    induction rule with
    | nil => intro f; rfl
    | cons i is ih =>
      intro f
      rw [List.foldl_cons, List.foldl_cons, ih]
      congr 1
      cases i with
      | int i => simp only [Factory.item, TItem.req]; split <;> rfl
      | lex l => rfl
  rw [key]

example : ([.push [1, 2], .pop 1, .pop 3, .push [7], .push [8]] : List (Req Nat)).foldl Req.feed
      Factory.init = ⟨2, [7, 8]⟩ ∧
    ([.push [1, 2], .pop 1, .pop 3, .push [7], .push [8]] : List (Req Nat)).foldl Req.run
      [30, 20, 10] = [8, 7, 10] ∧
    makeTarget 5 [.int (-2), .lex 3, .int 2, .int (-1)] = some ⟨2, [3, 5]⟩ ∧
    makeTarget 5 [.lex 3, .int (-1)] = none := by
  refine ⟨?_, ?_, ?_, ?_⟩ <;> decide

variable [DecidableEq α]

/-! ## A small language for the examples

`(` enters lexicon 1, which has a default action and consumes nothing; `)` leaves five
lexicons. Lexicon 2 consumes its start token. -/

/-- Plain actions. -/
def plainExpand (tok : Tok α L A ρ) : List (Lexeme α A) := [⟨tok.pos, tok.text, tok.act⟩]

private def toy : Lang Char Nat Nat Unit where
  ld
    | 0 => .literal ['('] 10 (some ⟨0, [1]⟩) (.action fun _ => 11)
    | 1 => .literal [')'] 20 (some ⟨5, []⟩) (.action fun _ => 21)
    | _ => .empty (.action fun _ => 31)
  consume l := l == 2
  expand := plainExpand
  noAct := 0

private theorem toy_ok : ∀ l, LexOK (toy.ld l)
  | 0 => by simp [toy, LexOK]
  | 1 => by simp [toy, LexOK]
  | n + 2 => by simp [toy, LexOK]

private def toyText : List Char := "a(b)c".toList

private def toyEvents : List (Event Char Nat Nat) :=
  [⟨none, [⟨0, ['a'], 11⟩]⟩, ⟨none, [⟨1, ['('], 10⟩]⟩, ⟨some ⟨0, [1]⟩, [⟨2, ['b'], 21⟩]⟩,
   ⟨none, [⟨3, [')'], 20⟩]⟩, ⟨some ⟨1, []⟩, [⟨4, ['c'], 11⟩]⟩]

example : (lexRun toy toyText 9 (LState.start [0] 0)).1 = toyEvents ∧
    (lexRun toy toyText 9 (LState.start [0] 0)).2.isNone = true := by decide

/-! ## C18 -/

/-- **C18.** Whatever the language asks for, replaying the targets of the events on the
    starting stack never pops the root, and the root stays the same. -/
theorem C18_root_kept (lang : Lang α L A ρ) (t : List α) (stack : List L) (hs : stack ≠ [])
    (pos n : Nat) :
    KeepsRoot stack (lexRun lang t n (LState.start stack pos)).1 ∧
    (replayStack stack (lexRun lang t n (LState.start stack pos)).1).getLast? = stack.getLast? := by
  have h := (lexRun_stack lang t n _ stack (start_inv stack pos hs)).1
  exact ⟨h, keepsRoot_root _ _ h⟩

/-- **C18.** The lexer's own stack always has the same root. -/
theorem C18_lexer_stack (lang : Lang α L A ρ) (t : List α) (stack : List L) (pos n : Nat) (s : LState L ρ)
    (h : (lexRun lang t n (LState.start stack pos)).2 = some s) : s.stack.getLast? = stack.getLast? := by
  have key : ∀ (n : Nat) (s0 : LState L ρ), (lexRun lang t n s0).2 = some s →
      s.stack.getLast? = s0.stack.getLast? := by
    intro n
    induction n with
    | zero => intro s0 h; simp only [lexRun, Option.some.injEq] at h; rw [h]
    | succ n ih =>
      intro s0 h
      simp only [lexRun] at h
      cases hs : lexStep lang t s0 with
      | none => rw [hs] at h; simp at h
      | some r => rw [hs] at h; rw [ih r.1 h, lexStep_root hs]
  exact key n _ h

/-- `)` asks to leave five lexicons, only one is left. -/
example : KeepsRoot [0] toyEvents ∧ replayStack [0] toyEvents = [0] := by
  refine ⟨?_, by decide⟩
  simp [toyEvents, KeepsRoot, applyOpt, Target.apply]

/-! ## C19 -/

/-- **C19.** All lexemes are non-empty, have the text found at their position, and follow each
    other without overlap between the start position and the end of the text, when the actions
    are plain, or expand a token to lexemes inside that token. -/
theorem C19_lexemes_ordered (lang : Lang α L A ρ) (t : List α) (hl : ∀ l, LexOK (lang.ld l))
    (he : ExpandsWithin lang t) (stack : List L) (hs : stack ≠ []) (pos : Nat) (hp : pos ≤ t.length) (n : Nat) :
    Within t pos t.length (lexemes (lexRun lang t n (LState.start stack pos)).1) :=
  lexRun_within lang t hl he n _ (start_ok lang t stack hp) hs

theorem C19_plain (lang : Lang α L A ρ) (h : Plain lang) (t : List α) : ExpandsWithin lang t := by
  intro _ _ _ tok _ _ h1 h2 h3
  rw [h tok]
  exact ⟨Nat.le_refl _, h1, h2, h3, Nat.le_refl _⟩

example : Plain toy ∧ ∀ l, LexOK (toy.ld l) := ⟨fun _ => rfl, toy_ok⟩

/-! ## C20 -/

/-- **C20** (partial: a match of the empty string must not enter another lexicon; see
    `C20_violated` for what happens otherwise). When every lexicon has a default action, the
    lexemes' texts joined are the text from the start position. -/
theorem C20_complete_partial (lang : Lang α L A ρ) (t : List α) (hl : ∀ l, LexOK (lang.ld l)) (hp : Plain lang)
    (hd : ∀ l, HasDefaultAction (lang.ld l)) (hn : ∀ l, NoEmptyPush (lang.ld l))
    (stack : List L) (hs : stack ≠ []) (pos : Nat) (hpos : pos ≤ t.length) (n : Nat)
    (hdone : (lexRun lang t n (LState.start stack pos)).2 = none) :
    (lexemes (lexRun lang t n (LState.start stack pos)).1).flatMap (·.text) = t.drop pos := by
  have h := (lexRun_cover lang t hl hp hd hn n _ (start_ok lang t stack hpos) hs).1
  rw [hdone] at h
  rw [h]
  simp [LState.start, PS.floor, slice]

/-- **C20**, while lexing is going on: no character before the current position is missing. -/
theorem C20_prefix_partial (lang : Lang α L A ρ) (t : List α) (hl : ∀ l, LexOK (lang.ld l)) (hp : Plain lang)
    (hd : ∀ l, HasDefaultAction (lang.ld l)) (hn : ∀ l, NoEmptyPush (lang.ld l))
    (stack : List L) (hs : stack ≠ []) (pos : Nat) (hpos : pos ≤ t.length) (n : Nat) :
    ∃ q, q ≤ t.length ∧
      (lexemes (lexRun lang t n (LState.start stack pos)).1).flatMap (·.text) = slice t pos q := by
  have h := lexRun_cover lang t hl hp hd hn n _ (start_ok lang t stack hpos) hs
  cases h2 : (lexRun lang t n (LState.start stack pos)).2 with
  | none => rw [h2] at h; exact ⟨t.length, Nat.le_refl _, h.1⟩
  | some s' =>
    rw [h2] at h
    obtain ⟨_, h3, h4⟩ := h.2 s' rfl
    exact ⟨_, floor_le h3 h4, h.1⟩

example : (∀ l, HasDefaultAction (toy.ld l)) ∧ (∀ l, NoEmptyPush (toy.ld l)) ∧
    (lexemes toyEvents).flatMap (·.text) = toyText := by
  refine ⟨fun l => ?_, fun l => ?_, by decide⟩
  · match l with
    | 0 => trivial
    | 1 => trivial
    | n + 2 => trivial
  · match l with
    | 0 => trivial
    | 1 => trivial
    | n + 2 => trivial

/-- Lexicon 0 enters lexicon 1 in front of an `x` (a lookahead), lexicon 1 leaves there. Both
    have a default action. -/
private def circLang : Lang Char Nat Nat Unit where
  ld l := .regex
    (fun t p b => ((List.range t.length).find? (fun i => p ≤ i && t[i]? == some 'x' && !(b && i == p))).map
      (fun i => ⟨i, i, ()⟩))
    (fun _ _ => none)
    (fun _ _ => (7, some (if l = 0 then ⟨0, [1]⟩ else ⟨1, []⟩))) (.action fun _ => 9)
  consume _ := false
  expand := plainExpand
  noAct := 0

private theorem circLang_ok (l : Nat) : LexOK (circLang.ld l) := by
  refine ⟨?_, by simp⟩
  intro t p b m h
  simp only [Option.map_eq_some_iff] at h
  obtain ⟨i, hi, rfl⟩ := h
  have h1 := List.find?_some hi
  have h2 := List.mem_range.1 (List.mem_of_find?_eq_some hi)
  simp only [Bool.and_eq_true, decide_eq_true_eq, Bool.not_eq_true', Bool.and_eq_false_iff] at h1
  refine ⟨h1.1.1, Nat.le_refl _, by simp only; omega, ?_⟩
  intro hb
  rcases h1.2 with h3 | h3
  · rw [hb] at h3; simp at h3
  · have : i ≠ p := by simpa using h3
    have := h1.1.1
    simp only
    omega

/-- **C20 is violated**: the detection of circular targets skips a character, which then is
    in no lexeme, although both lexicons have a default action. -/
theorem C20_violated : (∀ l, LexOK (circLang.ld l)) ∧ (∀ l, HasDefaultAction (circLang.ld l)) ∧ Plain circLang ∧
    (lexRun circLang ['x', 'y'] 9 (LState.start [0] 0)).2.isNone = true ∧
    (lexemes (lexRun circLang ['x', 'y'] 9 (LState.start [0] 0)).1).flatMap (·.text) = ['y'] :=
  ⟨circLang_ok, fun _ => trivial, fun _ => rfl, by decide, by decide⟩

/-! ## C23 -/

/-- The root lexicon has no rules but a default target that leaves the lexicon. -/
private def popRoot : Lang Char Nat Nat Unit where
  ld _ := .empty (.target ⟨1, []⟩)
  consume _ := false
  expand := plainExpand
  noAct := 0

/-- **C23 is violated**: with a root lexicon that has a default target `-1`, lexing never ends.
    (`validate.check_default_target` accepts such a lexicon, see `Props/Validate.lean`.) -/
theorem C23_violated : ∀ n, (lexRun popRoot ['x'] n (LState.start [0] 0)).2 ≠ none := by
  have key : ∀ n (s : LState Nat Unit), s.stack = [0] → s.ps = .at 0 false →
      (lexRun popRoot ['x'] n s).2 ≠ none := by
    intro n
    induction n with
    | zero => intro s _ _; simp [lexRun]
    | succ n ih =>
      intro s h1 h2
      have hp : parseNext popRoot.noAct (popRoot.ld 0) ['x'] (PS.at 0 false) =
          some (⟨0, [], none, 0, some ⟨1, []⟩⟩, .stop) := rfl
      simp only [lexRun, lexStep, h1, h2, hp]
      simp only [ne_eq, not_true_eq_false, if_false]
      by_cases hc : (0, [0].length - (clampPop [0] (⟨1, []⟩ : Target Nat)).pop,
          (clampPop [0] (⟨1, []⟩ : Target Nat)).push.length) ∈ s.circ
      · rw [if_pos hc]; exact ih _ rfl rfl
      · rw [if_neg hc]; exact ih _ rfl rfl
  exact fun n => key n _ rfl rfl

/-- `$` enters lexicon 1 from lexicon 0, `$` leaves lexicon 1. -/
private def endLoop : Lang Char Nat Nat Unit where
  ld l := .regex (fun t p b => if b = true ∨ t.length < p then none else some ⟨t.length, t.length, ()⟩)
    (fun t p => if p = t.length then some ⟨p, p, ()⟩ else none)
    (fun _ _ => (7, some (if l = 0 then ⟨0, [1]⟩ else ⟨1, []⟩))) .skip
  consume _ := false
  expand := plainExpand
  noAct := 0

/-- **C23 is violated** also without any default target: two lexicons that enter and leave
    each other at the end of the text; the detection of circular targets does not help, because
    the position can not be advanced there. -/
theorem C23_violated_end : ∀ n, (lexRun endLoop ['x'] n (LState.start [0] 0)).2 ≠ none := by
  have key : ∀ n (s : LState Nat Unit), (s.stack = [0] ∨ s.stack = [1, 0]) →
      (s.ps = .at 0 false ∨ s.ps = .at 1 false) → (lexRun endLoop ['x'] n s).2 ≠ none := by
    intro n
    induction n with
    | zero => intro s _ _; simp [lexRun]
    | succ n ih =>
      intro s h1 h2
      have hp : ∀ l, parseNext endLoop.noAct (endLoop.ld l) ['x'] s.ps =
          some (⟨1, [], some ⟨1, 1, ()⟩, 7, some (if l = 0 then ⟨0, [1]⟩ else ⟨1, []⟩)⟩, .at 1 true) := by
        intro l
        rcases h2 with h2 | h2 <;> rw [h2] <;> rfl
      rcases h1 with h1 | h1
      · simp only [lexRun, lexStep, h1, hp]
        simp only [ne_eq, not_true_eq_false, if_false, if_true]
        by_cases hc : (1, [0].length - (clampPop [0] (⟨0, [1]⟩ : Target Nat)).pop,
            (clampPop [0] (⟨0, [1]⟩ : Target Nat)).push.length) ∈ s.circ
        · rw [if_pos hc]; exact ih _ (Or.inr rfl) (Or.inr rfl)
        · rw [if_neg hc]; exact ih _ (Or.inr rfl) (Or.inr rfl)
      · simp only [lexRun, lexStep, h1, hp]
        have h10 : ¬ (1 = 0) := by decide
        simp only [ne_eq, not_true_eq_false, if_false, if_neg h10]
        by_cases hc : (1, [1, 0].length - (clampPop [1, 0] (⟨1, []⟩ : Target Nat)).pop,
            (clampPop [1, 0] (⟨1, []⟩ : Target Nat)).push.length) ∈ s.circ
        · rw [if_pos hc]; exact ih _ (Or.inl rfl) (Or.inr rfl)
        · rw [if_neg hc]; exact ih _ (Or.inl rfl) (Or.inr rfl)
  exact fun n => key n _ (Or.inl rfl) (Or.inl rfl)

/-- **C23** (partial): lexing ends when there is no endless chain of targets that are followed
    without consuming text (stated with a measure of text, position and lexicon stack), and no lexicon with a
    default target has an empty match without a target. Nothing else is assumed about the
    language. Missing: the languages in which such a chain is circular and is broken by the
    lexer's detection of circular targets; see `C23_circular_partial` in `Props/Circular.lean`. -/
theorem C23_terminates_partial (lang : Lang α L A ρ) (t : List α) (hl : ∀ l, LexOK (lang.ld l))
    (hn : ∀ l, NoStuckMatch (lang.ld l)) (stack : List L) (root : L) (hroot : stack.getLast? = some root)
    (μ : List α → Nat → List L → Nat) (hμ : EmptyTargetsDecrease lang root μ) (pos : Nat) (hp : pos ≤ t.length) :
    ∃ n, (lexRun lang t n (LState.start stack pos)).2 = none :=
  lex_terminates lang t hl hn root μ hμ _ (start_ok lang t stack hp) hroot

/-- **C23**, a condition on the rules: targets that are followed without consuming text leave
    lexicons and enter none, and the root has no such target. (In particular: languages without
    default targets in which matches with a target are not empty.) -/
theorem C23_terminates_pops_partial (lang : Lang α L A ρ) (t : List α) (hl : ∀ l, LexOK (lang.ld l))
    (hn : ∀ l, NoStuckMatch (lang.ld l)) (stack : List L) (root : L) (hroot : stack.getLast? = some root)
    (hpop : ∀ l, EmptyTgts (fun tg => tg.push = [] ∧ 0 < tg.pop) (lang.ld l))
    (hno : EmptyTgts (fun _ => False) (lang.ld root)) (pos : Nat) (hp : pos ≤ t.length) :
    ∃ n, (lexRun lang t n (LState.start stack pos)).2 = none := by
  refine C23_terminates_partial lang t hl hn stack root hroot (fun _ _ s => s.length) ?_ pos hp
  intro t top rest ps ps' tok tg hr hps h1 h2 h3
  obtain ⟨h4, h5⟩ := parseNext_emptyTgts (hl top) (hpop top) hps h1 h2 h3
  cases rest with
  | nil =>
    simp only [List.getLast?_singleton, Option.some.injEq] at hr
    subst hr
    exact (parseNext_emptyTgts (hl top) hno hps h1 h2 h3).elim
  | cons r rs =>
    have h6 : (clampPop (top :: r :: rs) tg).push = [] ∧ 0 < (clampPop (top :: r :: rs) tg).pop := by
      unfold clampPop
      split
      · exact ⟨h4, by simp⟩
      · exact ⟨h4, h5⟩
    simp only [Target.apply, h6.1, List.reverse_nil, List.nil_append, List.length_drop]
    have := h6.2
    simp only [List.length_cons]
    omega

/-- Lexicon 1 leaves itself at anything but `b`. -/
private def popLang : Lang Char Nat Nat Unit where
  ld l := if l = 0 then .literal ['('] 10 (some ⟨0, [1]⟩) .skip
    else .literal ['b'] 20 none (.target ⟨1, []⟩)
  consume _ := false
  expand := plainExpand
  noAct := 0

example : (∀ l, LexOK (popLang.ld l)) ∧ (∀ l, NoStuckMatch (popLang.ld l)) ∧
    (∀ l, EmptyTgts (fun tg => tg.push = [] ∧ 0 < tg.pop) (popLang.ld l)) ∧
    EmptyTgts (fun _ => False) (popLang.ld 0) ∧
    (lexRun popLang "(bbx(c".toList 9 (LState.start [0] 0)).2.isNone = true := by
  refine ⟨fun l => ?_, fun l => ?_, fun l => ?_, ?_, by decide⟩
  · by_cases h : l = 0 <;> simp [popLang, h, LexOK]
  · by_cases h : l = 0 <;> simp [popLang, h, NoStuckMatch]
  · by_cases h : l = 0
    · simp [popLang, h, EmptyTgts]
    · simp only [popLang, h, EmptyTgts, if_false]
      intro tg htg; cases htg; exact ⟨rfl, by decide⟩
  · simp [popLang, EmptyTgts]

/-! ## C24 -/

/-- **C24.** A literal pattern, searched with `str.find`, gives the same stream of `(pos, text,
    action, target)` as the general path for a pattern that matches just that literal, with a
    default action, a default target or neither. -/
theorem C24_literal (noAct : A) (needle : List α) (hne : needle ≠ []) (act : A) (tgt : Option (Target L))
    (d : Dflt α L A) (r : ρ) (t : List α) (pos n : Nat) :
    (parseTake noAct (.literal needle act tgt d : LexDef α L A ρ) t n (.at pos false)).map Tok.proj =
    (parseTake noAct (literalAsRegex needle act tgt d r) t n (.at pos false)).map Tok.proj :=
  literal_take noAct needle hne act tgt d r t n _ _ (.at pos false false)

example : (parseTake 0 (.literal ['a', 'a'] 1 (some ⟨0, [5]⟩) (.action fun _ => 2) : LexDef Char Nat Nat Unit)
      "xaaay".toList 9 (.at 0 false)).map Tok.proj =
    [(0, ['x'], 2, none), (1, ['a', 'a'], 1, some ⟨0, [5]⟩), (3, ['a', 'y'], 2, none)] := by decide

/-! ## C25 -/

/-- **C25.** Right after any event, a new lexer started with the lexicon stack reached, at the
    position reached, yields the remaining events. The events are identical, except that the
    first one does not repeat the target that was already pending: that target leads from the
    replayed stack to the same stack as in the original events. -/
theorem C25_resume (lang : Lang α L A ρ) (t : List α) (hl : ∀ l, LexOK (lang.ld l))
    (hlm : ∀ l, Leftmost (lang.ld l)) (stack : List L) (hs : stack ≠ []) (pos : Nat) (hp : pos ≤ t.length)
    (n : Nat) (s0 s : LState L ρ) (ev : List (Event α L A))
    (h0 : (lexRun lang t n (LState.start stack pos)).2 = some s0)
    (h1 : lexStep lang t s0 = some (s, ev)) (hev : ev ≠ []) (k : Nat) :
    let before := (lexRun lang t n (LState.start stack pos)).1 ++ ev
    let new := lexRun lang t k (LState.start s.stack (s.ps.floor t))
    ∃ after, lexRun lang t (n + 1 + k) (LState.start stack pos) = (before ++ after, (lexRun lang t k s).2) ∧
      SameFrom (replayStack stack before) s.stack after new.1 ∧
      (lexRun lang t k s).2.isNone = new.2.isNone := by
  simp only
  have hrun1 : lexRun lang t 1 s0 = (ev, some s) := by simp [lexRun, h1]
  have hadd : lexRun lang t (n + 1) (LState.start stack pos) =
      ((lexRun lang t n (LState.start stack pos)).1 ++ ev, some s) := by
    rw [lexRun_add lang t n 1 _ s0 h0, hrun1]
  refine ⟨(lexRun lang t k s).1, ?_, ?_⟩
  · rw [lexRun_add lang t (n + 1) k _ s (by rw [hadd]), hadd]
  obtain ⟨hok0, hc0, hne0⟩ := lexRun_ok lang t hl n _ s0 (start_ok lang t stack hp)
    (by simp [CircOK, LState.start]) hs h0
  obtain ⟨hok, top, rest, tok, ps', hst, hpn, htok, hlx, hfl, hcase⟩ := lexStep_pos hl hok0 h1
  have hcirc := (lexStep_circ hl hok0 hc0 h1).2 hev
  have hte : tok.text ≠ [] := by
    intro h
    obtain ⟨top2, rest2, tok2, ps2, hst2, hp2, hc⟩ := lexStep_cases h1
    rw [hst] at hst2; cases hst2
    rw [hpn] at hp2; cases hp2
    rcases hc with ⟨_, h12, _⟩ | ⟨_, _, _, h12⟩ | ⟨tg0, tg, _, _, h12, _⟩ | ⟨tg0, tg, _, _, _, h12, _⟩
    · exact h12 h
    · exact hev h12
    · exact h12 h
    · exact hev h12
  -- a fresh generator at the position reached behaves the same
  have hfresh : ∀ l rest', s.stack = l :: rest' → parseNext lang.noAct (lang.ld l) t s.ps =
      parseNext lang.noAct (lang.ld l) t (.at (s.ps.floor t) false) := by
    intro l rest' hl'
    rcases hcase with ⟨h8, h9, _⟩ | ⟨_, h8, _⟩ | ⟨h8, _⟩ | ⟨h8, _⟩
    · rw [h9, hst] at hl'
      cases hl'
      rw [h8]
      exact parseNext_fresh (hl top) (hok0 top rest hst) (hlm top) hpn hte
    · rw [h8]; rfl
    · exact absurd h8 hte
    · exact absurd h8 hte
  have hstep : lexStep lang t s = lexStep lang t { s with ps := .at (s.ps.floor t) false } := by
    cases hst' : s.stack with
    | nil => simp [lexStep, hst']
    | cons l rest' => simp only [lexStep, hst', hfresh l rest' hst']
  have hrun : ∀ k, (lexRun lang t k s).1 = (lexRun lang t k { s with ps := .at (s.ps.floor t) false }).1 ∧
      (lexRun lang t k s).2.isNone = (lexRun lang t k { s with ps := .at (s.ps.floor t) false }).2.isNone := by
    intro k
    cases k with
    | zero => exact ⟨rfl, rfl⟩
    | succ k => simp only [lexRun, hstep]; exact ⟨trivial, trivial⟩
  have hinv : StackInv (replayStack stack ((lexRun lang t n (LState.start stack pos)).1 ++ ev)) s.stack s.fac := by
    have h := (lexRun_stack lang t (n + 1) _ stack (start_inv stack pos hs)).2 s (by rw [hadd])
    rw [hadd] at h
    exact h
  have hsim := lexRun_sim_comp lang t hl (replayStack stack ((lexRun lang t n (LState.start stack pos)).1 ++ ev))
    s.fac k { s with ps := .at (s.ps.floor t) false } (LState.start s.stack (s.ps.floor t))
    (fun _ _ _ => floor_le hok (lexStep_ne_nil h1))
    ⟨rfl, rfl, fun st hst => by
      have hst2 : s.ps.floor t ≤ st.1 := hst
      simp only [LState.start]
      constructor
      · intro hm; have := hcirc st hm; omega
      · intro hm; simp at hm⟩
    (comp_init _).symm
  rw [← hinv.1] at hsim
  rw [(hrun k).1, (hrun k).2]
  exact hsim

/-- **C25**, the position: for plain actions, it is the end of the last lexeme. -/
theorem C25_position (lang : Lang α L A ρ) (t : List α) (hl : ∀ l, LexOK (lang.ld l)) (hpl : Plain lang)
    (stack : List L) (hs : stack ≠ []) (pos : Nat) (hp : pos ≤ t.length)
    (n : Nat) (s0 s : LState L ρ) (ev : List (Event α L A))
    (h0 : (lexRun lang t n (LState.start stack pos)).2 = some s0)
    (h1 : lexStep lang t s0 = some (s, ev)) (hev : ev ≠ []) :
    ∃ e lx, ev = [e] ∧ e.lexemes = [lx] ∧ s.ps.floor t = lx.pos + lx.text.length := by
  obtain ⟨hok0, hc0, hne0⟩ := lexRun_ok lang t hl n _ s0 (start_ok lang t stack hp)
    (by simp [CircOK, LState.start]) hs h0
  obtain ⟨top, rest, tok, ps', hst, hpn, hc⟩ := lexStep_cases h1
  obtain ⟨htok, _⟩ := parseNext_ok (hl top) (hok0 top rest hst) hpn
  have hem : ∀ f, ∃ e lx, (emit lang f tok).2 = [e] ∧ e.lexemes = [lx] ∧ lx = ⟨tok.pos, tok.text, tok.act⟩ := by
    intro f
    rcases emit_cases lang f tok with ⟨h, _⟩ | ⟨_, h⟩
    · rw [hpl tok] at h; simp at h
    · rw [h]; exact ⟨_, _, rfl, hpl tok, rfl⟩
  rcases hc with ⟨_, hte, rfl, rfl⟩ | ⟨_, _, _, rfl⟩ | ⟨tg0, tg, _, _, hte, ⟨rfl, rfl⟩ | ⟨rfl, rfl⟩⟩ |
    ⟨tg0, tg, _, _, _, rfl, _⟩
  · obtain ⟨e, lx, h2, h3, rfl⟩ := hem s0.fac
    exact ⟨e, _, h2, h3, htok.exact hte⟩
  · exact absurd rfl hev
  · obtain ⟨e, lx, h2, h3, rfl⟩ := hem (s0.fac.add tg)
    exact ⟨e, _, h2, h3, rfl⟩
  · obtain ⟨e, lx, h2, h3, rfl⟩ := hem s0.fac
    exact ⟨e, _, h2, h3, rfl⟩
  · exact absurd rfl hev

/-- Resuming the example after the event of `(` (two steps), with lexicon 1 entered. -/
example : (∀ l, Leftmost (toy.ld l)) ∧
    ((lexRun toy toyText 2 (LState.start [0] 0)).2.map (fun s => (s.stack, s.ps.floor toyText))) =
      some ([1, 0], 2) ∧
    (lexRun toy toyText 9 (LState.start [1, 0] 2)).1 =
      ⟨none, [⟨2, ['b'], 21⟩]⟩ :: toyEvents.drop 3 := by
  refine ⟨fun l => ?_, by decide, by decide⟩
  match l with
  | 0 => trivial
  | 1 => trivial
  | n + 2 => trivial

end Parce

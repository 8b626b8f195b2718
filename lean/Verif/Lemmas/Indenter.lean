import Verif.Lemmas.Indent
import Verif.Spec.Indenter

/-! Lemmas about indenting by brackets. -/
set_option linter.unusedSectionVars false
namespace Parce.Ind
variable {α : Type} [DecidableEq α] {space : α → Bool} {sep : α}

theorem times_succ (n : Nat) (s : List α) : times (n + 1) s = times n s ++ s := by
  induction n with
  | zero => simp [times]
  | succ n ih =>
    calc times (n + 1 + 1) s = s ++ times (n + 1) s := rfl
      _ = s ++ (times n s ++ s) := by rw [ih]
      _ = times (n + 1) s ++ s := by rw [← List.append_assoc]; rfl

theorem times_mem {n : Nat} {s : List α} {a : α} (h : a ∈ times n s) : a ∈ s := by
  induction n with
  | zero => simp [times] at h
  | succ n ih =>
    simp only [times, List.mem_append] at h
    exact h.elim id ih

/-- The info of a line with such events. -/
def lineInfo (m a e : Nat) : Info α := ⟨List.replicate m none, a, e, none, none, false, false, false⟩

theorem info_late : ∀ (bs : List Bool) (m a e : Nat), ∃ m' e',
    infoLoop (bs.map (bracketEvent (α := α))) false (lineInfo m a e) = lineInfo m' a e' ∧
    ∀ d, levelAfter (d - e + m) bs = d - e' + m'
  | [], m, a, e => ⟨m, e, rfl, fun _ => rfl⟩
  | true :: bs, m, a, e => by
    obtain ⟨m', e', h1, h2⟩ := info_late bs (m + 1) a e
    refine ⟨m', e', ?_, h2⟩
    rw [← h1]
    simp only [List.map_cons, bracketEvent, infoLoop, lineInfo]
    rw [← List.replicate_succ']
  | false :: bs, m, a, e => by
    cases m with
    | zero =>
      obtain ⟨m', e', h1, h2⟩ := info_late bs 0 a (e + 1)
      refine ⟨m', e', ?_, ?_⟩
      · rw [← h1]
        simp [bracketEvent, infoLoop, lineInfo]
      · intro d
        rw [← h2 d]
        simp only [levelAfter]
        congr 1
    | succ m =>
      obtain ⟨m', e', h1, h2⟩ := info_late bs m a e
      refine ⟨m', e', ?_, ?_⟩
      · rw [← h1]
        simp only [List.map_cons, bracketEvent, infoLoop, lineInfo, Bool.false_eq_true, if_false]
        rw [if_pos (by simp [List.replicate_succ])]
        congr 2
        simp [List.replicate_succ']
      · intro d
        rw [← h2 d]
        simp only [levelAfter]
        congr 1

theorem info_early : ∀ (bs : List Bool) (a : Nat), ∃ m' e',
    infoLoop (bs.map (bracketEvent (α := α))) true (lineInfo 0 a 0) = lineInfo m' (a + closings bs) e' ∧
    ∀ d, levelAfter (d - a) bs = d - (a + closings bs) - e' + m'
  | [], a => ⟨0, 0, rfl, fun _ => by simp [levelAfter, closings]⟩
  | true :: bs, a => by
    obtain ⟨m', e', h1, h2⟩ := info_late (α := α) bs 1 a 0
    refine ⟨m', e', ?_, ?_⟩
    · simp only [closings, Nat.add_zero]
      rw [← h1]
      simp only [List.map_cons, bracketEvent, infoLoop, lineInfo]
      rfl
    · intro d
      have := h2 (d - a)
      simpa [levelAfter, closings] using this
  | false :: bs, a => by
    obtain ⟨m', e', h1, h2⟩ := info_early bs (a + 1)
    refine ⟨m', e', ?_, ?_⟩
    · rw [show a + closings (false :: bs) = a + 1 + closings bs by simp [closings]; omega, ← h1]
      simp only [List.map_cons, bracketEvent, infoLoop, lineInfo, if_true]
    · intro d
      rw [show a + closings (false :: bs) = a + 1 + closings bs by simp [closings]; omega, ← h2 d]
      simp only [levelAfter]
      congr 1

/-- The stack of indents at a level. -/
def stack (s : List α) : Nat → List (List α)
  | 0 => [[]]
  | n + 1 => times (n + 1) s :: stack s n

theorem stack_length (s : List α) (n : Nat) : (stack s n).length = n + 1 := by
  induction n with
  | zero => rfl
  | succ n ih => simp [stack, ih]

theorem stack_top (s : List α) (n : Nat) : ∃ r, stack s n = times n s :: r := by
  cases n with
  | zero => exact ⟨[], rfl⟩
  | succ n => exact ⟨stack s n, rfl⟩

theorem stack_drop (s : List α) (n k : Nat) (h : k ≤ n) : (stack s n).drop k = stack s (n - k) := by
  induction k generalizing n with
  | zero => rfl
  | succ k ih =>
    cases n with
    | zero => omega
    | succ n =>
      simp only [stack, List.drop_succ_cons]
      rw [ih n (by omega)]
      congr 1
      omega

theorem stack_pop (s : List α) (n k : Nat) : popIndents k (stack s n) = stack s (n - k) := by
  unfold popIndents
  rw [stack_length, stack_drop s n _ (by omega)]
  congr 1
  omega

theorem stack_push (c : Cfg α) : ∀ (m n : Nat), pushIndents c (List.replicate m none) (stack c.indentString n) =
    some (stack c.indentString (n + m))
  | 0, n => rfl
  | m + 1, n => by
    have ih := stack_push c m (n + 1)
    obtain ⟨r, hr⟩ := stack_top c.indentString n
    rw [show n + (m + 1) = n + 1 + m by omega, ← ih]
    rw [show stack c.indentString (n + 1) = times (n + 1) c.indentString :: stack c.indentString n from rfl]
    rw [List.replicate_succ, hr]
    simp only [pushIndents, times_succ]

/-- One line. -/
theorem step_line (c : Cfg α) (m n m' a e : Nat) (x : List α) :
    lineStep c true ⟨List.replicate m' none, a, e, some x, none, false, false, false⟩ (List.replicate m none) (stack c.indentString n) =
      some (stack c.indentString (n + m - a - e),
        if times (n + m - a) c.indentString ≠ x then some (times (n + m - a) c.indentString) else none) := by
  unfold lineStep
  rw [stack_push]
  simp only [Option.bind_eq_bind, Option.bind_some, stack_pop]
  obtain ⟨r, hr⟩ := stack_top c.indentString (n + m - a)
  unfold applyIndent
  simp only [or_true, and_self, if_true, Bool.true_eq_false, if_false, hr]
  simp only [Option.pure_def, Option.bind_some, ne_eq, Option.some.injEq]
  rw [← hr, stack_pop]

theorem body_eq (l : List α) : body space l = l.drop (ownIndent space l).length := by
  unfold body
  by_cases h : l.all space = true
  · rw [if_pos h, ownIndent_eq, if_pos]
    · rfl
    · rw [List.dropWhile_eq_nil_iff]; exact List.all_eq_true.1 h
  · rw [if_neg h, drop_ownIndent]
    rw [filled_iff, Ne, List.dropWhile_eq_nil_iff]
    exact fun hh => h (List.all_eq_true.2 hh)

/-- The loop over the lines. -/
theorem loop_lines (c : Cfg α) (E : Events α) (t : List α) (B : Nat → List Bool)
    (hE : ∀ n st, E t n st = (B n).map bracketEvent) : ∀ (bs : List Blk) (n m d : Nat), levelBefore B n = d + m →
    ∃ xs : List (Blk × Option (Change α)), xs.map (·.1) = bs ∧
      indentLoop space c E t 0 none bs n (List.replicate m none) (stack c.indentString d) = some (xs.filterMap (·.2)) ∧
      (∀ x ∈ xs, ∀ q, x.2 = some q → q.start = x.1.pos ∧
        q.stop = x.1.pos + (ownIndent space (slice t x.1.pos x.1.stop)).length) ∧
      ∀ i x, xs[i]? = some x → newLine t x =
        times (lineLevel B (n + i)) c.indentString ++ body space (slice t x.1.pos x.1.stop)
  | [], n, m, d, _ => ⟨[], rfl, rfl, by simp, by simp⟩
  | b :: bs, n, m, d, hd => by
    obtain ⟨m', e', h1, h2⟩ := info_early (α := α) (B n) 0
    have h2 := h2 (d + m)
    simp only [Nat.zero_add, Nat.sub_zero] at h1 h2
    have hinfo : indentInfo space (E t n (stack c.indentString d)) (slice t b.pos b.stop) =
        ⟨List.replicate m' none, closings (B n), e', some (ownIndent space (slice t b.pos b.stop)), none, false, false, false⟩ := by
      unfold indentInfo
      rw [hE, show (Info.init : Info α) = lineInfo 0 0 0 from rfl, h1]
      simp [lineInfo]
    obtain ⟨ys, g1, g2, g3, g4⟩ := loop_lines c E t B hE bs (n + 1) m' (d + m - closings (B n) - e') (by
      simp only [levelBefore, hd, h2])
    have hlev : lineLevel B n = d + m - closings (B n) := by rw [lineLevel, hd]
    have hstep := step_line c m d m' (closings (B n)) e' (ownIndent space (slice t b.pos b.stop))
    refine ⟨(b, if times (lineLevel B n) c.indentString ≠ ownIndent space (slice t b.pos b.stop) then
        some ⟨b.pos, b.pos + (ownIndent space (slice t b.pos b.stop)).length, times (lineLevel B n) c.indentString⟩ else none) :: ys,
      by simp [g1], ?_, ?_, ?_⟩
    · unfold indentLoop
      rw [hinfo]
      simp only [Nat.zero_le, decide_true, hstep, Option.bind_eq_bind, Option.bind_some, Option.pure_def, g2, hlev]
      by_cases he : times (d + m - closings (B n)) c.indentString ≠ ownIndent space (slice t b.pos b.stop)
      · simp [he]
      · simp [he]
    · intro x hx q hq
      rcases List.mem_cons.1 hx with rfl | hx
      · simp only at hq
        split at hq
        · cases hq; exact ⟨rfl, rfl⟩
        · cases hq
      · exact g3 x hx q hq
    · intro i x hx
      cases i with
      | zero =>
        simp only [List.getElem?_cons_zero, Option.some.injEq] at hx
        subst hx
        by_cases he : times (lineLevel B n) c.indentString ≠ ownIndent space (slice t b.pos b.stop)
        · simp only [if_pos he, Nat.add_zero]
          rw [newLine_indent rfl rfl, body_eq]
        · simp only [if_neg he, Nat.add_zero]
          rw [Classical.not_not.1 he, body_eq]
          have hpre : ownIndent space (slice t b.pos b.stop) <+: slice t b.pos b.stop := by
            rw [ownIndent_eq]
            split
            · exact List.nil_prefix
            · exact List.takeWhile_prefix _
          obtain ⟨r, hr⟩ := hpre
          simp only [newLine]
          generalize slice t b.pos b.stop = l at hr
          conv => rhs; rw [show l.drop (ownIndent space l).length = r by
            conv => lhs; rw [← hr]
            exact List.drop_left' (by rw [hr])]
          exact hr.symm
      | succ i =>
        simp only [List.getElem?_cons_succ] at hx
        rw [g4 i x hx, show n + 1 + i = n + (i + 1) by omega]

/-! The runs of tokens. -/

variable {T G : Type} [DecidableEq G]

theorem run_groups (lang : T → G) (get : G → Option (List T → List (Ev α))) : ∀ (ts : List T) (cur : G) (run : List T),
    run ≠ [] → (∀ t ∈ run, lang t = cur) →
    ∃ (g : G × List T) (gs : List (G × List T)), (g :: gs).flatMap (·.2) = run ++ ts ∧ g.1 = cur ∧ run <+: g.2 ∧
      (∀ q ∈ g :: gs, q.2 ≠ [] ∧ ∀ t ∈ q.2, lang t = q.1) ∧
      (∀ pre post a b, g :: gs = pre ++ a :: b :: post → a.1 ≠ b.1) ∧
      runLoop lang get cur run ts = (g :: gs).flatMap (fun q => runEvents get q.1 q.2)
  | [], cur, run, hne, hr => by
    refine ⟨(cur, run), [], by simp, rfl, List.prefix_refl _, by simpa using ⟨hne, hr⟩, ?_, by simp [runLoop]⟩
    intro pre post a b h
    have := congrArg List.length h
    simp at this
    omega
  | t :: ts, cur, run, hne, hr => by
    by_cases h : lang t ≠ cur
    · obtain ⟨g, gs, h1, h2, h3, h4, h5, h6⟩ := run_groups lang get ts (lang t) [t] (by simp) (by simp)
      refine ⟨(cur, run), g :: gs, ?_, rfl, List.prefix_refl _, ?_, ?_, ?_⟩
      · rw [List.flatMap_cons, h1]; rfl
      · intro q hq
        rcases List.mem_cons.1 hq with rfl | hq
        · exact ⟨hne, hr⟩
        · exact h4 q hq
      · intro pre post a b he
        cases pre with
        | nil =>
          simp only [List.nil_append, List.cons.injEq] at he
          rw [← he.1, ← he.2.1, h2]
          exact Ne.symm h
        | cons p pre =>
          simp only [List.cons_append, List.cons.injEq] at he
          exact h5 pre post a b he.2
      · simp only [runLoop, if_pos h]
        rw [h6]; rfl
    · have h' := Classical.not_not.1 h
      obtain ⟨g, gs, h1, h2, h3, h4, h5, h6⟩ := run_groups lang get ts cur (run ++ [t]) (by simp) (by
        intro u hu
        rcases List.mem_append.1 hu with hu | hu
        · exact hr u hu
        · simp at hu; rw [hu, h'])
      refine ⟨g, gs, by rw [h1]; simp, h2, (List.prefix_append _ _).trans h3, h4, h5, ?_⟩
      simp only [runLoop, if_neg h]
      exact h6

end Parce.Ind

import Verif.Lemmas.Indenter
import Verif.Props.Block

/-!
C107: indenting by brackets.
-/
set_option linter.unusedSectionVars false
namespace Parce.Ind

variable {α : Type} [DecidableEq α]

/-- C107. If the events are those of brackets, as for CSS, then after indenting the whole text each line
has the indent string as many times as its level says. (A line with only white space keeps that after
the new indent.) -/
theorem C107_levels (space : α → Bool) (sep : α) (c : Cfg α) (E : Events α) (t : List α) (B : Nat → List Bool)
    (hE : ∀ n st, E t n st = (B n).map bracketEvent) (hs : sep ∉ c.indentString) :
    ∃ t', indentText space sep c E t 0 none = some t' ∧
      linesOf sep t' = (linesOf sep t).mapIdx (fun n l => times (lineLevel B n) c.indentString ++ body space l) := by
  obtain ⟨_, hline, hsep, _⟩ := C13_blocks_partition t sep
  obtain ⟨xs, h1, h2, h3, h4⟩ := loop_lines (space := space) c E t B hE (blocks t sep) 0 0 0 rfl
  have hmem : ∀ x ∈ xs, x.1 ∈ blocks t sep := fun x hx => h1 ▸ List.mem_map_of_mem hx
  have hbody : ∀ l : List α, sep ∉ l → sep ∉ body space l := by
    intro l hl hm
    rw [body_eq] at hm
    exact hl (List.mem_of_mem_drop hm)
  have hlines := edited_lines (sep := sep) t xs h1 (by
    intro x hx q hq
    obtain ⟨a1, a2⟩ := h3 x hx q hq
    have hl := hline _ (hmem x hx)
    have := ownIndent_length (space := space) (slice t x.1.pos x.1.stop)
    rw [slice_length_line hl] at this
    have := hl.le
    omega) (by
    intro x hx hm
    obtain ⟨i, hi⟩ := List.getElem?_of_mem hx
    rw [h4 i x hi, List.mem_append] at hm
    rcases hm with hm | hm
    · exact hs (times_mem hm)
    · exact hbody _ (hsep _ (hmem x hx)) hm)
  refine ⟨edited t (xs.filterMap (·.2)), ?_, ?_⟩
  · unfold indentText indentEdits
    have h2' : indentLoop space c E t 0 none (blocks t sep) 0 [] [[]] = some (xs.filterMap (·.2)) := h2
    rw [h2']; rfl
  · rw [hlines, ← blocks_texts]
    apply List.ext_getElem?
    intro i
    rw [← h1]
    simp only [List.getElem?_map, List.getElem?_mapIdx]
    cases hi : xs[i]? with
    | none => rfl
    | some x =>
      simp only [Option.map_some, Option.some.injEq]
      rw [h4 i x hi, Nat.zero_add]

/-- The lines `a{{`, `b`, `}}}c`, `}{`, `d` with 1 for a blank and 0 for a newline. -/
example : (let B : Nat → List Bool := fun n => ([[true, true], [], [false, false, false], [false, true], []][n]?).getD []
    indentText (· == 1) 0 ⟨[1], true⟩ (fun _ n _ => (B n).map bracketEvent) [5, 0, 6, 0, 1, 1, 7, 0, 8, 0, 9] 0 none =
      some [5, 0, 1, 1, 6, 0, 7, 0, 8, 0, 1, 9] ∧ (List.range 5).map (lineLevel B) = [0, 2, 0, 0, 1]) := by decide +kernel

/-- C107. For texts where no bracket closes more than is open, the level is the number of opening brackets
minus the number of closing ones. -/
theorem C107_balanced (B : Nat → List Bool) (n : Nat)
    (h : ∀ p, p <+: (List.range n).flatMap B → p.count false ≤ p.count true) :
    levelBefore B n + ((List.range n).flatMap B).count false = ((List.range n).flatMap B).count true := by
  have hl : ∀ (bs : List Bool) (d : Nat), (∀ p, p <+: bs → p.count false ≤ d + p.count true) →
      levelAfter d bs + bs.count false = d + bs.count true := by
    intro bs
    induction bs with
    | nil => intro d _; simp [levelAfter]
    | cons b bs ih =>
      intro d hd
      cases b with
      | true =>
        have := ih (d + 1) (by
          intro p hp
          have := hd (true :: p) (List.cons_prefix_cons.2 ⟨rfl, hp⟩)
          simp at this
          omega)
        simp only [levelAfter, List.count_cons]
        simp
        omega
      | false =>
        have h1 := hd [false] (List.cons_prefix_cons.2 ⟨rfl, List.nil_prefix⟩)
        simp at h1
        have := ih (d - 1) (by
          intro p hp
          have := hd (false :: p) (List.cons_prefix_cons.2 ⟨rfl, hp⟩)
          simp at this
          omega)
        simp only [levelAfter, List.count_cons]
        simp
        omega
  have happ : ∀ (a b : List Bool) (d : Nat), levelAfter d (a ++ b) = levelAfter (levelAfter d a) b := by
    intro a
    induction a with
    | nil => intro b d; rfl
    | cons x a ih => intro b d; cases x <;> exact ih b _
  have hb : ∀ n, levelBefore B n = levelAfter 0 ((List.range n).flatMap B) := by
    intro n
    induction n with
    | zero => rfl
    | succ n ih =>
      rw [List.range_succ, List.flatMap_append, happ, ← ih]
      simp [levelBefore]
  rw [hb n]
  have := hl ((List.range n).flatMap B) 0 (by simpa using h)
  simpa using this

example : ∀ p, p <+: (List.range 2).flatMap (fun n => if n = 0 then [true, true, false] else [false]) →
    p.count false ≤ p.count true := by
  intro p hp
  have hp : p <+: [true, true, false, false] := hp
  have hl := hp.length_le
  rw [List.prefix_iff_eq_take] at hp
  generalize p.length = k at hp hl
  simp only [List.length_cons, List.length_nil] at hl
  subst hp
  revert k
  decide

variable {T G : Type} [DecidableEq G]

/-- C107. The tokens of a line are given to the indenters of their languages: in runs of tokens of the same
language, from left to right, as long as possible. -/
theorem C107_runs (lang : T → G) (get : G → Option (List T → List (Ev α))) (ts : List T) :
    ∃ gs : List (G × List T), gs.flatMap (·.2) = ts ∧
      (∀ q ∈ gs, q.2 ≠ [] ∧ ∀ t ∈ q.2, lang t = q.1) ∧
      (∀ pre post a b, gs = pre ++ a :: b :: post → a.1 ≠ b.1) ∧
      indentEvents lang get ts = gs.flatMap (fun q => ((get q.1).map (· q.2)).getD []) := by
  have hr : (fun q : G × List T => ((get q.1).map (· q.2)).getD []) = fun q => runEvents get q.1 q.2 := by
    funext q
    unfold runEvents
    cases get q.1 <;> rfl
  rw [hr]
  cases ts with
  | nil =>
    refine ⟨[], rfl, by simp, ?_, rfl⟩
    intro pre post a b h
    have := congrArg List.length h
    simp at this
  | cons t ts =>
    obtain ⟨g, gs, h1, -, -, h4, h5, h6⟩ := run_groups lang get ts (lang t) [t] (by simp) (by simp)
    exact ⟨g :: gs, h1, h4, h5, h6⟩

/-- C107. If the only language with an indenter is CSS, then the events are those of the brackets of its
tokens; so that C107_levels can be used. -/
theorem C107_css (lang : T → G) (css : G) (bracket : T → Bool) (text : T → List Char) (ts : List T) :
    indentEvents lang (fun g => if g = css then some (cssEvents bracket text) else none) ts =
      (ts.filterMap (fun t => if lang t = css ∧ bracket t = true then
        (if text t = ['{'] then some true else if text t = ['}'] then some false else none) else none)).map
          (bracketEvent (α := α)) := by
  obtain ⟨gs, h1, h2, -, h4⟩ := C107_runs (α := α) lang (fun g => if g = css then some (cssEvents bracket text) else none) ts
  rw [h4, ← h1]
  clear h4 h1
  have hc : ∀ us : List T, (∀ t ∈ us, lang t = css) → cssEvents bracket text us =
      (us.filterMap (fun t => if lang t = css ∧ bracket t = true then
        (if text t = ['{'] then some true else if text t = ['}'] then some false else none) else none)).map
          (bracketEvent (α := α)) := by
    intro us
    induction us with
    | nil => intro _; rfl
    | cons u us ih =>
      intro h
      have hu := h u (by simp)
      simp only [cssEvents, ih (fun t ht => h t (by simp [ht])), List.filterMap_cons, hu, true_and]
      cases bracket u with
      | false => simp
      | true =>
        simp only [if_true]
        by_cases a1 : text u = ['{']
        · simp [a1, bracketEvent]
        · by_cases a2 : text u = ['}']
          · simp [a2, bracketEvent]
          · simp [a1, a2]
  induction gs with
  | nil => rfl
  | cons g gs ih =>
    rw [List.flatMap_cons, List.flatMap_cons, List.filterMap_append, List.map_append,
      ih (fun q hq => h2 q (by simp [hq]))]
    congr 1
    obtain ⟨-, hg⟩ := h2 g (by simp)
    by_cases h : g.1 = css
    · simp only [h, if_true, Option.map_some, Option.getD_some]
      exact hc g.2 (fun t ht => (hg t ht).trans h)
    · simp only [h, if_false, Option.map_none, Option.getD_none]
      rw [show g.2.filterMap _ = [] from List.filterMap_eq_nil_iff.2 ?_]
      · rfl
      · intro t ht
        rw [if_neg]
        rintro ⟨e, -⟩
        exact h ((hg t ht).symm.trans e)

example : indentEvents (α := Nat) (fun t : Nat × Char => t.1) (fun g => if g = 1 then some (cssEvents (fun _ => true) (fun t => [t.2])) else none)
    [(1, '{'), (2, '{'), (1, '}'), (1, 'a')] = [.indent, .dedent] := by decide

end Parce.Ind

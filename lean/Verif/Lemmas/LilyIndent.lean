import Verif.Lemmas.Indenter
import Verif.Model.LilyIndent
import Verif.Spec.LilyIndent
/-!
# Lemmas about indenting LilyPond
-/
set_option linter.unusedSectionVars false
namespace Parce.Ind
variable {α : Type} [DecidableEq α] {space : α → Bool} {sep : α}

/-- The event for a token. -/
def tokenEvent : Option Bool → Ev α
  | some b => bracketEvent b
  | none => .noDedent

theorem late_tokens : ∀ (ps : List (Option Bool)) (i : Info α), infoLoop (ps.map tokenEvent) false i = infoLoop ((ps.filterMap id).map bracketEvent) false i
  | [], _ => rfl
  | none :: ps, i => late_tokens ps i
  | some true :: ps, i => by
    simp only [List.map_cons, tokenEvent, bracketEvent, List.filterMap_cons, id, infoLoop]
    exact late_tokens ps _
  | some false :: ps, i => by
    simp only [List.map_cons, tokenEvent, bracketEvent, List.filterMap_cons, id, infoLoop]
    split
    · exact late_tokens ps _
    · split
      · exact late_tokens ps _
      · exact late_tokens ps _

theorem early_tokens : ∀ (ps : List (Option Bool)) (a : Nat), ∃ m' e',
    infoLoop (ps.map (tokenEvent (α := α))) true (lineInfo 0 a 0) = lineInfo m' (a + closingFirst ps) e' ∧
    ∀ d, levelAfter (d - a) (ps.filterMap id) = d - (a + closingFirst ps) - e' + m'
  | [], a => ⟨0, 0, rfl, fun _ => by simp [levelAfter, closingFirst]⟩
  | some true :: ps, a => by
    obtain ⟨m', e', h1, h2⟩ := info_late (α := α) (ps.filterMap id) 1 a 0
    refine ⟨m', e', ?_, ?_⟩
    · simp only [closingFirst, Nat.add_zero]
      rw [← h1, ← late_tokens]
      simp only [List.map_cons, tokenEvent, bracketEvent, infoLoop, lineInfo]
      rfl
    · intro d
      have := h2 (d - a)
      simpa [levelAfter, closingFirst] using this
  | none :: ps, a => by
    obtain ⟨m', e', h1, h2⟩ := info_late (α := α) (ps.filterMap id) 0 a 0
    refine ⟨m', e', ?_, ?_⟩
    · simp only [closingFirst, Nat.add_zero]
      rw [← h1, ← late_tokens]
      simp only [List.map_cons, tokenEvent, infoLoop]
    · intro d
      have := h2 (d - a)
      simpa [levelAfter, closingFirst] using this
  | some false :: ps, a => by
    obtain ⟨m', e', h1, h2⟩ := early_tokens ps (a + 1)
    refine ⟨m', e', ?_, ?_⟩
    · rw [show a + closingFirst (some false :: ps) = a + 1 + closingFirst ps by simp [closingFirst]; omega, ← h1]
      simp only [List.map_cons, tokenEvent, bracketEvent, infoLoop, lineInfo, if_true]
    · intro d
      rw [show a + closingFirst (some false :: ps) = a + 1 + closingFirst ps by simp [closingFirst]; omega, ← h2 d]
      simp only [List.filterMap_cons, id, levelAfter]
      congr 1

/-- The loop over the lines, for any events with `cl` dedents at the start of each line, and the levels `lev`. -/
theorem loop_any (c : Cfg α) (E : Events α) (t : List α) (lev cl : Nat → Nat)
    (hE : ∀ n, ∃ m' e', (∀ st, infoLoop (E t n st) true Info.init = lineInfo m' (cl n) e') ∧ lev (n + 1) = lev n - cl n - e' + m') :
    ∀ (bs : List Blk) (n m d : Nat), lev n = d + m →
    ∃ xs : List (Blk × Option (Change α)), xs.map (·.1) = bs ∧
      indentLoop space c E t 0 none bs n (List.replicate m none) (stack c.indentString d) = some (xs.filterMap (·.2)) ∧
      (∀ x ∈ xs, ∀ q, x.2 = some q → q.start = x.1.pos ∧
        q.stop = x.1.pos + (ownIndent space (slice t x.1.pos x.1.stop)).length) ∧
      ∀ i x, xs[i]? = some x → newLine t x =
        times (lev (n + i) - cl (n + i)) c.indentString ++ body space (slice t x.1.pos x.1.stop)
  | [], n, m, d, _ => ⟨[], rfl, rfl, by simp, by simp⟩
  | b :: bs, n, m, d, hd => by
    obtain ⟨m', e', h1, h2⟩ := hE n
    have hinfo : indentInfo space (E t n (stack c.indentString d)) (slice t b.pos b.stop) =
        ⟨List.replicate m' none, cl n, e', some (ownIndent space (slice t b.pos b.stop)), none, false, false, false⟩ := by
      unfold indentInfo
      rw [h1]
      simp [lineInfo]
    obtain ⟨ys, g1, g2, g3, g4⟩ := loop_any c E t lev cl hE bs (n + 1) m' (d + m - cl n - e') (by rw [h2, hd])
    have hlev : lev n - cl n = d + m - cl n := by rw [hd]
    have hstep := step_line c m d m' (cl n) e' (ownIndent space (slice t b.pos b.stop))
    refine ⟨(b, if times (lev n - cl n) c.indentString ≠ ownIndent space (slice t b.pos b.stop) then
        some ⟨b.pos, b.pos + (ownIndent space (slice t b.pos b.stop)).length, times (lev n - cl n) c.indentString⟩ else none) :: ys,
      by simp [g1], ?_, ?_, ?_⟩
    · unfold indentLoop
      rw [hinfo]
      simp only [Nat.zero_le, decide_true, hstep, Option.bind_eq_bind, Option.bind_some, Option.pure_def, g2, hlev]
      by_cases he : times (d + m - cl n) c.indentString ≠ ownIndent space (slice t b.pos b.stop)
      · simp [he]
      · simp [he]
    · intro x hx q hq
      rcases List.mem_cons.1 hx with rfl | hx
      · simp only at hq
        split at hq
        · cases hq; exact ⟨rfl, rfl⟩
        · cases hq
      · exact g3 x hx q hq
    · intro i x hx
      cases i with
      | zero =>
        simp only [List.getElem?_cons_zero, Option.some.injEq] at hx
        subst hx
        by_cases he : times (lev n - cl n) c.indentString ≠ ownIndent space (slice t b.pos b.stop)
        · simp only [if_pos he, Nat.add_zero]
          rw [newLine_indent rfl rfl, body_eq]
        · simp only [if_neg he, Nat.add_zero]
          rw [Classical.not_not.1 he, body_eq]
          have hpre : ownIndent space (slice t b.pos b.stop) <+: slice t b.pos b.stop := by
            rw [ownIndent_eq]
            split
            · exact List.nil_prefix
            · exact List.takeWhile_prefix _
          obtain ⟨r, hr⟩ := hpre
          simp only [newLine]
          generalize slice t b.pos b.stop = l at hr
          conv => rhs; rw [show l.drop (ownIndent space l).length = r by
            conv => lhs; rw [← hr]
            exact List.drop_left' (by rw [hr])]
          exact hr.symm
      | succ i =>
        simp only [List.getElem?_cons_succ] at hx
        rw [g4 i x hx, show n + 1 + i = n + (i + 1) by omega]

variable {T G : Type} [DecidableEq G]

/-- Only the tokens of LilyPond give events. -/
theorem lily_tokens (lang : T → G) (lily : G) (delim : T → Bool) (text : T → List Char) : ∀ us : List T, (∀ t ∈ us, lang t = lily) →
    lilyEvents delim text us = (us.map (bracketOf lang lily delim text)).map (tokenEvent (α := α))
  | [], _ => rfl
  | u :: us, h => by
    have hu := h u (by simp)
    rw [lilyEvents, lily_tokens lang lily delim text us (fun t ht => h t (by simp [ht]))]
    simp only [List.map_cons]
    congr 1
    unfold bracketOf
    rw [show "{".toList = ['{'] from rfl, show "<<".toList = ['<', '<'] from rfl, show "}".toList = ['}'] from rfl, show ">>".toList = ['>', '>'] from rfl]
    cases delim u with
    | false => simp [tokenEvent]
    | true =>
      simp only [hu, true_and, if_true]
      by_cases h1 : text u = ['{'] ∨ text u = ['<', '<']
      · rw [if_pos h1, if_pos h1]; rfl
      · rw [if_neg h1, if_neg h1]
        by_cases h2 : text u = ['}'] ∨ text u = ['>', '>']
        · rw [if_pos h2, if_pos h2]; rfl
        · rw [if_neg h2, if_neg h2]; rfl

theorem lily_events (lang : T → G) (lily : G) (delim : T → Bool) (text : T → List Char) (ts : List T) :
    indentEvents lang (fun g => if g = lily then some (lilyEvents delim text) else none) ts =
      ((ts.filter (fun t => decide (lang t = lily))).map (bracketOf lang lily delim text)).map (tokenEvent (α := α)) := by
  have key : ∀ gs : List (G × List T), (∀ q ∈ gs, q.2 ≠ [] ∧ ∀ t ∈ q.2, lang t = q.1) →
      gs.flatMap (fun q => runEvents (fun g => if g = lily then some (lilyEvents (α := α) delim text) else none) q.1 q.2) =
        (((gs.flatMap (·.2)).filter (fun t => decide (lang t = lily))).map (bracketOf lang lily delim text)).map (tokenEvent (α := α)) := by
    intro gs
    induction gs with
    | nil => intro _; rfl
    | cons g gs ih =>
      intro h
      obtain ⟨-, hg⟩ := h g (by simp)
      rw [List.flatMap_cons, List.flatMap_cons, List.filter_append, List.map_append, List.map_append, ih (fun q hq => h q (by simp [hq]))]
      congr 1
      unfold runEvents
      by_cases e : g.1 = lily
      · simp only [e, if_true]
        rw [List.filter_eq_self.2 (fun t ht => decide_eq_true ((hg t ht).trans e))]
        exact lily_tokens lang lily delim text g.2 (fun t ht => (hg t ht).trans e)
      · simp only [e, if_false]
        rw [List.filter_eq_nil_iff.2 (fun t ht => by
          have := hg t ht
          simp only [decide_eq_true_eq]
          exact fun h' => e (this.symm.trans h'))]
        rfl
  cases ts with
  | nil => rfl
  | cons t ts =>
    obtain ⟨g, gs, h1, -, -, h4, -, h6⟩ := run_groups (α := α) lang (fun g => if g = lily then some (lilyEvents delim text) else none) ts (lang t) [t] (by simp) (by simp)
    have h6' : indentEvents lang (fun g => if g = lily then some (lilyEvents (α := α) delim text) else none) (t :: ts) = _ := h6
    rw [h6', key _ h4, h1]
    rfl

/-- Tokens of other languages are no brackets. -/
theorem brackets_lily (lang : T → G) (lily : G) (delim : T → Bool) (text : T → List Char) : ∀ ts : List T,
    ((ts.filter (fun t => decide (lang t = lily))).map (bracketOf lang lily delim text)).filterMap id = (ts.map (bracketOf lang lily delim text)).filterMap id
  | [] => rfl
  | t :: ts => by
    have ih := brackets_lily lang lily delim text ts
    by_cases h : lang t = lily
    · rw [List.filter_cons_of_pos (by simp [h]), List.map_cons, List.map_cons, List.filterMap_cons, List.filterMap_cons, ih]
    · rw [List.filter_cons_of_neg (by simp [h]), List.map_cons, List.filterMap_cons, ih]
      simp [bracketOf, h]

theorem first_lily (lang : T → G) (lily : G) (f : T → Option Bool) : ∀ ts : List T, BeginsWith lang lily f ts →
    closingFirst ((ts.filter (fun t => decide (lang t = lily))).map f) = closingFirst (ts.map f)
  | [], _ => rfl
  | t :: ts, h => by
    rw [List.filter_cons_of_pos (by simp [h.1]), List.map_cons, List.map_cons]
    cases hf : f t with
    | none => rfl
    | some b =>
      cases b with
      | true => rfl
      | false => simp only [closingFirst, first_lily lang lily f ts (h.2 hf)]

end Parce.Ind

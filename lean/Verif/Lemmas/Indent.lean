import Mathlib.Data.List.TakeWhile
import Verif.Lemmas.LineEdit
import Verif.Spec.Indent
/-!
# Lemmas about indenting
-/
set_option linter.unusedSectionVars false
namespace Parce.Ind
variable {α : Type} [DecidableEq α] {space : α → Bool} {sep : α}

/-! ## the indent of a line -/

theorem takeWhile_append_dropWhile' (l : List α) : l.takeWhile space ++ l.dropWhile space = l := List.takeWhile_append_dropWhile

theorem ownIndent_eq (l : List α) : ownIndent space l = if l.dropWhile space = [] then [] else l.takeWhile space := by
  unfold ownIndent
  by_cases h : l.dropWhile space = []
  · simp [h]
  · have : (l.dropWhile space).length ≠ 0 := by simpa using h
    simp only [h, this, if_false]
    have e := takeWhile_append_dropWhile' (space := space) l
    have hl : l.length = (l.takeWhile space).length + (l.dropWhile space).length := by
      rw [← List.length_append, e]
    rw [show l.length - (l.dropWhile space).length = (l.takeWhile space).length by omega]
    have := List.take_left' (l₂ := l.dropWhile space) (rfl : (l.takeWhile space).length = _)
    rw [e] at this
    exact this

theorem filled_iff (l : List α) : Filled space l ↔ l.dropWhile space ≠ [] := by
  rw [Ne, List.dropWhile_eq_nil_iff]
  unfold Filled
  constructor
  · rintro ⟨a, h1, h2⟩ h3
    rw [h3 a h1] at h2; cases h2
  · intro h
    apply Classical.byContradiction
    intro h2
    apply h
    intro a ha
    cases hs : space a with
    | true => rfl
    | false => exact absurd ⟨a, ha, hs⟩ h2

theorem ownIndent_filled {l : List α} (h : Filled space l) : ownIndent space l = l.takeWhile space := by
  rw [ownIndent_eq, if_neg ((filled_iff l).1 h)]

theorem ownIndent_length (l : List α) : (ownIndent space l).length ≤ l.length := by
  rw [ownIndent_eq]
  split
  · simp
  · have h := congrArg List.length (takeWhile_append_dropWhile' (space := space) l)
    rw [List.length_append] at h
    omega

theorem White.dropWhile_append {p : List α} (h : White space sep p) (r : List α) : (p ++ r).dropWhile space = r.dropWhile space := by
  induction p with
  | nil => rfl
  | cons a p ih =>
    rw [List.cons_append, List.dropWhile_cons, (h a (by simp)).1]
    simp only [if_true]
    exact ih (fun b hb => h b (by simp [hb]))

theorem White.takeWhile_append {p : List α} (h : White space sep p) (r : List α) : (p ++ r).takeWhile space = p ++ r.takeWhile space := by
  induction p with
  | nil => rfl
  | cons a p ih =>
    rw [List.cons_append, List.takeWhile_cons, (h a (by simp)).1]
    simp only [if_true]
    rw [ih (fun b hb => h b (by simp [hb])), List.cons_append]

theorem drop_ownIndent {l : List α} (h : Filled space l) : l.drop (ownIndent space l).length = l.dropWhile space := by
  rw [ownIndent_filled h]
  have := List.drop_left' (l₂ := l.dropWhile space) (rfl : (l.takeWhile space).length = _)
  rw [takeWhile_append_dropWhile'] at this
  exact this

theorem dropWhile_dropWhile (l : List α) : (l.dropWhile space).dropWhile space = l.dropWhile space := by
  induction l with
  | nil => rfl
  | cons a l ih =>
    rw [List.dropWhile_cons]
    split
    · exact ih
    · rename_i h; rw [List.dropWhile_cons, if_neg h]

theorem takeWhile_dropWhile (l : List α) : (l.dropWhile space).takeWhile space = [] := by
  induction l with
  | nil => rfl
  | cons a l ih =>
    rw [List.dropWhile_cons]
    split
    · exact ih
    · rename_i h; rw [List.takeWhile_cons, if_neg h]

/-- A line with a new indent has that indent. -/
theorem ownIndent_new {l p : List α} (h : Filled space l) (hp : White space sep p) :
    ownIndent space (p ++ l.drop (ownIndent space l).length) = p := by
  rw [drop_ownIndent h, ownIndent_eq, hp.dropWhile_append, dropWhile_dropWhile, if_neg ((filled_iff l).1 h), hp.takeWhile_append,
    takeWhile_dropWhile, List.append_nil]

/-- A new indent does not change the rest of the line. -/
theorem strip_new (l : List α) {p : List α} (hp : White space sep p) :
    (p ++ l.drop (ownIndent space l).length).dropWhile space = l.dropWhile space := by
  rw [hp.dropWhile_append]
  by_cases h : Filled space l
  · rw [drop_ownIndent h, dropWhile_dropWhile]
  · have h' : l.dropWhile space = [] := Classical.byContradiction (fun e => h ((filled_iff l).2 e))
    rw [ownIndent_eq, if_pos h']
    rfl

/-! ## indent_info -/

/-- The strings of an info are white. -/
def WhiteInfo (space : α → Bool) (sep : α) (i : Info α) : Prop :=
  (∀ s, some s ∈ i.indents → White space sep s) ∧ (∀ s, i.prefer = some s → White space sep s)

theorem alignLast_mem (s : List α) : (l : List (Option (List α))) → ∀ x, some x ∈ alignLast s l → x = s ∨ some x ∈ l
  | [], x, h => by simp [alignLast] at h
  | [none], x, h => by simp [alignLast] at h; exact Or.inl h
  | [some y], x, h => by simp [alignLast] at h; simp [h]
  | i :: j :: l, x, h => by
    simp only [alignLast] at h
    rcases List.mem_cons.1 h with h | h
    · exact Or.inr (by simp [h])
    · rcases alignLast_mem s (j :: l) x h with h | h
      · exact Or.inl h
      · exact Or.inr (List.mem_cons_of_mem _ h)

theorem infoLoop_white : (es : List (Ev α)) → (f : Bool) → (i : Info α) → (∀ e ∈ es, e.Plain space sep) → i.indent = none → WhiteInfo space sep i →
    (infoLoop es f i).indent = none ∧ WhiteInfo space sep (infoLoop es f i)
  | [], f, i, _, h1, h2 => ⟨h1, h2⟩
  | e :: es, f, i, he, h1, h2 => by
    have he0 := he e (by simp)
    have ih := fun f i h1 h2 => infoLoop_white es f i (fun e h => he e (by simp [h])) h1 h2
    cases e with
    | currentIndent s => exact absurd he0 id
    | align s =>
      refine ih f _ h1 ⟨?_, h2.2⟩
      intro x hx
      rcases alignLast_mem s _ x hx with rfl | hx
      · exact he0
      · exact h2.1 x hx
    | preferIndent s =>
      refine ih f _ h1 ⟨h2.1, ?_⟩
      intro x hx
      injection hx with hx
      exact hx ▸ he0
    | indent =>
      refine ih _ _ h1 ⟨?_, h2.2⟩
      intro x hx
      exact h2.1 x (by simpa using hx)
    | dedent =>
      unfold infoLoop
      split
      · exact ih _ _ h1 h2
      · split
        · refine ih _ _ h1 ⟨fun x hx => h2.1 x ((List.dropLast_sublist _).subset hx), h2.2⟩
        · exact ih _ _ h1 h2
    | noDedent => exact ih _ _ h1 h2
    | blank => exact ih _ _ h1 h2
    | noStrip => exact ih _ _ h1 h2
    | noIndent => exact ih _ _ h1 h2

theorem infoLoop_flags : (es : List (Ev α)) → (f : Bool) → (i : Info α) →
    ((infoLoop es f i).noIndent = true ↔ i.noIndent = true ∨ Ev.noIndent ∈ es) ∧
    ((infoLoop es f i).blank = true ↔ i.blank = true ∨ Ev.blank ∈ es) ∧
    ((infoLoop es f i).noStrip = true ↔ i.noStrip = true ∨ Ev.noStrip ∈ es)
  | [], f, i => by simp [infoLoop]
  | e :: es, f, i => by
    have ih := fun f i => infoLoop_flags es f i
    cases e with
    | dedent =>
      unfold infoLoop
      split
      · simpa using ih _ _
      · split
        · simpa using ih _ _
        · simpa using ih _ _
    | blank => unfold infoLoop; have := ih f { i with blank := true }; simp at this ⊢; exact this
    | noStrip => unfold infoLoop; have := ih f { i with noStrip := true }; simp at this ⊢; exact this
    | noIndent => unfold infoLoop; have := ih f { i with noIndent := true }; simp at this ⊢; exact this
    | _ =>
      unfold infoLoop
      simpa using ih _ _

theorem whiteInfo_init : WhiteInfo space sep (Info.init : Info α) := by
  constructor <;> simp [Info.init]

/-- The info without the indent of the line. -/
def baseInfo (evs : List (Ev α)) : Info α := infoLoop evs true Info.init

theorem indentInfo_eq {evs : List (Ev α)} (h : ∀ e ∈ evs, e.Plain space sep) (l : List α) :
    indentInfo space evs l = { baseInfo evs with indent := if (baseInfo evs).noIndent then none else some (ownIndent space l) } := by
  have := (infoLoop_white evs true Info.init h rfl whiteInfo_init).1
  unfold indentInfo baseInfo
  simp only [this, true_and]
  cases hn : (infoLoop evs true Info.init).noIndent with
  | true =>
    simp only [Bool.true_eq_false, and_false, if_false, if_true]
    generalize infoLoop evs true Info.init = i at this hn
    cases i; simp only at this hn; rw [this, hn]
  | false => simp

theorem movable_iff (c : Cfg α) (evs : List (Ev α)) :
    Movable c evs ↔ (baseInfo evs).noIndent = false ∧ (c.indentBlank = true ∨ (baseInfo evs).blank = false) := by
  obtain ⟨h1, h2, _⟩ := infoLoop_flags evs true Info.init
  unfold Movable baseInfo
  have e1 : (infoLoop evs true Info.init).noIndent = false ↔ Ev.noIndent ∉ evs := by
    rw [← Bool.not_eq_true, h1]; simp [Info.init]
  have e2 : (infoLoop evs true Info.init).blank = false ↔ Ev.blank ∉ evs := by
    rw [← Bool.not_eq_true, h2]; simp [Info.init]
  rw [e1, e2]

/-! ## the stack -/

theorem popIndents_ne (n : Nat) {st : List (List α)} (h : st ≠ []) : popIndents n st ≠ [] := by
  unfold popIndents
  rw [Ne, List.drop_eq_nil_iff]
  have : 0 < st.length := List.length_pos_iff.2 h
  omega

theorem popIndents_mem (n : Nat) {st : List (List α)} {s : List α} (h : s ∈ popIndents n st) : s ∈ st := List.mem_of_mem_drop h

theorem pushIndents_spec {c : Cfg α} : (is : List (Option (List α))) → (st : List (List α)) → st ≠ [] →
    ∃ st', pushIndents c is st = some st' ∧ st' ≠ [] ∧
      (White space sep c.indentString → (∀ s, some s ∈ is → White space sep s) → (∀ s ∈ st, White space sep s) → ∀ s ∈ st', White space sep s)
  | [], st, h => ⟨st, by simp [pushIndents], h, fun _ _ hs => hs⟩
  | i :: is, [], h => absurd rfl h
  | i :: is, top :: st, _ => by
    obtain ⟨st', h1, h2, h3⟩ := pushIndents_spec is ((top ++ (match i with
      | some s => if s = [] then c.indentString else s
      | none => c.indentString)) :: top :: st) (by simp)
    refine ⟨st', h1, h2, fun hc hi hs => h3 hc (fun s h => hi s (by simp [h])) ?_⟩
    intro s hs'
    rcases List.mem_cons.1 hs' with rfl | hs'
    · intro a ha
      rcases List.mem_append.1 ha with ha | ha
      · exact hs top (by simp) a ha
      · cases i with
        | none => exact hc a ha
        | some x =>
          simp only at ha
          split at ha
          · exact hc a ha
          · exact hi x (by simp) a ha
    · exact hs s hs'

theorem pushIndents_some {c : Cfg α} (is : List (Option (List α))) : (st : List (List α)) → st ≠ [] → ∃ st', pushIndents c is st = some st' ∧ st' ≠ [] := by
  induction is with
  | nil => exact fun st h => ⟨st, by simp [pushIndents], h⟩
  | cons i is ih =>
    intro st h
    cases st with
    | nil => exact absurd rfl h
    | cons top st => exact ih _ (by simp)

/-- What the line's indent should be, not looking at the indent it has. -/
def want (c : Cfg α) (i : Info α) (st : List (List α)) : Option (List α) :=
  if i.noIndent = false ∧ (c.indentBlank = true ∨ i.blank = false) then
    match i.prefer with
    | some p => some p
    | none => st.head?
  else none

/-- The new indent if it differs. -/
def differ (w : Option (List α)) (ind : Option (List α)) : Option (List α) := match w with
  | some p => if some p ≠ ind then some p else none
  | none => none

theorem applyIndent_inside (c : Cfg α) (i : Info α) (st : List (List α)) (h : st ≠ []) :
    applyIndent c true i st = some (st, differ (want c i st) i.indent) := by
  unfold applyIndent want differ
  split
  · simp only [Bool.true_eq_false, if_false]
    cases i.prefer with
    | some p => rfl
    | none =>
      cases st with
      | nil => exact absurd rfl h
      | cons top st => rfl
  · rfl

theorem want_white {c : Cfg α} {i : Info α} {st : List (List α)} (h : WhiteInfo space sep i) (hs : ∀ s ∈ st, White space sep s) {p : List α}
    (hp : want c i st = some p) : White space sep p := by
  unfold want at hp
  split at hp
  · cases hi : i.prefer with
    | some q => rw [hi] at hp; injection hp with hp; exact hp ▸ h.2 q hi
    | none =>
      rw [hi] at hp
      exact hs p (List.mem_of_mem_head? hp)
  · cases hp

/-- Outside the range nothing is changed. -/
theorem applyIndent_outside (c : Cfg α) (i : Info α) (st : List (List α)) (h : st ≠ []) :
    ∃ st', applyIndent c false i st = some (st', none) ∧ st' ≠ [] ∧ ∀ s ∈ st', s ∈ st ∨ s = i.indent.getD [] := by
  unfold applyIndent
  split
  · simp only [if_true]
    cases i.prefer with
    | some p => exact ⟨st, rfl, h, fun s hs => Or.inl hs⟩
    | none =>
      cases st with
      | nil => exact absurd rfl h
      | cons top st =>
        refine ⟨i.indent.getD [] :: st, rfl, by simp, ?_⟩
        intro s hs
        rcases List.mem_cons.1 hs with hs | hs
        · exact Or.inr hs
        · exact Or.inl (by simp [hs])
  · exact ⟨st, rfl, h, fun s hs => Or.inl hs⟩

/-- The stack never gets empty, and stays white. -/
theorem lineStep_some (c : Cfg α) (inside : Bool) (i : Info α) (prev : List (Option (List α))) (st : List (List α)) (h : st ≠ []) :
    ∃ st' r, lineStep c inside i prev st = some (st', r) ∧ st' ≠ [] := by
  obtain ⟨st1, h1, h2⟩ := pushIndents_some (c := c) prev st h
  unfold lineStep
  simp only [h1, Option.bind_eq_bind, Option.bind_some, Option.pure_def]
  cases inside with
  | true =>
    rw [applyIndent_inside c i _ (popIndents_ne _ h2)]
    exact ⟨_, _, rfl, popIndents_ne _ (popIndents_ne _ h2)⟩
  | false =>
    obtain ⟨st2, h3, h4, _⟩ := applyIndent_outside c i _ (popIndents_ne i.dedentsStart h2)
    rw [h3]
    exact ⟨_, _, rfl, popIndents_ne _ h4⟩

/-- What a line does inside the range: the stack does not depend on the indent of the line. -/
theorem lineStep_inside (c : Cfg α) (i : Info α) (prev : List (Option (List α))) (st : List (List α)) (h : st ≠ []) :
    ∃ st' w, st' ≠ [] ∧ (∀ x, lineStep c true { i with indent := x } prev st = some (st', differ w x)) ∧
      (∀ p, w = some p → i.noIndent = false ∧ (c.indentBlank = true ∨ i.blank = false)) ∧
      (White space sep c.indentString → (∀ s, some s ∈ prev → White space sep s) → WhiteInfo space sep i → (∀ s ∈ st, White space sep s) →
        (∀ s ∈ st', White space sep s) ∧ ∀ p, w = some p → White space sep p) := by
  obtain ⟨st1, h1, h2, h3⟩ := pushIndents_spec (space := space) (sep := sep) (c := c) prev st h
  refine ⟨popIndents i.dedentsEnd (popIndents i.dedentsStart st1), want c i (popIndents i.dedentsStart st1),
    popIndents_ne _ (popIndents_ne _ h2), ?_, ?_, ?_⟩
  · intro x
    unfold lineStep
    simp only [h1, Option.bind_eq_bind, Option.bind_some, Option.pure_def]
    rw [applyIndent_inside c _ _ (popIndents_ne _ h2)]
    rfl
  · intro p hp
    unfold want at hp
    split at hp
    · rename_i hh; exact hh
    · cases hp
  · intro hc hprev hi hst
    have hs := h3 hc hprev hst
    refine ⟨fun s hs' => hs s (popIndents_mem _ (popIndents_mem _ hs')), fun p hp => ?_⟩
    exact want_white hi (fun s hs' => hs s (popIndents_mem _ hs')) hp

theorem lineStep_outside (c : Cfg α) (i : Info α) (prev : List (Option (List α))) (st : List (List α)) (h : st ≠ []) :
    ∃ st', st' ≠ [] ∧ lineStep c false i prev st = some (st', none) ∧
      (White space sep c.indentString → (∀ s, some s ∈ prev → White space sep s) → (∀ s, i.indent = some s → White space sep s) →
        (∀ s ∈ st, White space sep s) → ∀ s ∈ st', White space sep s) := by
  obtain ⟨st1, h1, h2, h3⟩ := pushIndents_spec (space := space) (sep := sep) (c := c) prev st h
  obtain ⟨st2, h4, h5, h6⟩ := applyIndent_outside c i _ (popIndents_ne i.dedentsStart h2)
  refine ⟨popIndents i.dedentsEnd st2, popIndents_ne _ h5, ?_, ?_⟩
  · unfold lineStep
    simp only [h1, Option.bind_eq_bind, Option.bind_some, Option.pure_def, h4]
  · intro hc hprev hi hst s hs
    rcases h6 s (popIndents_mem _ hs) with hs | hs
    · exact h3 hc hprev hst s (popIndents_mem _ hs)
    · cases hx : i.indent with
      | none => rw [hx] at hs; simp at hs; subst hs; intro a ha; cases ha
      | some x => rw [hx] at hs; simp at hs; exact hs ▸ hi x hx

/-! ## the loop -/

theorem indentLoop_some (c : Cfg α) (E : Events α) (t : List α) (pos : Nat) (stop : Option Nat) :
    (bs : List Blk) → (n : Nat) → (prev : List (Option (List α))) → (st : List (List α)) → st ≠ [] →
      ∃ cs, indentLoop space c E t pos stop bs n prev st = some cs
  | [], _, _, _, _ => ⟨[], rfl⟩
  | b :: bs, n, prev, st, h => by
    obtain ⟨st', r, h1, h2⟩ := lineStep_some c (decide (pos ≤ b.pos)) (indentInfo space (E t n st) (slice t b.pos b.stop)) prev st h
    obtain ⟨cs, h3⟩ := indentLoop_some c E t pos stop bs (n + 1) (indentInfo space (E t n st) (slice t b.pos b.stop)).indents st' h2
    unfold indentLoop
    simp only [h1, Option.bind_eq_bind, Option.bind_some, Option.pure_def, h3]
    cases stop with
    | none => exact ⟨_, rfl⟩
    | some e =>
      simp only
      split
      · exact ⟨_, rfl⟩
      · exact ⟨_, rfl⟩

theorem white_ownIndent {l : List α} (h : sep ∉ l) : White space sep (ownIndent space l) := by
  rw [ownIndent_eq]
  split
  · intro a ha; cases ha
  · intro a ha
    refine ⟨?_, fun e => h (e ▸ (List.takeWhile_prefix _).subset ha)⟩
    exact List.mem_takeWhile_imp ha

/-- The edit is for the indent of the line. -/
def IndentEdit (space : α → Bool) (sep : α) (t : List α) (pos : Nat) (x : Blk × Option (Change α)) : Prop :=
  ∀ d, x.2 = some d → pos ≤ x.1.pos ∧ d.start = x.1.pos ∧
    d.stop = x.1.pos + (ownIndent space (slice t x.1.pos x.1.stop)).length ∧ White space sep d.text

/-- The lines that may be indented have more than white space. -/
def FilledFrom (space : α → Bool) (c : Cfg α) (E : Events α) (t : List α) (n : Nat) (bs : List Blk) : Prop :=
  ∀ k b, bs[k]? = some b → ∀ st, Movable c (E t (n + k) st) → Filled space (slice t b.pos b.stop)

theorem slice_drop_line (t : List α) (a b n : Nat) : slice t (a + n) b = (slice t a b).drop n := by
  unfold slice
  rw [List.drop_drop]

/-- What a line has become after its edit. -/
theorem newLine_indent {t : List α} {b : Blk} {d : Change α} (h1 : d.start = b.pos)
    (h2 : d.stop = b.pos + (ownIndent space (slice t b.pos b.stop)).length) :
    newLine t (b, some d) = d.text ++ (slice t b.pos b.stop).drop (ownIndent space (slice t b.pos b.stop)).length := by
  unfold newLine
  simp only [h1, h2, slice_drop_line]
  simp [slice]

/-- The line with another indent, if there is one. -/
def relined (space : α → Bool) (l : List α) : Option (List α) → List α
  | some p => p ++ l.drop (ownIndent space l).length
  | none => l

theorem differ_some {w x : Option (List α)} {p : List α} (h : differ w x = some p) : w = some p ∧ some p ≠ x := by
  cases w with
  | none => cases h
  | some q =>
    simp only [differ] at h
    by_cases hq : some q = x
    · simp [hq] at h
    · simp only [ne_eq, hq, not_false_eq_true, if_true] at h
      exact ⟨h, h ▸ hq⟩

/-- The edits of the loop: at most one in a line, for the indent of the line. And doing it again has no edits. -/
theorem indentLoop_edits (c : Cfg α) (E : Events α) (t : List α) (pos : Nat) (stop : Option Nat) (hE : PlainIndenter space sep c E t) :
    (bs : List Blk) → (n : Nat) → (prev : List (Option (List α))) → (st : List (List α)) → st ≠ [] →
      (∀ s, some s ∈ prev → White space sep s) → (∀ s ∈ st, White space sep s) → (∀ b ∈ bs, sep ∉ slice t b.pos b.stop) →
      ∃ xs : List (Blk × Option (Change α)), xs.map (·.1) = bs ∧ indentLoop space c E t pos stop bs n prev st = some (xs.filterMap (·.2)) ∧
        (∀ x ∈ xs, IndentEdit space sep t pos x) ∧
        (∀ e, stop = some e → xs.Pairwise (fun y x => e ≤ y.1.stop → x.2 = none)) ∧
        (pos = 0 → stop = none → FilledFrom space c E t n bs → ∀ (t' : List α) (bs' : List Blk), (∀ n st, E t' n st = E t n st) →
          bs'.map (fun b => slice t' b.pos b.stop) = xs.map (newLine t) → indentLoop space c E t' 0 none bs' n prev st = some [])
  | [], _, _, _, _, _, _, _ => ⟨[], rfl, rfl, by simp, by simp, fun _ _ _ t' bs' _ h => by
      have : bs' = [] := by simpa using h
      subst this; rfl⟩
  | b :: bs, n, prev, st, h, hp, hst, hb => by
    have hplain := hE.2 n st
    have hinfo := fun l => indentInfo_eq hplain l
    have hw : WhiteInfo space sep (baseInfo (E t n st)) := (infoLoop_white _ true Info.init hplain rfl whiteInfo_init).2
    have hwi : ∀ l s, some s ∈ (indentInfo space (E t n st) l).indents → White space sep s := by
      intro l; rw [hinfo l]; exact hw.1
    have hii : ∀ l l', (indentInfo space (E t n st) l).indents = (indentInfo space (E t n st) l').indents := by
      intro l l'; rw [hinfo l, hinfo l']
    -- the step
    have key : ∃ st' r, lineStep c (decide (pos ≤ b.pos)) (indentInfo space (E t n st) (slice t b.pos b.stop)) prev st = some (st', r) ∧
        st' ≠ [] ∧ (∀ s ∈ st', White space sep s) ∧ (∀ p, r = some p → pos ≤ b.pos ∧ White space sep p ∧
          (indentInfo space (E t n st) (slice t b.pos b.stop)).indent = some (ownIndent space (slice t b.pos b.stop))) ∧
        (pos = 0 → (Movable c (E t n st) → Filled space (slice t b.pos b.stop)) →
          lineStep c true (indentInfo space (E t n st) (relined space (slice t b.pos b.stop) r)) prev st = some (st', none)) := by
      by_cases hin : pos ≤ b.pos
      · simp only [hin, decide_true]
        obtain ⟨st', w, h1, h2, h3, h4⟩ := lineStep_inside (space := space) (sep := sep) c (baseInfo (E t n st)) prev st h
        obtain ⟨h5, h6⟩ := h4 hE.1 hp hw hst
        rw [hinfo, h2]
        refine ⟨st', _, rfl, h1, h5, ?_, ?_⟩
        · intro p hpp
          have hwc := (differ_some hpp).1
          refine ⟨trivial, h6 _ hwc, ?_⟩
          simp only [(h3 _ hwc).1, Bool.false_eq_true, if_false]
        · intro _ hfill
          rw [hinfo, h2]
          congr 2
          cases hwc : w with
          | none => rfl
          | some q =>
            have hm := h3 q hwc
            have hf := hfill ((movable_iff c _).2 hm)
            simp only [hm.1, Bool.false_eq_true, if_false]
            by_cases hq : some q = some (ownIndent space (slice t b.pos b.stop))
            · simp only [differ, hq, ne_eq, not_true_eq_false, if_false, relined]
            · have : differ (some q) (some (ownIndent space (slice t b.pos b.stop))) = some q := by
                simp only [differ, ne_eq, hq, not_false_eq_true, if_true]
              rw [this]
              simp only [relined, ownIndent_new hf (h6 q hwc)]
              simp [differ]
      · simp only [hin, decide_false]
        obtain ⟨st', h1, h2, h3⟩ := lineStep_outside (space := space) (sep := sep) c (indentInfo space (E t n st) (slice t b.pos b.stop)) prev st h
        refine ⟨st', none, h2, h1, h3 hE.1 hp ?_ hst, by simp, fun h0 => absurd (h0 ▸ Nat.zero_le _) hin⟩
        intro s hs
        rw [hinfo] at hs
        simp only at hs
        split at hs
        · cases hs
        · injection hs with hs
          exact hs ▸ white_ownIndent (hb b (by simp))
    obtain ⟨st', r, h1, h2, h3, h4, h7⟩ := key
    let d? : Option (Change α) := r.map (fun new => (⟨b.pos, b.pos + ((indentInfo space (E t n st) (slice t b.pos b.stop)).indent.getD []).length, new⟩ : Change α))
    have hedit : IndentEdit space sep t pos (b, d?) := by
      intro d hd
      cases r with
      | none => cases hd
      | some p =>
        obtain ⟨a1, a2, a3⟩ := h4 p rfl
        simp only [d?, Option.map_some, Option.some.injEq] at hd
        subst hd
        refine ⟨a1, rfl, ?_, a2⟩
        simp only [a3, Option.getD_some]
    have hnew : newLine t (b, d?) = relined space (slice t b.pos b.stop) r := by
      cases r with
      | none => rfl
      | some p =>
        obtain ⟨_, a1, a2, _⟩ := hedit _ rfl
        exact newLine_indent a1 a2
    have rest := indentLoop_edits c E t pos stop hE bs (n + 1) (indentInfo space (E t n st) (slice t b.pos b.stop)).indents st' h2 (hwi _) h3
      (fun b' hb' => hb b' (by simp [hb']))
    have stopped : ∃ ys : List (Blk × Option (Change α)), ys.map (·.1) = bs ∧ ys.filterMap (·.2) = [] ∧ ∀ x ∈ ys, x.2 = none :=
      ⟨bs.map (fun b => (b, none)), by simp [Function.comp_def], by simp [List.filterMap_map, Function.comp_def],
        by simp⟩
    obtain ⟨ys, e1, e2, e3, e5, e4⟩ := rest
    obtain ⟨zs, f1, f2, f3⟩ := stopped
    have unf : ∀ (us : List (Blk × Option (Change α))), d?.toList ++ us.filterMap (·.2) = ((b, d?) :: us).filterMap (·.2) := by
      intro us
      cases d? <;> simp
    have edits : ∀ (us : List (Blk × Option (Change α))), (∀ x ∈ us, IndentEdit space sep t pos x) → ∀ x ∈ (b, d?) :: us, IndentEdit space sep t pos x := by
      intro us hu x hx
      rcases List.mem_cons.1 hx with rfl | hx
      · exact hedit
      · exact hu x hx
    cases stop with
    | none =>
      refine ⟨(b, d?) :: ys, by simp [e1], ?_, edits ys e3, by simp, ?_⟩
      · unfold indentLoop
        simp only [h1, Option.bind_eq_bind, Option.bind_some, Option.pure_def, e2]
        rw [← unf]
      · intro h0 hs hf t' bs' hE' hl
        match bs', hl with
        | b' :: bs', hl =>
          simp only [List.map_cons, List.cons.injEq] at hl
          have step := h7 h0 (hf 0 b rfl st)
          rw [← hnew, ← hl.1] at step
          have := e4 h0 hs (fun k b' hk st hm => hf (k + 1) b' (by simpa using hk) st (by
            rw [show n + (k + 1) = n + 1 + k by omega]; exact hm)) t' bs' hE' hl.2
          rw [hii _ (slice t' b'.pos b'.stop)] at this
          unfold indentLoop
          simp only [hE', Nat.zero_le, decide_true, step, Option.bind_eq_bind, Option.bind_some, Option.pure_def, this]
          rfl
    | some e =>
      by_cases he : e ≤ b.stop
      · refine ⟨(b, d?) :: zs, by simp [f1], ?_, edits zs (fun x hx d hd => by rw [f3 x hx] at hd; cases hd), ?_, by simp⟩
        unfold indentLoop
        simp only [h1, Option.bind_eq_bind, Option.bind_some, Option.pure_def, he, if_true]
        rw [← unf, f2]
        · intro e' _
          rw [List.pairwise_cons]
          refine ⟨fun x hx _ => f3 x hx, ?_⟩
          refine List.Pairwise.imp_of_mem (R := fun _ _ => True) ?_ (List.pairwise_of_forall (fun _ _ => trivial))
          exact fun _ hb _ _ => f3 _ hb
      · refine ⟨(b, d?) :: ys, by simp [e1], ?_, edits ys e3, ?_, by simp⟩
        unfold indentLoop
        simp only [h1, Option.bind_eq_bind, Option.bind_some, Option.pure_def, he, if_false, e2]
        rw [← unf]
        · intro e' hee
          rw [List.pairwise_cons]
          refine ⟨fun x hx h' => absurd h' ?_, e5 e' hee⟩
          injection hee with hee
          exact hee ▸ he

/-! ## the text after the edits -/

theorem edited_lines (t : List α) (xs : List (Blk × Option (Change α))) (hx : xs.map (·.1) = blocks t sep)
    (hok : ∀ x ∈ xs, EditOk x) (hsep : ∀ x ∈ xs, sep ∉ newLine t x) :
    linesOf sep (edited t (xs.filterMap (·.2))) = xs.map (newLine t) := by
  have h := (withBlock_lines t sep xs hx hok).1
  unfold edited
  rw [show (xs.filterMap (·.2)).map setOp = (xs.filterMap (·.2)).map (fun c => Op.set (.range (some c.start) (some c.stop)) c.text) from rfl, h]
  refine linesOf_joinLines sep _ ?_ ?_
  · intro he
    have : xs = [] := by simpa using he
    subst this
    exact (tiling_blocks t sep).ne_nil hx.symm
  · intro l hl
    obtain ⟨x, hx', rfl⟩ := List.mem_map.1 hl
    exact hsep x hx'

theorem sublist_not_mem {l l' : List α} (h : l'.Sublist l) (hs : sep ∉ l) : sep ∉ l' := fun hm => hs (h.subset hm)

theorem slice_length_line {t : List α} {b : Blk} (h : IsLine t sep b.pos b.stop) : (slice t b.pos b.stop).length = b.stop - b.pos := by
  rw [slice_length, Nat.min_eq_left h.stop_le]

theorem IndentEdit.ok {t : List α} {pos : Nat} {x : Blk × Option (Change α)} (h : IndentEdit space sep t pos x)
    (hl : IsLine t sep x.1.pos x.1.stop) : EditOk x := by
  intro d hd
  obtain ⟨_, h1, h2, _⟩ := h d hd
  have := ownIndent_length (space := space) (slice t x.1.pos x.1.stop)
  rw [slice_length_line hl] at this
  have := hl.le
  omega

theorem IndentEdit.new {t : List α} {pos : Nat} {x : Blk × Option (Change α)} (h : IndentEdit space sep t pos x)
    (hl : sep ∉ slice t x.1.pos x.1.stop) :
    sep ∉ newLine t x ∧ (newLine t x).dropWhile space = (slice t x.1.pos x.1.stop).dropWhile space := by
  obtain ⟨b, o⟩ := x
  cases o with
  | none => exact ⟨hl, rfl⟩
  | some d =>
    obtain ⟨_, h1, h2, h3⟩ := h d rfl
    rw [newLine_indent h1 h2]
    refine ⟨?_, strip_new _ h3⟩
    intro hm
    rcases List.mem_append.1 hm with hm | hm
    · exact (h3 _ hm).2 rfl
    · exact hl (List.mem_of_mem_drop hm)

/-! ## the lines of a cursor -/

theorem touched_iff (t : List α) (sep : α) (pos : Nat) (stop : Option Nat) {i : Nat} {b : Blk} (hb : (blocks t sep)[i]? = some b) :
    touched t sep pos stop i = true ↔ (findBlock t sep pos).pos ≤ b.pos ∧ (b.pos = (findBlock t sep pos).pos ∨ ∀ k, stop = some k → b.pos < k) := by
  have hl := (C13_blocks_partition t sep).2.1 b (List.mem_of_getElem? hb)
  obtain ⟨f1, f2, f3⟩ := C14_find_block t sep pos
  have l1 := hl.le
  have l2 := hl.stop_le
  have g1 := f1.le
  have g2 := f1.stop_le
  -- two lines are equal, or apart
  have apart : b.stop < (findBlock t sep pos).pos ∨ (findBlock t sep pos).stop < b.pos ∨
      (b.pos = (findBlock t sep pos).pos ∧ b.stop = (findBlock t sep pos).stop) := by
    by_cases h1 : b.stop < (findBlock t sep pos).pos
    · exact Or.inl h1
    · by_cases h2 : (findBlock t sep pos).stop < b.pos
      · exact Or.inr (Or.inl h2)
      · refine Or.inr (Or.inr ?_)
        rcases Nat.lt_or_ge b.pos (findBlock t sep pos).pos with h | h
        · exact hl.unique f1 (p := (findBlock t sep pos).pos) (by omega) (by omega) (by omega) (by omega)
        · exact hl.unique f1 (p := b.pos) (by omega) (by omega) (by omega) (by omega)
  have hstop : stop.all (fun k => decide (b.pos < k)) = true ↔ ∀ k, stop = some k → b.pos < k := by
    cases stop with
    | none => simp
    | some e => simp
  unfold touched
  rw [hb]
  simp only [Bool.and_eq_true, Bool.or_eq_true, decide_eq_true_eq, hstop]
  rcases apart with h | h | ⟨h, h'⟩
  · constructor
    · rintro ⟨h3, _⟩; omega
    · rintro ⟨h3, _⟩; omega
  · constructor
    · rintro ⟨h3, h4 | h4⟩
      · omega
      · exact ⟨by omega, Or.inr h4⟩
    · rintro ⟨h3, h4 | h4⟩
      · omega
      · exact ⟨by omega, Or.inr h4⟩
  · constructor
    · rintro ⟨h3, _⟩; exact ⟨by omega, Or.inl h⟩
    · rintro ⟨h3, _⟩; exact ⟨by omega, Or.inl (by omega)⟩

theorem block_number (t : List α) (sep : α) {i : Nat} {b : Blk} (hb : (blocks t sep)[i]? = some b) : (t.take b.pos).count sep = i := by
  have := (blocks_lines t sep 0).2.2.1 i b hb
  rw [(first_good t sep).2] at this
  simpa using this

/-- The blocks of a cursor are the touched blocks. -/
theorem cursor_blocks (t : List α) (sep : α) (pos : Nat) (stop : Option Nat) :
    (blocks t sep pos stop).map (fun b => (b.pos, b.stop)) =
      ((blocks t sep).filter (fun b => touched t sep pos stop ((t.take b.pos).count sep))).map (fun b => (b.pos, b.stop)) := by
  obtain ⟨h1, h2⟩ := C13_blocks_range t sep pos stop
  obtain ⟨h3, h4⟩ := C13_blocks_range t sep 0 none
  have hmem : ∀ (l : List Blk), (∀ b ∈ l, IsLine t sep b.pos b.stop) →
      l.map (fun b => (b.pos, b.stop)) = (l.map (·.pos)).map (fun p => (p, findEndOfBlock t sep p)) := by
    intro l hl
    rw [List.map_map]
    apply List.map_congr_left
    intro b hb
    have hb := hl b hb
    have := isLine_end (t := t) (sep := sep) (p := b.pos) (Nat.le_trans hb.le hb.stop_le) hb.left
    obtain ⟨_, e⟩ := hb.unique this (p := b.pos) (Nat.le_refl _) hb.le (Nat.le_refl _) this.le
    simp only [Function.comp, e]
  have hline : ∀ b ∈ blocks t sep pos stop, IsLine t sep b.pos b.stop := fun b hb => ((h1 b.pos b.stop).1 ⟨b, hb, rfl, rfl⟩).1
  have hall := (C13_blocks_partition t sep).2.1
  rw [hmem _ hline, hmem _ (fun b hb => hall b (List.mem_filter.1 hb).1)]
  congr 1
  apply sorted_ext
  · exact List.pairwise_map.2 h2
  · exact List.pairwise_map.2 (h4.sublist List.filter_sublist)
  · intro p
    constructor
    · intro hp
      obtain ⟨b, hb, rfl⟩ := List.mem_map.1 hp
      obtain ⟨g1, g2⟩ := (h1 b.pos b.stop).1 ⟨b, hb, rfl, rfl⟩
      obtain ⟨b', hb', e1, e2⟩ := (h3 b.pos b.stop).2 ⟨g1, by rw [(first_good t sep).2]; exact ⟨Nat.zero_le _, Or.inr (by simp)⟩⟩
      refine List.mem_map.2 ⟨b', List.mem_filter.2 ⟨hb', ?_⟩, e1⟩
      obtain ⟨i, hi⟩ := List.mem_iff_getElem?.1 hb'
      rw [block_number t sep hi, touched_iff t sep pos stop hi, e1]
      exact g2
    · intro hp
      obtain ⟨b, hb, rfl⟩ := List.mem_map.1 hp
      obtain ⟨hb, ht⟩ := List.mem_filter.1 hb
      obtain ⟨i, hi⟩ := List.mem_iff_getElem?.1 hb
      rw [block_number t sep hi, touched_iff t sep pos stop hi] at ht
      obtain ⟨x, hx, e1, _⟩ := (h1 b.pos b.stop).2 ⟨hall b hb, ht⟩
      exact List.mem_map.2 ⟨x, hx, e1⟩

/-- Editing the blocks of a cursor: the lines afterwards. -/
theorem blockEdits_lines (t : List α) (sep : α) (pos : Nat) (stop : Option Nat) (f : Nat → Blk → Option (Change α)) (g : Nat → List α → List α)
    (hf : ∀ n b b', b.pos = b'.pos → b.stop = b'.stop → f n b = f n b')
    (hg : ∀ n b, IsLine t sep b.pos b.stop → sep ∉ slice t b.pos b.stop →
      EditOk (b, f n b) ∧ newLine t (b, f n b) = g n (slice t b.pos b.stop) ∧ sep ∉ g n (slice t b.pos b.stop)) :
    linesOf sep (edited t (blockEdits f (cursorBlocks t sep pos stop))) = changeLines t sep pos stop g := by
  let xs : List (Blk × Option (Change α)) := (blocks t sep).map (fun b =>
    (b, if touched t sep pos stop ((t.take b.pos).count sep) then f ((t.take b.pos).count sep) b else none))
  obtain ⟨_, hline, hsep, _⟩ := C13_blocks_partition t sep
  have e1 : blockEdits f (cursorBlocks t sep pos stop) = xs.filterMap (·.2) := by
    have hF : ∀ (l : List Blk), l.filterMap (fun b => f ((t.take b.pos).count sep) b) =
        (l.map (fun b => (b.pos, b.stop))).filterMap (fun p => f ((t.take p.1).count sep) ⟨p.1, p.2, none⟩) := by
      intro l
      rw [List.filterMap_map]
      congr 1
      funext b
      exact hf _ _ _ rfl rfl
    unfold blockEdits cursorBlocks
    rw [List.filterMap_map]
    simp only [Function.comp_def]
    rw [hF, cursor_blocks, ← hF, List.filterMap_filter]
    simp only [xs, List.filterMap_map, Function.comp_def]
  have hx : xs.map (·.1) = blocks t sep := by simp [xs, Function.comp_def]
  have hn : ∀ x ∈ xs, EditOk x ∧ sep ∉ newLine t x := by
    intro x hx
    obtain ⟨b, hb, rfl⟩ := List.mem_map.1 hx
    obtain ⟨k1, k2, k3⟩ := hg ((t.take b.pos).count sep) b (hline b hb) (hsep b hb)
    split
    · exact ⟨k1, k2 ▸ k3⟩
    · exact ⟨fun c hc => by simp at hc, hsep b hb⟩
  rw [e1, edited_lines t xs hx (fun x h => (hn x h).1) (fun x h => (hn x h).2)]
  unfold changeLines
  rw [← blocks_texts]
  apply List.ext_getElem?
  intro i
  simp only [xs, List.map_map, List.getElem?_map, List.getElem?_mapIdx]
  cases hi : (blocks t sep)[i]? with
  | none => rfl
  | some b =>
    simp only [Option.map_some, Function.comp_def, block_number t sep hi]
    congr 1
    have hb := List.mem_of_getElem? hi
    split
    · exact (hg i b (hline b hb) (hsep b hb)).2.1
    · rfl

theorem joinLines_linesOf (t : List α) (sep : α) : joinLines sep (linesOf sep t) = t := by
  rw [← blocks_texts]
  exact (C13_blocks_partition t sep).1

theorem lines_inj {t t' : List α} (h : linesOf sep t = linesOf sep t') : t = t' := by
  rw [← joinLines_linesOf t sep, h, joinLines_linesOf]

theorem infoLoop_indent : (es : List (Ev α)) → (f : Bool) → (i : Info α) → (∀ s, Ev.currentIndent s ∉ es) → i.indent = none →
    (infoLoop es f i).indent = none
  | [], f, i, _, h => h
  | e :: es, f, i, he, h => by
    have ih := fun f i h => infoLoop_indent es f i (fun s hs => he s (by simp [hs])) h
    cases e with
    | currentIndent s => exact absurd (by simp) (he s)
    | dedent =>
      unfold infoLoop
      split
      · exact ih _ _ h
      · split
        · exact ih _ _ h
        · exact ih _ _ h
    | _ => exact ih _ _ h

theorem indentInfo_noIndent (evs : List (Ev α)) (l : List α) : (indentInfo space evs l).noIndent = true ↔ Ev.noIndent ∈ evs := by
  have := (infoLoop_flags evs true Info.init).1
  unfold indentInfo
  simp only
  split
  · rw [this]; simp [Info.init]
  · rw [this]; simp [Info.init]

theorem indentInfo_noStrip (evs : List (Ev α)) (l : List α) : (indentInfo space evs l).noStrip = true ↔ Ev.noStrip ∈ evs := by
  have := (infoLoop_flags evs true Info.init).2.2
  unfold indentInfo
  simp only
  split
  · rw [this]; simp [Info.init]
  · rw [this]; simp [Info.init]

theorem indentInfo_indent {evs : List (Ev α)} (h : ∀ s, Ev.currentIndent s ∉ evs) (h2 : Ev.noIndent ∉ evs) (l : List α) :
    (indentInfo space evs l).indent = some (ownIndent space l) := by
  have h1 := infoLoop_indent evs true Info.init h rfl
  have := (infoLoop_flags evs true Info.init).1
  have h3 : (infoLoop evs true Info.init).noIndent = false := by
    rw [← Bool.not_eq_true, this]; simp [Info.init, h2]
  unfold indentInfo
  simp only [h1, h3, and_self, if_true]

/-! ## the three functions, for one line -/

theorem slice_self' (t : List α) (a : Nat) : slice t a a = [] := by simp [slice]

theorem increase_line (c : Cfg α) (E : Events α) (t : List α) (n : Nat) (b : Blk) (hs : sep ∉ c.indentString)
    (hb : IsLine t sep b.pos b.stop) (hb' : sep ∉ slice t b.pos b.stop) :
    EditOk (b, increaseBlock space c E t n b) ∧
    newLine t (b, increaseBlock space c E t n b) = (if Ev.noIndent ∈ E t n [] then slice t b.pos b.stop else c.indentString ++ slice t b.pos b.stop) ∧
    sep ∉ (if Ev.noIndent ∈ E t n [] then slice t b.pos b.stop else c.indentString ++ slice t b.pos b.stop) := by
  unfold increaseBlock
  simp only [indentInfo_noIndent]
  have := hb.le
  split
  · exact ⟨fun d hd => by simp at hd, rfl, hb'⟩
  · refine ⟨?_, ?_, by simp [hs, hb']⟩
    · intro d hd
      simp only [Option.some.injEq] at hd
      subst hd
      exact ⟨Nat.le_refl _, Nat.le_refl _, this⟩
    · simp [newLine, slice_self']

theorem filled_all (l : List α) : Filled space l ↔ l.all space = false := by
  rw [← Bool.not_eq_true, List.all_eq_true]
  unfold Filled
  constructor
  · rintro ⟨a, h1, h2⟩ h3
    rw [h3 a h1] at h2; cases h2
  · intro h
    apply Classical.byContradiction
    intro h2
    apply h
    intro a ha
    cases hs : space a with
    | true => rfl
    | false => exact absurd ⟨a, ha, hs⟩ h2

theorem slice_drop_self {t : List α} {b : Blk} (n : Nat) : slice t (b.pos + n) b.stop = (slice t b.pos b.stop).drop n := slice_drop_line t b.pos b.stop n

theorem decrease_line (c : Cfg α) (E : Events α) (t : List α) (n : Nat) (b : Blk) (hE : ∀ s, Ev.currentIndent s ∉ E t n [])
    (hb : IsLine t sep b.pos b.stop) (hb' : sep ∉ slice t b.pos b.stop) :
    EditOk (b, decreaseBlock space c E t n b) ∧
    newLine t (b, decreaseBlock space c E t n b) =
      (if Ev.noIndent ∈ E t n [] then slice t b.pos b.stop else lessIndent space c.indentString (slice t b.pos b.stop)) ∧
    sep ∉ (if Ev.noIndent ∈ E t n [] then slice t b.pos b.stop else lessIndent space c.indentString (slice t b.pos b.stop)) := by
  have hsub : sep ∉ lessIndent space c.indentString (slice t b.pos b.stop) := by
    unfold lessIndent
    split
    · exact hb'
    · split
      · exact sublist_not_mem (List.drop_sublist _ _) hb'
      · exact sublist_not_mem (List.dropWhile_sublist _) hb'
  unfold decreaseBlock
  simp only [← Bool.not_eq_true, indentInfo_noIndent]
  have hle := hb.le
  have hlen := slice_length_line hb
  by_cases hn : Ev.noIndent ∈ E t n []
  · simp only [hn, not_true_eq_false, false_and, if_false, if_true]
    exact ⟨fun d hd => by simp at hd, rfl, hb'⟩
  · simp only [hn, not_false_eq_true, true_and, if_false, indentInfo_indent hE hn, Option.getD_some]
    refine ⟨?_, ?_, hsub⟩
    · intro d hd
      split at hd
      · simp only [Option.some.injEq] at hd
        subst hd
        have h1 := ownIndent_length (space := space) (slice t b.pos b.stop)
        refine ⟨Nat.le_refl _, Nat.le_add_right _ _, ?_⟩
        simp only
        split
        · rename_i hp
          have := (List.isPrefixOf_iff_prefix.1 hp).length_le
          omega
        · omega
      · cases hd
    · by_cases hf : Filled space (slice t b.pos b.stop)
      · rw [ownIndent_filled hf]
        unfold lessIndent
        rw [(filled_all _).1 hf]
        simp only [Bool.false_eq_true, if_false]
        by_cases h0 : (slice t b.pos b.stop).takeWhile space = []
        · rw [h0]
          simp only [ne_eq, not_true_eq_false, if_false]
          have hd : (slice t b.pos b.stop).dropWhile space = slice t b.pos b.stop := by
            have := takeWhile_append_dropWhile' (space := space) (slice t b.pos b.stop)
            rw [h0] at this
            exact this
          split
          · rename_i hp
            have := List.prefix_nil.1 (List.isPrefixOf_iff_prefix.1 hp)
            rw [this]; rfl
          · rw [hd]; rfl
        · simp only [ne_eq, h0, not_false_eq_true, if_true, newLine, slice_self', List.nil_append, slice_drop_self]
          split
          · rfl
          · rw [← ownIndent_filled hf, drop_ownIndent hf]
      · have hall : (slice t b.pos b.stop).all space = true := by
          rw [← Bool.not_eq_false, ← filled_all]; exact hf
        have : (slice t b.pos b.stop).dropWhile space = [] := Classical.byContradiction (fun e => hf ((filled_iff _).2 e))
        rw [ownIndent_eq, if_pos this]
        unfold lessIndent
        rw [hall]
        rfl

theorem stripEnd_eq : (l : List α) → stripEnd space l = (l.reverse.dropWhile space).reverse
  | [] => rfl
  | a :: l => by
    have ih := stripEnd_eq l
    have hd : ∀ l : List α, l.all space = true → l.dropWhile space = [] := fun l h => by
      rw [List.dropWhile_eq_nil_iff]; simpa using h
    unfold stripEnd
    split
    · rename_i h
      rw [hd _ (by rw [List.all_reverse]; exact h)]
      rfl
    · rename_i h
      rw [ih, List.reverse_cons]
      by_cases hl : l.all space = true
      · have h1 : l.reverse.dropWhile space = [] := hd _ (by rw [List.all_reverse]; exact hl)
        have ha : space a = false := by simpa [hl] using h
        rw [List.dropWhile_append, h1]
        simp [ha]
      · have h1 : l.reverse.dropWhile space ≠ [] := by
          rw [Ne, List.dropWhile_eq_nil_iff]; simpa using hl
        rw [List.dropWhile_append]
        have : (l.reverse.dropWhile space).isEmpty = false := by simpa using h1
        simp [this]

theorem stripEnd_prefix (l : List α) : stripEnd space l <+: l := by
  rw [stripEnd_eq]
  have := List.dropWhile_suffix (l := l.reverse) space
  simpa using List.reverse_prefix.2 this

theorem strip_line (E : Events α) (t : List α) (n : Nat) (b : Blk)
    (hb : IsLine t sep b.pos b.stop) (hb' : sep ∉ slice t b.pos b.stop) :
    EditOk (b, stripBlock space E t n b) ∧
    newLine t (b, stripBlock space E t n b) = (if Ev.noStrip ∈ E t n [] then slice t b.pos b.stop else stripEnd space (slice t b.pos b.stop)) ∧
    sep ∉ (if Ev.noStrip ∈ E t n [] then slice t b.pos b.stop else stripEnd space (slice t b.pos b.stop)) := by
  have hsub : sep ∉ stripEnd space (slice t b.pos b.stop) := sublist_not_mem (stripEnd_prefix _).sublist hb'
  unfold stripBlock
  simp only [indentInfo_noStrip, ← stripEnd_eq]
  have hle := hb.le
  have hlen := slice_length_line hb
  have hp := (stripEnd_prefix (space := space) (slice t b.pos b.stop)).length_le
  split
  · exact ⟨fun d hd => by simp at hd, rfl, hb'⟩
  · split
    · refine ⟨?_, ?_, hsub⟩
      · intro d hd
        simp only [Option.some.injEq] at hd
        subst hd
        simp only
        omega
      · simp only [newLine, List.append_nil, slice_self']
        have := List.prefix_iff_eq_take.1 (stripEnd_prefix (space := space) (slice t b.pos b.stop))
        conv => rhs; rw [this]
        unfold slice
        rw [List.take_drop, List.take_take]
        have : min (b.pos + (stripEnd space (List.drop b.pos (List.take b.stop t))).length) b.stop =
          b.pos + (stripEnd space (List.drop b.pos (List.take b.stop t))).length := by
          unfold slice at hp hlen
          omega
        rw [this]
    · refine ⟨fun d hd => by simp at hd, ?_, hsub⟩
      rename_i h
      have h : (stripEnd space (slice t b.pos b.stop)).length = b.stop - b.pos := Classical.not_not.1 h
      exact ((stripEnd_prefix (space := space) (slice t b.pos b.stop)).eq_of_length (by omega)).symm

theorem stripEnd_stripEnd (l : List α) : stripEnd space (stripEnd space l) = stripEnd space l := by
  rw [stripEnd_eq, stripEnd_eq, List.reverse_reverse, dropWhile_dropWhile]

theorem lessIndent_more {l s : List α} (hl : Filled space l) (hs : White space sep s) : lessIndent space s (s ++ l) = l := by
  have hf : Filled space (s ++ l) := by
    obtain ⟨a, h1, h2⟩ := hl
    exact ⟨a, by simp [h1], h2⟩
  unfold lessIndent
  rw [(filled_all _).1 hf, hs.takeWhile_append]
  simp

/-! ## twice -/

/-- The cursor has the same lines of two documents. -/
theorem changeLines_twice {t t' : List α} {pos pos' : Nat} {stop stop' : Option Nat} {f g : Nat → List α → List α}
    (h : linesOf sep t' = changeLines t sep pos stop f) (ht : ∀ i < (linesOf sep t).length, touched t' sep pos' stop' i = touched t sep pos stop i) :
    changeLines t' sep pos' stop' g = changeLines t sep pos stop (fun i l => g i (f i l)) := by
  unfold changeLines
  rw [h]
  unfold changeLines
  apply List.ext_getElem?
  intro i
  simp only [List.getElem?_mapIdx]
  cases hi : (linesOf sep t)[i]? with
  | none => rfl
  | some l =>
    have := ht i (List.getElem?_eq_some_iff.1 hi).1
    simp only [Option.map_some, this]
    split
    · rfl
    · rfl

theorem changeLines_congr {t : List α} {pos : Nat} {stop : Option Nat} {f g : Nat → List α → List α}
    (h : ∀ i l, (linesOf sep t)[i]? = some l → touched t sep pos stop i = true → f i l = g i l) :
    changeLines t sep pos stop f = changeLines t sep pos stop g := by
  unfold changeLines
  apply List.ext_getElem?
  intro i
  simp only [List.getElem?_mapIdx]
  cases hi : (linesOf sep t)[i]? with
  | none => rfl
  | some l =>
    simp only [Option.map_some]
    split
    · rename_i ht; rw [h i l hi ht]
    · rfl

theorem changeLines_id (t : List α) (sep : α) (pos : Nat) (stop : Option Nat) : changeLines t sep pos stop (fun _ l => l) = linesOf sep t := by
  unfold changeLines
  apply List.ext_getElem?
  intro i
  simp

end Parce.Ind

import Verif.Spec.Ini
/-!
# The strings and dictionaries of INI texts
-/
namespace Parce.Ini

/-- The limits with which the code reads a file right. -/
def safe : Limits := ⟨[10, 92, 59, 35, 58, 61, 91], [10, 92, 39, 34, 59, 35, 61, 58], [92]⟩

/-! ### Tokens of a string -/

/-- The texts of the tokens: an escape is one, the characters between them are another one. -/
inductive Runs : List Piece → List (List Nat) → Prop
  | nil : Runs [] []
  | esc {e : Piece} {ps : List Piece} {ws : List (List Nat)} : (∀ c, e ≠ .char c) → Runs ps ws → Runs (e :: ps) (e.text :: ws)
  | run {w : List Nat} {ps : List Piece} {ws : List (List Nat)} : (∀ c, ps.head? ≠ some (.char c)) → (ps = [] → ws = []) → Runs ps ws →
      Runs (w.map .char ++ ps) (w :: ws)

/-- The same, where the characters between escapes need not be in one token. -/
inductive Parts : List Piece → List (List Nat) → Prop
  | nil : Parts [] []
  | esc {e : Piece} {ps : List Piece} {ws : List (List Nat)} : (∀ c, e ≠ .char c) → Parts ps ws → Parts (e :: ps) (e.text :: ws)
  | run {w : List Nat} {ps : List Piece} {ws : List (List Nat)} : Parts ps ws → Parts (w.map .char ++ ps) (w :: ws)

theorem runs_char {c : Nat} {ps : List Piece} {ws : List (List Nat)} (h : Runs (.char c :: ps) ws) (hne : ∀ w ∈ ws, w ≠ []) (d : Nat) :
    ∃ ws', Runs (.char d :: .char c :: ps) ws' ∧ ∀ w ∈ ws', w ≠ [] := by
  generalize hx : Piece.char c :: ps = x at h
  cases h with
  | nil => cases hx
  | esc he _ => cases hx; exact absurd rfl (he c)
  | @run w ps' ws hp he hr =>
    cases w with
    | nil => exact absurd rfl (hne [] (List.mem_cons_self ..))
    | cons a w =>
      refine ⟨(d :: a :: w) :: ws, .run (w := d :: a :: w) hp he hr, fun v hv => ?_⟩
      rcases List.mem_cons.1 hv with rfl | hv
      · simp
      · exact hne v (List.mem_cons_of_mem _ hv)

theorem runs_of_nil {ws : List (List Nat)} (h : Runs [] ws) (hne : ∀ w ∈ ws, w ≠ []) : ws = [] := by
  generalize hx : ([] : List Piece) = x at h
  cases h with
  | nil => rfl
  | esc => cases hx
  | @run w ps ws _ _ _ =>
    cases w with
    | nil => exact absurd rfl (hne [] (List.mem_cons_self ..))
    | cons a w => simp at hx

theorem runs_exist (ps : List Piece) : ∃ ws, Runs ps ws ∧ ∀ w ∈ ws, w ≠ [] := by
  induction ps with
  | nil => exact ⟨[], .nil, by simp⟩
  | cons p ps ih =>
    obtain ⟨ws, h1, h2⟩ := ih
    have alone : ∀ d, (∀ c, ps.head? ≠ some (.char c)) → ∃ ws', Runs (.char d :: ps) ws' ∧ ∀ w ∈ ws', w ≠ [] := by
      intro d hd
      refine ⟨[d] :: ws, .run (w := [d]) hd (fun he => ?_) h1, fun v hv => ?_⟩
      · rw [he] at h1
        exact runs_of_nil h1 h2
      rcases List.mem_cons.1 hv with rfl | hv
      · simp
      · exact h2 v hv
    have esc : (∀ c, p ≠ .char c) → ∃ ws', Runs (p :: ps) ws' ∧ ∀ w ∈ ws', w ≠ [] := by
      intro hp
      refine ⟨p.text :: ws, .esc hp h1, fun v hv => ?_⟩
      rcases List.mem_cons.1 hv with rfl | hv
      · cases p <;> simp [Piece.text]
      · exact h2 v hv
    cases p with
    | char d =>
      cases ps with
      | nil => exact alone d (by simp)
      | cons q ps =>
        cases q with
        | char c => exact runs_char h1 h2 d
        | esc c => exact alone d (by simp)
        | hex x a b c e => exact alone d (by simp)
    | esc c => exact esc (by simp)
    | hex x a b c d => exact esc (by simp)

theorem runs_nil {ps : List Piece} (h : Runs ps []) : ps = [] := by
  generalize hx : ([] : List (List Nat)) = x at h
  cases h with
  | nil => rfl
  | esc => cases hx
  | run => cases hx

/-- `chr(int(text, 16))` is right for four hexadecimal digits. -/
def HexOk (hex : List Nat → Option Nat) : Prop :=
  ∀ a b c d, IsHexDigit a → IsHexDigit b → IsHexDigit c → IsHexDigit d → hex [a, b, c, d] = some (Piece.hex 120 a b c d).value

theorem safe_value {c : Nat} (h : c ∈ safe.esc) : c ≠ 120 ∧ c ≠ 88 ∧ (Piece.esc c).value = c := by
  simp only [safe, List.mem_cons, List.not_mem_nil, or_false] at h
  rcases h with rfl | rfl | rfl | rfl | rfl | rfl | rfl | rfl <;> decide

/-- Unescaping gives the values of the pieces. -/
theorem parts_value {hex : List Nat → Option Nat} (hh : HexOk hex) {ps : List Piece} {ws : List (List Nat)} (h : Parts ps ws)
    (hok : ∀ p ∈ ps, p.ok safe) : ∃ vs, ws.mapM (unescape hex) = some vs ∧ vs.flatten = ps.map Piece.value := by
  induction h with
  | nil => exact ⟨[], rfl, rfl⟩
  | @esc e ps ws he _ ih =>
    obtain ⟨vs, h1, h2⟩ := ih (fun p hp => hok p (List.mem_cons_of_mem _ hp))
    have hu : unescape hex e.text = some [e.value] := by
      have hk := hok e (List.mem_cons_self ..)
      cases e with
      | char c => exact absurd rfl (he c)
      | esc c =>
        obtain ⟨g1, g2, g3⟩ := safe_value hk
        simp [unescape, isEscape, Piece.text, g1, g2, g3]
      | hex x a b c d =>
        obtain ⟨hx, ha, hb, hc, hd⟩ := hk
        simp [unescape, isEscape, Piece.text, hx, hh a b c d ha hb hc hd, Piece.value]
    exact ⟨[e.value] :: vs, by simp [List.mapM_cons, hu, h1], by simp [h2]⟩
  | @run w ps ws _ ih =>
    obtain ⟨vs, h1, h2⟩ := ih (fun p hp => hok p (List.mem_append_right _ hp))
    have hu : unescape hex w = some w := by
      cases w with
      | nil => rfl
      | cons c w =>
        have hk : c ∉ safe.bad := hok (.char c) (by simp)
        have : c ≠ 92 := fun h => hk (by rw [h]; simp [safe])
        simp [unescape, isEscape, this]
    have hv : (w.map Piece.char).map Piece.value = w := by
      rw [List.map_map]
      exact List.map_id'' (fun _ => rfl) w
    exact ⟨w :: vs, by simp [List.mapM_cons, hu, h1], by rw [List.flatten_cons, h2, List.map_append, hv]⟩

/-! ### Stripping -/

def rstripP (ps : List Piece) : List Piece := (ps.reverse.dropWhile Piece.isBlank).reverse

theorem rstripP_append {xs ys : List Piece} (h : rstripP ys ≠ []) : rstripP (xs ++ ys) = xs ++ rstripP ys := by
  have h' : (ys.reverse.dropWhile Piece.isBlank).isEmpty = false := by
    cases h2 : ys.reverse.dropWhile Piece.isBlank with
    | nil => exact absurd (by simp [rstripP, h2]) h
    | cons => rfl
  unfold rstripP
  rw [List.reverse_append, List.dropWhile_append, h']
  simp

theorem rstripP_cons {p : Piece} {ps : List Piece} (h : p.isBlank = false) : rstripP (p :: ps) = p :: rstripP ps := by
  unfold rstripP
  rw [List.reverse_cons, List.dropWhile_append]
  split
  · next he =>
    have : ps.reverse.dropWhile Piece.isBlank = [] := by simpa using he
    simp [this, h]
  · simp

theorem esc_not_blank {e : Piece} (h : ∀ c, e ≠ .char c) : e.isBlank = false := by
  cases e with
  | char c => exact absurd rfl (h c)
  | esc c => rfl
  | hex x a b c d => rfl

theorem esc_isEscape {e : Piece} (h : ∀ c, e ≠ .char c) : isEscape e.text = true := by
  cases e with
  | char c => exact absurd rfl (h c)
  | esc c => rfl
  | hex x a b c d => rfl

theorem map_dropWhile (w : List Nat) : (w.map Piece.char).dropWhile Piece.isBlank = (lstrip w).map .char := by
  unfold lstrip
  induction w with
  | nil => rfl
  | cons c w ih =>
    simp only [List.map_cons, List.dropWhile_cons]
    have : (Piece.char c).isBlank = blank c := rfl
    rw [this]
    split
    · exact ih
    · rfl

theorem map_rstrip (w : List Nat) : rstripP (w.map Piece.char) = (rstrip w).map .char := by
  have := map_dropWhile w.reverse
  unfold rstripP rstrip
  unfold lstrip at this
  rw [← List.map_reverse, this, List.map_reverse]

/-- Stripping the first token. -/
theorem runs_first {ps : List Piece} {ws : List (List Nat)} (h : Runs ps ws) (hok : ∀ p ∈ ps, p.ok safe) :
    Runs (ps.dropWhile Piece.isBlank) (stripFirst ws) := by
  cases h with
  | nil => exact .nil
  | @esc e ps ws he hr =>
    simp only [stripFirst, List.dropWhile_cons, esc_not_blank he, esc_isEscape he, if_true, Bool.false_eq_true, if_false]
    exact .esc he hr
  | @run w ps ws hp hem hr =>
    have hw : isEscape w = false := by
      cases w with
      | nil => rfl
      | cons c w =>
        have hk : c ∉ safe.bad := hok (.char c) (by simp)
        have : c ≠ 92 := fun h => hk (by rw [h]; simp [safe])
        simp [isEscape, this]
    have hd : ps.dropWhile Piece.isBlank = ps := by
      cases ps with
      | nil => rfl
      | cons q ps =>
        rw [List.dropWhile_cons, esc_not_blank (fun c hc => hp c (by rw [hc]; rfl))]
        rfl
    simp only [stripFirst, hw, Bool.false_eq_true, if_false]
    rw [List.dropWhile_append, map_dropWhile]
    split
    · next he =>
      have : lstrip w = [] := by simpa using he
      rw [hd, this]
      exact .run (w := []) hp hem hr
    · exact .run hp hem hr

theorem parts_of_runs {ps : List Piece} {ws : List (List Nat)} (h : Runs ps ws) : Parts ps ws := by
  induction h with
  | nil => exact .nil
  | esc he _ ih => exact .esc he ih
  | run _ _ _ ih => exact .run ih

/-- Stripping the last token. -/
theorem runs_last {ps : List Piece} {ws : List (List Nat)} (h : Runs ps ws) (hok : ∀ p ∈ ps, p.ok safe) : Parts (rstripP ps) (stripLast ws) := by
  induction h with
  | nil => exact .nil
  | @esc e ps ws he hr ih =>
    have ih := ih (fun p hp => hok p (List.mem_cons_of_mem _ hp))
    rw [rstripP_cons (esc_not_blank he)]
    cases ws with
    | nil =>
      have := runs_nil hr
      subst this
      simp only [stripLast, esc_isEscape he, if_true]
      exact .esc he .nil
    | cons v ws =>
      rw [stripLast]
      · exact .esc he ih
      · simp
  | @run w ps ws hp hem hr ih =>
    have ih := ih (fun p hp => hok p (List.mem_append_right _ hp))
    have hw : isEscape w = false := by
      cases w with
      | nil => rfl
      | cons c w =>
        have hk : c ∉ safe.bad := hok (.char c) (by simp)
        have : c ≠ 92 := fun h => hk (by rw [h]; simp [safe])
        simp [isEscape, this]
    cases ws with
    | nil =>
      have := runs_nil hr
      subst this
      simp only [stripLast, hw, Bool.false_eq_true, if_false, List.append_nil, map_rstrip]
      have := Parts.run (w := rstrip w) .nil
      simpa using this
    | cons v ws =>
      rw [stripLast]
      · by_cases hps : ps = []
        · cases hem hps
        · obtain ⟨q, qs, rfl⟩ := List.exists_cons_of_ne_nil hps
          have hq : q.isBlank = false := esc_not_blank (fun c hc => hp c (by rw [hc]; rfl))
          rw [rstripP_append (by rw [rstripP_cons hq]; simp)]
          exact .run ih
      · simp

/-- The value of a string. -/
theorem runs_value {hex : List Nat → Option Nat} (hh : HexOk hex) {ps : List Piece} {ws : List (List Nat)} (h : Runs ps ws)
    (hok : ∀ p ∈ ps, p.ok safe) :
    ∃ vs, (stripLast (stripFirst ws)).mapM (unescape hex) = some vs ∧ vs.flatten = stripped ps := by
  have sub : ∀ p ∈ ps.dropWhile Piece.isBlank, p.ok safe := fun p hp => hok p ((List.dropWhile_sublist _).mem hp)
  have h2 := runs_last (runs_first h hok) sub
  refine parts_value hh h2 (fun p hp => sub p ?_)
  unfold rstripP at hp
  exact List.mem_reverse.1 ((List.dropWhile_sublist _).mem (List.mem_reverse.1 hp))

/-- Tokens in an item list. -/
def itms (ts : List (TokN Nat IA)) : List Itm := ts.map .tok

theorem mapM_text (ts : List (TokN Nat IA)) : (itms ts).mapM textOf = some (ts.map (·.text)) := by
  induction ts with
  | nil => rfl
  | cons t ts ih =>
    unfold itms at *
    simp only [List.map_cons, List.mapM_cons, ih]
    rfl

theorem values_runs {hex : List Nat → Option Nat} (hh : HexOk hex) {ps : List Piece} {ts : List (TokN Nat IA)}
    (h : Runs ps (ts.map (·.text))) (hok : ∀ p ∈ ps, p.ok safe) : valuesOf hex (itms ts) = .str (stripped ps) := by
  obtain ⟨vs, h1, h2⟩ := runs_value hh h hok
  unfold valuesOf
  rw [mapM_text]
  show (match (stripLast (stripFirst _)).mapM (unescape hex) with | some ws => IV.str ws.flatten | none => .error) = _
  rw [h1, ← h2]

/-! ### Dictionaries -/

section
variable {K V : Type} [DecidableEq K]

theorem dictGet_set (d : List (K × V)) (k : K) (v : V) : dictGet (dictSet d k v) k = some v := by
  induction d with
  | nil => simp [dictSet, dictGet]
  | cons e d ih =>
    obtain ⟨k', v'⟩ := e
    unfold dictSet
    by_cases h : k' = k
    · simp [h, dictGet]
    · simp [h, dictGet, ih]

theorem dictGet_other (d : List (K × V)) {k k' : K} (v : V) (h : k' ≠ k) : dictGet (dictSet d k v) k' = dictGet d k' := by
  induction d with
  | nil => simp [dictSet, dictGet, Ne.symm h]
  | cons e d ih =>
    obtain ⟨a, b⟩ := e
    unfold dictSet
    by_cases h1 : a = k
    · subst h1
      simp [dictGet, Ne.symm h]
    · simp only [h1, if_false, dictGet, ih]

theorem dictSet_set (d : List (K × V)) (k : K) (v v' : V) : dictSet (dictSet d k v) k v' = dictSet d k v' := by
  induction d with
  | nil => simp [dictSet]
  | cons e d ih =>
    obtain ⟨a, b⟩ := e
    by_cases h : a = k
    · simp [dictSet, h]
    · simp [dictSet, h, ih]

/-- Setting the entries one after the other. -/
def setAll (d : List (K × V)) (l : List (K × V)) : List (K × V) := l.foldl (fun d e => dictSet d e.1 e.2) d

/-- What the entry of a dictionary is, after others were set. -/
def later (l : List (K × V)) (e : K × V) : K × V := (e.1, ((l.reverse.find? (·.1 = e.1)).map (·.2)).getD e.2)

theorem dictSet_old (d : List (K × V)) (k : K) (v : V) (h : k ∈ d.map (·.1)) (hd : (d.map (·.1)).Nodup) :
    dictSet d k v = d.map (fun e => if e.1 = k then (k, v) else e) := by
  induction d with
  | nil => simp at h
  | cons e d ih =>
    obtain ⟨a, b⟩ := e
    simp only [List.map_cons, List.nodup_cons] at hd
    unfold dictSet
    by_cases h1 : a = k
    · subst h1
      simp only [if_true, List.map_cons, List.cons.injEq, true_and]
      refine (List.map_id'' (fun _ => rfl) d).symm.trans (List.map_congr_left (fun e he => ?_))
      rw [if_neg]
      intro h2
      exact hd.1 (List.mem_map.2 ⟨e, he, h2⟩)
    · simp only [h1, if_false, List.map_cons, List.cons.injEq, true_and]
      simp only [List.map_cons, List.mem_cons] at h
      exact ih (by rcases h with h | h; exact absurd h.symm h1; exact h) hd.2

theorem dictSet_new (d : List (K × V)) (k : K) (v : V) (h : k ∉ d.map (·.1)) : dictSet d k v = d ++ [(k, v)] := by
  induction d with
  | nil => rfl
  | cons e d ih =>
    obtain ⟨a, b⟩ := e
    simp only [List.map_cons, List.mem_cons, not_or] at h
    unfold dictSet
    rw [if_neg (Ne.symm h.1), ih h.2]
    rfl

theorem setAll_eq (l : List (K × V)) : ∀ d : List (K × V), (d.map (·.1)).Nodup →
    setAll d l = d.map (later l) ++ (dictOf l).filter (fun e => e.1 ∉ d.map (·.1)) := by
  induction l with
  | nil =>
    intro d _
    have : later ([] : List (K × V)) = id := by funext e; rfl
    simp [setAll, dictOf, this]
  | cons e l ih =>
    intro d hd
    obtain ⟨k, v⟩ := e
    have hfind : ∀ (k' : K) (v' : V), later ((k, v) :: l) (k', v') = if k' = k then later l (k', v) else later l (k', v') := by
      intro k' v'
      unfold later
      simp only [List.reverse_cons, List.find?_append]
      cases hf : l.reverse.find? (fun x => decide (x.1 = k')) with
      | some x => simp
      | none =>
        by_cases h : k' = k
        · subst h; simp
        · simp [h, Ne.symm h]
    have hstep : setAll d ((k, v) :: l) = setAll (dictSet d k v) l := rfl
    rw [hstep]
    by_cases hk : k ∈ d.map (·.1)
    · have hkeys : (dictSet d k v).map (·.1) = d.map (·.1) := by
        rw [dictSet_old d k v hk hd, List.map_map]
        refine List.map_congr_left (fun e _ => ?_)
        simp only [Function.comp]
        by_cases h : e.1 = k
        · simp [h]
        · simp [h]
      rw [ih _ (by rw [hkeys]; exact hd), hkeys]
      congr 1
      · rw [dictSet_old d k v hk hd, List.map_map]
        refine List.map_congr_left (fun e _ => ?_)
        obtain ⟨k', v'⟩ := e
        rw [hfind]
        simp only [Function.comp]
        by_cases h : k' = k
        · subst h; simp [later]
        · simp [h]
      · simp only [dictOf, List.filter_cons, hk, not_true_eq_false, decide_false, Bool.false_eq_true, if_false, List.filter_filter]
        refine List.filter_congr (fun e _ => ?_)
        by_cases h : e.1 = k
        · simp [h, hk]
        · simp [h]
    · have hkeys : (dictSet d k v).map (·.1) = d.map (·.1) ++ [k] := by rw [dictSet_new d k v hk]; simp
      rw [ih _ (by rw [hkeys]; exact List.nodup_append.2 ⟨hd, by simp, fun a ha b hb h => hk (by rw [← List.mem_singleton.1 hb, ← h]; exact ha)⟩), hkeys]
      rw [dictSet_new d k v hk, List.map_append, List.append_assoc]
      congr 1
      · refine List.map_congr_left (fun e he => ?_)
        obtain ⟨k', v'⟩ := e
        rw [hfind, if_neg]
        rintro rfl
        exact hk (List.mem_map.2 ⟨_, he, rfl⟩)
      · simp only [dictOf, List.filter_cons, hk, not_false_eq_true, decide_true, if_true, List.map_cons, List.map_nil, List.singleton_append,
          List.filter_filter]
        congr 1
        refine List.filter_congr (fun e _ => ?_)
        simp only [List.mem_append, List.mem_singleton, not_or]
        by_cases h : e.1 = k
        · simp [h]
        · simp [h]

/-- Building a dictionary gives every key once, with its last value. -/
theorem setAll_dict (l : List (K × V)) : setAll [] l = dictOf l := by
  rw [setAll_eq l [] (by simp)]
  simp

end

end Parce.Ini

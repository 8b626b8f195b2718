import Verif.Lemmas.CssSel
/-!
# Lists of selectors in CSS texts
-/
namespace Parce.CssL
open Parce.Json (Uni str)
variable {Q K : Type} {u : Uni} {k : Words} {f : Funcs Q K}

/-! ### What a selector stands for -/

theorem selAdd_old (d : List (CL × List (CV Q K))) (n : CL) (v : CV Q K) (h : n ∈ d.map (·.1)) (hd : (d.map (·.1)).Nodup) :
    selAdd d n v = d.map fun e => if e.1 = n then (e.1, e.2 ++ [v]) else e := by
  induction d with
  | nil => simp at h
  | cons e d ih =>
    obtain ⟨m, os⟩ := e
    simp only [List.map_cons, List.nodup_cons] at hd
    unfold selAdd
    by_cases h1 : m = n
    · subst h1
      simp only [if_true, List.map_cons, List.cons.injEq, true_and]
      refine (List.map_id'' (fun _ => rfl) d).symm.trans (List.map_congr_left (fun e he => ?_))
      rw [if_neg]
      intro h2
      exact hd.1 (List.mem_map.2 ⟨e, he, h2⟩)
    · simp only [h1, if_false, List.map_cons, List.cons.injEq, true_and]
      simp only [List.map_cons, List.mem_cons] at h
      exact ih (by rcases h with h | h; exact absurd h.symm h1; exact h) hd.2

theorem selAdd_new (d : List (CL × List (CV Q K))) (n : CL) (v : CV Q K) (h : n ∉ d.map (·.1)) : selAdd d n v = d ++ [(n, [v])] := by
  induction d with
  | nil => rfl
  | cons e d ih =>
    obtain ⟨a, b⟩ := e
    simp only [List.map_cons, List.mem_cons, not_or] at h
    unfold selAdd
    rw [if_neg (Ne.symm h.1), ih h.2]
    rfl

def selAll (d : List (CL × List (CV Q K))) (l : List (CL × CV Q K)) : List (CL × List (CV Q K)) := l.foldl (fun d p => selAdd d p.1 p.2) d

/-- The values of a key, added. -/
def more (l : List (CL × CV Q K)) (e : CL × List (CV Q K)) : CL × List (CV Q K) := (e.1, e.2 ++ (l.filter (·.1 = e.1)).map (·.2))

theorem selAll_eq (l : List (CL × CV Q K)) : ∀ d : List (CL × List (CV Q K)), (d.map (·.1)).Nodup →
    selAll d l = d.map (more l) ++ (grouped l).filter (fun e => e.1 ∉ d.map (·.1)) := by
  induction l with
  | nil =>
    intro d _
    have : more ([] : List (CL × CV Q K)) = id := by funext e; simp [more]
    simp [selAll, grouped, this]
  | cons e l ih =>
    intro d hd
    obtain ⟨n, v⟩ := e
    have hstep : selAll d ((n, v) :: l) = selAll (selAdd d n v) l := rfl
    rw [hstep]
    have hmore : ∀ e : CL × List (CV Q K), more ((n, v) :: l) e = if e.1 = n then more l (e.1, e.2 ++ [v]) else more l e := by
      intro e
      unfold more
      by_cases h : e.1 = n
      · rw [if_pos h, List.filter_cons_of_pos (by simp [h])]
        simp
      · rw [if_neg h, List.filter_cons_of_neg (by simp [Ne.symm h])]
    by_cases hk : n ∈ d.map (·.1)
    · have hkeys : (selAdd d n v).map (·.1) = d.map (·.1) := by
        rw [selAdd_old d n v hk hd, List.map_map]
        refine List.map_congr_left (fun e _ => ?_)
        simp only [Function.comp]
        split <;> rfl
      rw [ih _ (by rw [hkeys]; exact hd), hkeys]
      congr 1
      · rw [selAdd_old d n v hk hd, List.map_map]
        refine List.map_congr_left (fun e _ => ?_)
        rw [hmore]
        simp only [Function.comp]
        split <;> rfl
      · simp only [grouped, List.filter_cons, hk, not_true_eq_false, decide_false, Bool.false_eq_true, if_false, List.filter_filter]
        refine List.filter_congr (fun e _ => ?_)
        by_cases h : e.1 = n
        · simp [h, hk]
        · simp [h]
    · have hkeys : (selAdd d n v).map (·.1) = d.map (·.1) ++ [n] := by rw [selAdd_new d n v hk]; simp
      rw [ih _ (by rw [hkeys]; exact List.nodup_append.2 ⟨hd, by simp, fun a ha b hb h => hk (by rw [← List.mem_singleton.1 hb, ← h]; exact ha)⟩), hkeys]
      rw [selAdd_new d n v hk, List.map_append, List.append_assoc]
      congr 1
      · refine List.map_congr_left (fun e he => ?_)
        rw [hmore, if_neg]
        rintro rfl
        exact hk (List.mem_map.2 ⟨_, he, rfl⟩)
      · simp only [grouped, List.filter_cons, hk, not_false_eq_true, decide_true, if_true, List.map_cons, List.map_nil, List.singleton_append,
          List.filter_filter, more, List.cons_append, List.nil_append]
        congr 1
        refine List.filter_congr (fun e _ => ?_)
        simp only [List.mem_append, List.mem_singleton, not_or]
        by_cases h : e.1 = n
        · simp [h]
        · simp [h]

theorem selAll_nil (l : List (CL × CV Q K)) : selAll [] l = grouped l := by
  rw [selAll_eq l [] (by simp)]
  simp

/-! ### Items -/

/-- The token before a simple selector. -/
def Simple.mark : Simple → Itm Q K
  | .id _ => .tok (str "#") .identifierDef
  | .cls _ => .tok (str ".") .keyword
  | .pelem _ => .tok (str "::") .keyword
  | .pcls _ => .tok (str ":") .keyword
  | .pfun _ _ => .tok (str ":") .keyword
  | .attr _ _ => .tok (str "[") .delimiter
  | .attrVal _ _ _ _ _ _ => .tok (str "[") .delimiter

def Simple.items (s : Simple) : List (Itm Q K) := [s.mark, .item (s.pair (Q := Q) (K := K)).1 s.pair.2]

def Simples.items : Simples → List (Itm Q K)
  | .nil => []
  | .cons s ss => s.items ++ ss.items

/-- The item for a selector. -/
def selItem (e : Option Elem) (s : Simples) : Itm Q K := .item .selector (.sel (grouped (Elem.pairs e ++ s.pairs)))

def Comb.items : Comb → List (Itm Q K)
  | .desc g => bitems g
  | .op g o g' => bitems g ++ [.tok o .operator] ++ bitems g'

def Steps.items : Steps → List (Itm Q K)
  | .nil => []
  | .cons c e s r => c.items ++ [selItem e s] ++ r.items

def Sels.items : Sels → List (Itm Q K)
  | .one g e s r g' => bitems g ++ [selItem e s] ++ r.items ++ bitems g'
  | .more g e s r g' ss => bitems g ++ [selItem e s] ++ r.items ++ bitems g' ++ [.tok [44] .delimiter] ++ ss.items

/-- The step of `selector`. -/
def selStep (d : List (CL × List (CV Q K))) (i : Itm Q K) : List (CL × List (CV Q K)) :=
  match i with
  | .item n o => selAdd d n o
  | .tok _ _ => d

theorem Elem.fold (e : Option Elem) (d : List (CL × List (CV Q K))) : (Elem.items e).foldl selStep d = selAll d (Elem.pairs e) := by
  match e with
  | none => rfl
  | some .any => rfl
  | some (.name w) => rfl

theorem Simple.fold (s : Simple) (d : List (CL × List (CV Q K))) : s.items.foldl selStep d = selAdd d (s.pair (Q := Q) (K := K)).1 s.pair.2 := by
  cases s <;> rfl

theorem Simples.fold : ∀ (s : Simples) (d : List (CL × List (CV Q K))), s.items.foldl selStep d = selAll d s.pairs
  | .nil, _ => rfl
  | .cons s ss, d => by
    rw [Simples.items, List.foldl_append, s.fold, ss.fold, Simples.pairs]
    rfl

theorem selector_eq (e : Option Elem) (s : Simples) : selectorOf (Elem.items e ++ s.items : List (Itm Q K)) = .sel (grouped (Elem.pairs e ++ s.pairs)) := by
  show CV.sel ((Elem.items e ++ s.items : List (Itm Q K)).foldl selStep []) = _
  rw [List.foldl_append, Elem.fold, Simples.fold, ← selAll_nil]
  simp [selAll]

theorem Elem.not_failed (e : Option Elem) : failed (Elem.items e : List (Itm Q K)) = false := by
  match e with
  | none => rfl
  | some .any => rfl
  | some (.name w) => rfl

theorem Simple.not_failed (s : Simple) : failed (s.items : List (Itm Q K)) = false := by
  cases s <;> rfl

theorem Simples.not_failed : ∀ (s : Simples), failed (s.items : List (Itm Q K)) = false
  | .nil => rfl
  | .cons s ss => by rw [Simples.items, failed_append, s.not_failed, ss.not_failed]; rfl

/-! ### The loop over selectors -/

theorem prelude_blanks (g : Blanks) (is : List (Itm Q K)) (p : List (List (CV Q K))) (r : List (CV Q K)) :
    preludeLoop (bitems g ++ is) p r = preludeLoop is p r := by
  induction g with
  | nil => rfl
  | cons b g ih =>
    cases b with
    | ws c => exact ih
    | comment w =>
      have : preludeLoop (.tok (str "/*") .comment :: (bitems g ++ is)) p r = preludeLoop (bitems g ++ is) p r := by
        rw [preludeLoop, if_neg (by decide), if_neg (by simp)]
      exact this.trans ih

theorem lastSel_append (r : List (CV Q K)) (d : List (CL × List (CV Q K))) : lastSel (r ++ [.sel d]) = true := by
  simp [lastSel, CV.isSel]

theorem lastSel_text (r : List (CV Q K)) (w : List Nat) : lastSel (r ++ [.text w]) = false := by
  simp [lastSel, CV.isSel]

theorem prelude_sel (e : Option Elem) (s : Simples) (is : List (Itm Q K)) (p : List (List (CV Q K))) (r : List (CV Q K)) :
    preludeLoop (selItem e s :: is) p r =
      preludeLoop is p ((if lastSel r then r ++ [.text [32]] else r) ++ [.sel (grouped (Elem.pairs e ++ s.pairs))]) := by
  rw [selItem, preludeLoop, if_pos rfl]

theorem Steps.loop : ∀ (st : Steps), st.ok u false → ∀ (is : List (Itm Q K)) (p : List (List (CV Q K))) (r : List (CV Q K)), lastSel r = true →
    preludeLoop (st.items ++ is) p r = preludeLoop is p (r ++ st.values) ∧ lastSel (r ++ (st.values : List (CV Q K))) = true
  | .nil, _, is, p, r, h => by simp [Steps.items, Steps.values, h]
  | .cons c e s st, ho, is, p, r, h => by
    simp only [Steps.ok] at ho
    have hc := ho.1
    cases c with
    | desc g =>
      have h1 : lastSel (r ++ [.text [32]] ++ [.sel (grouped (Elem.pairs e ++ s.pairs))]) = true := lastSel_append _ _
      obtain ⟨i1, i2⟩ := Steps.loop st ho.2.2.2.2 is p _ h1
      constructor
      · simp only [Steps.items, Comb.items, List.append_assoc, List.cons_append, List.nil_append]
        rw [prelude_blanks, prelude_sel, if_pos h, i1]
        simp [Steps.values, Comb.op', str]
      · simpa [Steps.values, Comb.op', str] using i2
    | op g w g' =>
      have hw : w ≠ [44] := by
        simp only [Comb.ok] at hc
        rcases hc.2.2 with rfl | rfl | rfl | ⟨rfl, _⟩ <;> decide
      have h1 : lastSel (r ++ [.text w] ++ [.sel (grouped (Elem.pairs e ++ s.pairs))]) = true := lastSel_append _ _
      obtain ⟨i1, i2⟩ := Steps.loop st ho.2.2.2.2 is p _ h1
      constructor
      · simp only [Steps.items, Comb.items, List.append_assoc, List.cons_append, List.nil_append]
        rw [prelude_blanks, preludeLoop, if_neg hw, if_pos ⟨rfl, h⟩, prelude_blanks, prelude_sel, lastSel_text, if_neg (by simp), i1]
        simp [Steps.values, Comb.op']
      · simpa [Steps.values, Comb.op'] using i2

/-- The selectors, as lists. -/
def Sels.rows : Sels → List (List (CV Q K))
  | .one _ e s r _ => [.sel (grouped (Elem.pairs e ++ s.pairs)) :: r.values]
  | .more _ e s r _ ss => (.sel (grouped (Elem.pairs e ++ s.pairs)) :: r.values) :: ss.rows

theorem Sels.rows_values : ∀ s : Sels, (s.rows : List (List (CV Q K))).map .list = s.values
  | .one _ _ _ _ _ => by simp [Sels.rows, Sels.values]
  | .more _ _ _ _ _ ss => by simp [Sels.rows, Sels.values, ss.rows_values]

theorem Sels.loop : ∀ (ss : Sels), ss.ok u false → ∀ (p : List (List (CV Q K))),
    (∀ is : List (Itm Q K), (∀ p' r, preludeLoop is p' r = preludeLoop [] p' r) → preludeLoop (ss.items ++ is) p [] = p ++ ss.rows) ∧
    ∀ r ∈ (ss.rows : List (List (CV Q K))), lastSel r = true
  | .one g e s r g', ho, p => by
    simp only [Sels.ok] at ho
    obtain ⟨i1, i2⟩ := Steps.loop (Q := Q) (K := K) r ho.2.2.2.2.1 [] p [.sel (grouped (Elem.pairs e ++ s.pairs))] rfl
    refine ⟨fun is his => ?_, ?_⟩
    · obtain ⟨i1, _⟩ := Steps.loop (Q := Q) (K := K) r ho.2.2.2.2.1 (bitems g' ++ is) p [.sel (grouped (Elem.pairs e ++ s.pairs))] rfl
      simp only [Sels.items, List.append_assoc, List.cons_append, List.nil_append]
      rw [prelude_blanks, prelude_sel, if_neg (by simp [lastSel]), List.nil_append, i1, prelude_blanks, his]
      simp [preludeLoop, Sels.rows]
    · intro r' hr'
      simp only [Sels.rows, List.mem_singleton] at hr'
      subst hr'
      exact i2
  | .more g e s r g' ss, ho, p => by
    simp only [Sels.ok] at ho
    obtain ⟨_, i2⟩ := Steps.loop (Q := Q) (K := K) r ho.2.2.2.2.1 [] p [.sel (grouped (Elem.pairs e ++ s.pairs))] rfl
    obtain ⟨j1, j2⟩ := Sels.loop ss ho.2.2.2.2.2.2 (p ++ [[.sel (grouped (Elem.pairs e ++ s.pairs))] ++ r.values])
    refine ⟨fun is his => ?_, ?_⟩
    · obtain ⟨i1, _⟩ := Steps.loop (Q := Q) (K := K) r ho.2.2.2.2.1 (bitems g' ++ .tok [44] .delimiter :: (ss.items ++ is)) p
        [.sel (grouped (Elem.pairs e ++ s.pairs))] rfl
      simp only [Sels.items, List.append_assoc, List.cons_append, List.nil_append]
      rw [prelude_blanks, prelude_sel, if_neg (by simp [lastSel]), List.nil_append, i1, prelude_blanks, preludeLoop, if_pos rfl, j1 is his]
      simp [Sels.rows]
    · intro r' hr'
      simp only [Sels.rows, List.mem_cons] at hr'
      rcases hr' with rfl | hr'
      · exact i2
      · exact j2 r' hr'

theorem Sels.prelude_eq (ss : Sels) (ho : ss.ok u false) {is : List (Itm Q K)} (his : ∀ p' r, preludeLoop is p' r = preludeLoop [] p' r) :
    preludeOf (ss.items ++ is) = .list (ss.values : List (CV Q K)) := by
  obtain ⟨h1, h2⟩ := Sels.loop (Q := Q) (K := K) ss ho []
  have h3 : (ss.rows : List (List (CV Q K))).map trimOperator = ss.rows := by
    refine (List.map_congr_left (fun r hr => ?_)).trans (List.map_id _)
    simp [trimOperator, h2 r hr]
  have h4 : (ss.rows : List (List (CV Q K))).filter (fun s => !s.isEmpty) = ss.rows := by
    refine List.filter_eq_self.2 (fun r hr => ?_)
    have := h2 r hr
    cases r with
    | nil => simp [lastSel] at this
    | cons => rfl
  rw [preludeOf, h1 is his, List.nil_append, h3, h4, ss.rows_values]

theorem Comb.not_failed (c : Comb) : failed (c.items : List (Itm Q K)) = false := by
  cases c with
  | desc g => exact failed_blanks g
  | op g o g' => simp only [Comb.items, failed_append, failed_blanks]; rfl

theorem Steps.not_failed : ∀ (s : Steps), failed (s.items : List (Itm Q K)) = false
  | .nil => rfl
  | .cons c e s r => by simp only [Steps.items, failed_append, c.not_failed, r.not_failed]; rfl

theorem Sels.not_failed : ∀ (s : Sels), failed (s.items : List (Itm Q K)) = false
  | .one g e s r g' => by simp only [Sels.items, failed_append, failed_blanks, r.not_failed]; rfl
  | .more g e s r g' ss => by simp only [Sels.items, failed_append, failed_blanks, r.not_failed, ss.not_failed]; rfl

end Parce.CssL

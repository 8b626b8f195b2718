import Verif.Lemmas.IniText
import Verif.Props.Transform
/-!
# The dictionary of an INI text
-/
namespace Parce.Ini
variable {word : Nat → Bool} {hex : List Nat → Option Nat} {t : List Nat}

/-! ### The loop over the items -/

abbrev Sects := List (Option (List Nat) × Section)

/-- What a line does. -/
def lineStep (s : Sects × Option (List Nat)) (l : Line) : Sects × Option (List Nat) :=
  match l.content with
  | .idle _ => s
  | .head n _ => (dictSet s.1 (some (headName n)) [], some (headName n))
  | .assign k v => (setIn s.1 s.2 (stripped k) (if v = [] then none else some (stripped v)), s.2)

/-- What comes next does not belong to the line. -/
def Fresh (is : List Itm) : Prop := ∀ i, is.head? = some i → (∀ k, i = .tok k → k.act ≠ .assign) ∧ ∀ v, i ≠ .item .value v

theorem fresh_tok {k : TokN Nat IA} {is : List Itm} (h : k.act ≠ .assign) : Fresh (.tok k :: is) := by
  intro i hi
  cases hi
  exact ⟨fun k' h' => by cases h'; exact h, fun v h' => by cases h'⟩

theorem fresh_key {s : IV} {is : List Itm} : Fresh (.item .key s :: is) := by
  intro i hi
  cases hi
  exact ⟨by simp, by simp⟩

theorem fresh_comment {c : Option (Nat × List Nat)} {b is : List Itm} (h : MItems c b) (hf : Fresh is) : Fresh (b ++ is) := by
  cases h with
  | none => exact hf
  | some hk => exact fresh_tok hk

theorem fresh_content {c : Content} {a is : List Itm} (h : CItems c a) (hf : Fresh is) : Fresh (a ++ is) := by
  cases h with
  | nothing => exact hf
  | idle => exact fresh_key
  | head hk _ => exact fresh_tok hk
  | unset _ => exact fresh_key
  | assign _ _ => exact fresh_key

theorem fresh_lines {ls : List Line} {is : List Itm} (h : LItems ls is) : Fresh is := by
  induction h with
  | nil => intro i hi; cases hi
  | line ha hb _ ih => exact fresh_content ha (fresh_comment hb ih)

theorem loop_tok {k : TokN Nat IA} {is : List Itm} {r : Sects} {cur : Option (List Nat)} : rootLoop (.tok k :: is) r cur = rootLoop is r cur := rfl

theorem loop_key {s : List Nat} {is : List Itm} {r : Sects} {cur : Option (List Nat)} (h : Fresh is) :
    rootLoop (.item .key (.str s) :: is) r cur = rootLoop is r cur := by
  have : assigned is = none := by
    cases is with
    | nil => rfl
    | cons i is =>
      cases i with
      | tok k => simp only [assigned, (h _ rfl).1 k rfl, if_false]
      | item n v => rfl
      | raw n => rfl
  simp only [rootLoop, reduceCtorEq, if_false, if_true, this]

theorem loop_section {s : List Nat} {is : List Itm} {r : Sects} {cur : Option (List Nat)} :
    rootLoop (.item .section (.str s) :: is) r cur = rootLoop is (dictSet r (some s) []) (some s) := rfl

theorem loop_assign {s v : List Nat} {a : TokN Nat IA} {is : List Itm} {r : Sects} {cur : Option (List Nat)} (ha : a.act = .assign) :
    rootLoop (.item .key (.str s) :: .tok a :: .item .value (.str v) :: is) r cur = rootLoop is (setIn r cur s (some v)) cur := by
  simp only [rootLoop, assigned, ha, reduceCtorEq, if_false, if_true, IV.text]

theorem loop_unset {s : List Nat} {a : TokN Nat IA} {is : List Itm} {r : Sects} {cur : Option (List Nat)} (ha : a.act = .assign) (h : Fresh is) :
    rootLoop (.item .key (.str s) :: .tok a :: is) r cur = rootLoop is (setIn r cur s none) cur := by
  have : assigned (.tok a :: is) = some none := by
    cases is with
    | nil => simp only [assigned, ha, if_true]
    | cons i is =>
      cases i with
      | tok k => simp only [assigned, ha, if_true]
      | item n v =>
        have : n ≠ .value := fun hn => (h _ rfl).2 v (by rw [hn])
        simp only [assigned, ha, this, if_true, if_false]
      | raw n => simp only [assigned, ha, if_true]
  simp only [rootLoop, reduceCtorEq, if_false, if_true, this, IV.text]

theorem loop_content {l : Line} {a is : List Itm} {r : Sects} {cur : Option (List Nat)} (h : CItems l.content a) (hf : Fresh is) :
    rootLoop (a ++ is) r cur = rootLoop is (lineStep (r, cur) l).1 (lineStep (r, cur) l).2 := by
  obtain ⟨c, m⟩ := l
  simp only at h
  cases h with
  | nothing => rfl
  | idle => exact loop_key hf
  | head hk his =>
    simp only [List.cons_append]
    rw [loop_tok, loop_section]
    rcases his with rfl | ⟨s, rfl⟩
    · rfl
    · exact loop_key hf
  | unset ha => exact loop_unset ha hf
  | assign ha hv =>
    simp only [List.cons_append, List.nil_append]
    rw [loop_assign ha]
    simp [lineStep, hv]

theorem loop_lines {ls : List Line} {is : List Itm} (h : LItems ls is) : ∀ (r : Sects) (cur : Option (List Nat)),
    rootLoop is r cur = (ls.foldl lineStep (r, cur)).1 := by
  induction h with
  | nil => intro r cur; rw [rootLoop]; rfl
  | @line l ls a b c ha hb hc ih =>
    intro r cur
    rw [loop_content ha (fresh_comment hb (fresh_lines hc))]
    have hcom : ∀ (r : Sects) (cur : Option (List Nat)), rootLoop (b ++ c) r cur = rootLoop c r cur := by
      intro r cur
      generalize l.comment = m at hb
      cases hb with
      | none => rfl
      | some _ => exact loop_tok
    rw [hcom, ih]
    rfl

/-- The lines give the keys and values, and the sections. -/
theorem lines_fold (ls : List Line) : ∀ (r : Sects) (cur : Option (List Nat)) (ds : Section),
    (ls.foldl lineStep (dictSet r cur ds, cur)).1 =
      setAll r ((cur, setAll ds (entries ls)) :: (sections ls).map fun s => (some s.1, setAll [] s.2)) := by
  induction ls with
  | nil => intro r cur ds; rfl
  | cons l ls ih =>
    intro r cur ds
    rw [List.foldl_cons]
    obtain ⟨c, m⟩ := l
    cases c with
    | idle ps =>
      simp only [lineStep, entries, sections]
      exact ih r cur ds
    | head n ps =>
      simp only [lineStep, entries, sections]
      rw [ih (dictSet r cur ds) (some (headName n)) []]
      rfl
    | assign k v =>
      simp only [lineStep, entries, sections, setIn, dictGet_set, Option.getD_some, dictSet_set]
      exact ih r cur _

theorem dictOf_keys {K V : Type} [DecidableEq K] (l : List (K × V)) : ∀ e ∈ dictOf l, e.1 ∈ l.map (·.1) := by
  induction l with
  | nil => simp [dictOf]
  | cons e l ih =>
    obtain ⟨k, v⟩ := e
    intro e he
    simp only [dictOf, List.mem_cons, List.mem_filter] at he
    rcases he with rfl | he
    · simp
    · exact List.mem_cons_of_mem _ (ih e he.1)

theorem dictOf_nil {K V : Type} [DecidableEq K] {l : List (K × V)} : dictOf l = [] ↔ l = [] := by
  cases l with
  | nil => simp [dictOf]
  | cons e l => obtain ⟨k, v⟩ := e; simp [dictOf]

theorem root_meaning {ls : List Line} {is : List Itm} (h : LItems ls is) (hf : failed is = false) : rootOf is = meaning ls := by
  unfold rootOf
  rw [hf, loop_lines h]
  have h0 : (ls.foldl lineStep ([(none, [])], none)).1 = dictOf ((none, dictOf (entries ls)) :: (sections ls).map fun s => (some s.1, dictOf s.2)) := by
    have := lines_fold ls [] none []
    simp only [setAll_dict] at this
    exact this
  rw [h0]
  have hnone : ∀ e ∈ ((sections ls).map fun s => ((some s.1 : Option (List Nat)), dictOf s.2)), e.1 ≠ none := by
    intro e he
    obtain ⟨s, _, rfl⟩ := List.mem_map.1 he
    simp
  have hnone' : ∀ e ∈ dictOf ((sections ls).map fun s => ((some s.1 : Option (List Nat)), dictOf s.2)), e.1 ≠ none := by
    intro e he
    obtain ⟨e', h1, h2⟩ := List.mem_map.1 (dictOf_keys _ e he)
    rw [← h2]
    exact hnone e' h1
  have hfind : (((sections ls).map fun s => ((some s.1 : Option (List Nat)), dictOf s.2)).reverse.find? (·.1 = none)) = none := by
    rw [List.find?_eq_none]
    intro e he
    simpa using hnone e (List.mem_reverse.1 he)
  have hfil : (dictOf ((sections ls).map fun s => ((some s.1 : Option (List Nat)), dictOf s.2))).filter (·.1 ≠ none) =
      dictOf ((sections ls).map fun s => ((some s.1 : Option (List Nat)), dictOf s.2)) :=
    List.filter_eq_self.2 (fun e he => by simpa using hnone' e he)
  have hd : dictOf ((none, dictOf (entries ls)) :: (sections ls).map fun s => ((some s.1 : Option (List Nat)), dictOf s.2)) =
      (none, dictOf (entries ls)) :: dictOf ((sections ls).map fun s => ((some s.1 : Option (List Nat)), dictOf s.2)) := by
    rw [dictOf, hfind, hfil]
    rfl
  rw [hd]
  unfold meaning
  simp only [Bool.false_eq_true, if_false, dictGet, if_true, Option.some.injEq, dictOf_nil]
  by_cases he : entries ls = []
  · rw [if_pos he, if_pos he]
    rw [List.filter_cons, if_neg (by simp), hfil]
    rfl
  · rw [if_neg he, if_neg he]
    rw [List.singleton_append, hd]

theorem failed_append (a b : List Itm) : failed (a ++ b) = (failed a || failed b) := by simp [failed]

theorem lines_ok {ls : List Line} {is : List Itm} (h : LItems ls is) : failed is = false := by
  induction h with
  | nil => rfl
  | @line l ls a b c ha hb _ ih =>
    rw [failed_append, failed_append, ih]
    generalize l.content = x at ha
    generalize l.comment = m at hb
    have h1 : failed a = false := by
      cases ha with
      | nothing => exact rfl
      | idle => exact rfl
      | head _ his =>
        rcases his with rfl | ⟨s, rfl⟩
        · exact rfl
        · exact rfl
      | unset _ => exact rfl
      | assign _ _ => exact rfl
    rw [h1]
    cases hb <;> rfl

/-! ### The end -/

theorem state_end {ns : List Nd} {x : FS} (h : State ns t.length x) : AtEnd t x ∧ endNodes x = ns := by
  cases h with
  | root => exact ⟨.root, rfl⟩
  | @inside l ks ns0 f cr hl hok he =>
    refine ⟨.inside ?_ ?_ hok, he.symm⟩
    · rcases hl with rfl | rfl <;> decide
    · rcases hl with rfl | rfl <;> decide

/-- The events of a file, and the tree. -/
theorem file_tree (hw : word 10 = false) (hh : HexOk hex) (ls : List Line) (hok : ∀ l ∈ ls, l.ok safe) (n : Nat)
    (hn : RB.Finished (lang word) .root (fileText ls) n) :
    ∃ ns, buildTree (lang word) .root (fileText ls) 0 n = .ctx .root ns ∧ LItems ls (itmL (env hex) false ns) ∧ Flat ns ∧
      (ComLast ns ↔ EndsInComment ls) := by
  obtain ⟨ns, y, h1, h2, h3, h4, h5, _⟩ := go_file (t := fileText ls) hw hh ls (.root (ns := []) (p := 0)) hok rfl (Nat.zero_le _)
  rw [List.nil_append] at h2
  obtain ⟨h6, h7⟩ := state_end h2
  obtain ⟨k, evs, h8, h9⟩ := end_tree h1 h6
  refine ⟨ns, ?_, h3, h4, h5⟩
  have : (lexRun (lang word) (fileText ls) n (LState.start [.root] 0)).1 = evs := by
    have e1 : RB.Ends (lang word) (fileText ls) k (LState.start [.root] 0) evs := h8
    have e2 : RB.Ends (lang word) (fileText ls) n (LState.start [.root] 0) (lexRun (lang word) (fileText ls) n (LState.start [.root] 0)).1 := by
      unfold RB.Ends
      unfold RB.Finished at hn
      rw [Option.isNone_iff_eq_none] at hn
      rw [← hn]
    exact e2.unique e1
  unfold buildTree
  rw [this, h9, h7]

/-- Where the events end. -/
theorem stack_end {b : BState Nat IL IA} {ns : List Nd} (hc : b.close = .ctx .root ns) (hf : Flat ns)
    (hk : b.cur.kids = [] ∨ ∃ k, b.cur.kids.getLast? = some (.tok k)) : .comment ∈ b.lexs ↔ ComLast ns := by
  obtain ⟨⟨l, ks⟩, up⟩ := b
  match up, hc with
  | [], hc =>
    simp only [BState.close, List.foldl_nil, Node.ctx.injEq] at hc
    obtain ⟨rfl, rfl⟩ := hc
    simp only [BState.lexs, List.map_nil, List.mem_singleton, reduceCtorEq, false_iff]
    rintro ⟨k, h⟩
    rcases hk with hk | ⟨k', hk⟩
    · simp only at hk; rw [hk] at h; cases h
    · simp only at hk; rw [hk] at h; cases h
  | [f], hc =>
    simp only [BState.close, List.foldl_cons, List.foldl_nil, Node.ctx.injEq] at hc
    obtain ⟨h1, rfl⟩ := hc
    simp only [BState.lexs, List.map_cons, List.map_nil, h1, ComLast, List.getLast?_concat, Option.some.injEq, Node.ctx.injEq]
    simp [eq_comm]
  | f :: g :: up, hc =>
    exfalso
    have key : ∀ (up : List (Frame Nat IL IA)) (l : IL) (as : List Nd) (l' : IL) (bs : List Nd) (l'' : IL) (cs : List Nd),
        up.foldl (fun n f => Node.ctx f.lex (f.kids ++ [n])) (.ctx l (as ++ [.ctx l' (bs ++ [.ctx l'' cs])])) = .ctx .root ns →
        ∃ l' bs l'' cs, Node.ctx l' (bs ++ [.ctx l'' cs]) ∈ ns := by
      intro up
      induction up with
      | nil =>
        intro l as l' bs l'' cs h
        simp only [List.foldl_nil, Node.ctx.injEq] at h
        exact ⟨l', bs, l'', cs, by rw [← h.2]; simp⟩
      | cons f up ih =>
        intro l as l' bs l'' cs h
        rw [List.foldl_cons] at h
        exact ih _ _ _ _ _ _ h
    obtain ⟨l', bs, l'', cs, hm⟩ := key up g.lex g.kids f.lex f.kids l ks hc
    obtain ⟨k, hk⟩ := hf _ _ hm (.ctx l'' cs) (by simp)
    cases hk

theorem events_last (es : List (Event Nat IL IA)) (hne : ∀ e ∈ es, e.lexemes ≠ []) : ∀ b : BState Nat IL IA,
    (b.cur.kids = [] ∨ ∃ k, b.cur.kids.getLast? = some (.tok k)) →
    ((es.foldl BState.event b).cur.kids = [] ∨ ∃ k, (es.foldl BState.event b).cur.kids.getLast? = some (.tok k)) := by
  induction es with
  | nil => intro b h; exact h
  | cons e es ih =>
    intro b _
    rw [List.foldl_cons]
    refine ih (fun e he => hne e (List.mem_cons_of_mem _ he)) _ (Or.inr ?_)
    have hm : makeTokens e.lexemes ≠ [] := fun h => hne e (List.mem_cons_self ..) (by
      have := congrArg List.length h
      rw [makeTokens_length] at this
      exact List.eq_nil_of_length_eq_zero this)
    have : ((makeTokens e.lexemes).map (Node.tok (L := IL))).getLast? ≠ none := by
      rw [Ne, List.getLast?_eq_none_iff]
      simpa using hm
    obtain ⟨x, hx⟩ := Option.ne_none_iff_exists'.1 this
    obtain ⟨k, _, rfl⟩ := List.mem_map.1 (List.mem_of_getLast? hx)
    refine ⟨k, ?_⟩
    show (_ ++ (makeTokens e.lexemes).map (Node.tok (L := IL))).getLast? = _
    rw [List.getLast?_append, hx]
    rfl

theorem no_raw (hex : List Nat → Option Nat) : NoRaw (env hex) := by
  left
  intro l m h
  cases l <;> cases h <;> rfl

theorem meth_none {l : IL} : (env hex).meth l = none ↔ l = .comment := by
  cases l <;> simp [TrEnv.meth, env, method]

end Parce.Ini

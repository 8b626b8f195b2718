import Verif.Lemmas.RebuildReplay
/-!
# Lemmas about events_with_tokens: the slices
-/
namespace Parce.RB
variable {α L A ρ : Type}

theorem evSlices_append (root : Node α L A) (f : Factory L) (xs ys : List (FSlice L)) :
    evSlices root f (xs ++ ys) =
      ((evSlices root (evSlices root f xs).1 ys).1, (evSlices root f xs).2 ++ (evSlices root (evSlices root f xs).1 ys).2) := by
  induction xs generalizing f with
  | nil => rfl
  | cons x xs ih =>
    obtain ⟨m, p, a, b⟩ := x
    simp only [List.cons_append, evSlices, ih, List.append_assoc]

/-- One slice. -/
theorem evSlice_ok {root : Node α L A} {f : Factory L} {m : Move L} {p : List Nat} {a : Nat} {o : Option Nat}
    {b : BState α L A} {k : Nat} (hk : cutSlice (root.kidsAt p) a o = ((root.kidsAt p).drop a).take k)
    (hlen : k ≤ (root.kidsAt p).length - a)
    (hw : WF (((root.kidsAt p).drop a).take k)) (hc : Cut root p a (pend b (m.run f))) :
    Cut root p (a + k) (pend (replay b (evSlices root f [(m, (p, a, o))]).2) (evSlices root f [(m, (p, a, o))]).1) ∧
    (k ≠ 0 ∨ (m.run f).fpush = [] → (evSlices root f [(m, (p, a, o))]).1.fpush = []) ∧
    Replay root b (evSlices root f [(m, (p, a, o))]).2 := by
  simp only [evSlices, hk, List.append_nil]
  have := evNodes_ok root (sizeL (((root.kidsAt p).drop a).take k) + 1) (m.run f) p a
    (((root.kidsAt p).drop a).take k) b (by omega) hw ⟨_, (List.take_append_drop k _).symm⟩ hc
  have hl : (((root.kidsAt p).drop a).take k).length = k := by
    rw [List.length_take, List.length_drop]; omega
  rw [hl] at this
  refine ⟨this.1, ?_, this.2.2⟩
  intro h
  refine this.2.1 ?_
  rcases h with h | h
  · left
    intro he
    rw [he] at hl
    simp at hl
    omega
  · exact Or.inr h

/-- The children of the context where the tree is cut. -/
theorem Cut.wf {rl : L} {cs : List (Node α L A)} (hw : WF cs) {p : List Nat} {i : Nat} {b : BState α L A}
    (h : Cut (.ctx rl cs) p i b) : WF ((Node.ctx rl cs).kidsAt p) := by
  obtain ⟨l, h1, _⟩ := h.kids
  exact (WF.at hw h1).1

theorem at_snoc {root n : Node α L A} {p : List Nat} {i : Nat} (h : root.at (p ++ [i]) = some n) :
    ∃ l, root.at p = some (.ctx l (root.kidsAt p)) ∧ (root.kidsAt p)[i]? = some n := by
  rw [at_append] at h
  cases hp : root.at p with
  | none => simp [hp] at h
  | some m =>
    rw [hp] at h
    cases m with
    | tok t => simp [Node.at, Node.kids] at h
    | ctx l cs =>
      simp only [Option.bind_some, Node.at, Node.kids] at h
      have hk := kidsAt_eq hp
      refine ⟨l, by rw [hk]; rfl, ?_⟩
      rw [hk]
      cases hi : cs[i]? with
      | none => simp [hi] at h
      | some n' =>
        rw [hi] at h
        simpa [Node.kids, hi] using h

theorem at_prefix {root n : Node α L A} {p q : List Nat} (h : root.at (p ++ q) = some n) : ∃ m, root.at p = some m ∧ m.at q = some n := by
  rw [at_append] at h
  cases hp : root.at p with
  | none => simp [hp] at h
  | some m => rw [hp] at h; exact ⟨m, rfl, h⟩

/-- On a path below, there is a context. -/
theorem at_ctx {root n : Node α L A} {p q : List Nat} {i : Nat} (h : root.at (p ++ i :: q) = some n) :
    ∃ l m, root.at p = some (.ctx l (root.kidsAt p)) ∧ (root.kidsAt p)[i]? = some m ∧ root.at (p ++ [i]) = some m ∧ m.at q = some n := by
  have h2 : p ++ i :: q = (p ++ [i]) ++ q := by simp
  rw [h2] at h
  obtain ⟨m, h3, h4⟩ := at_prefix h
  obtain ⟨l, h5, h6⟩ := at_snoc h3
  exact ⟨l, m, h5, h6, h3, h4⟩

theorem at_cons_ctx {m n : Node α L A} {i : Nat} {q : List Nat} (h : m.at (i :: q) = some n) : ∃ l ds, m = .ctx l ds := by
  cases m with
  | tok t => simp [Node.at, Node.kids] at h
  | ctx l ds => exact ⟨l, ds, rfl⟩

theorem upF_ok {rl : L} {cs : List (Node α L A)} (hw : WF cs) (t : TokN α A) (ht : t.group = none ∨ t.group = some 0) :
    ∀ (trail : List Nat) (p : List Nat) (f : Factory L) (b : BState α L A), (hne : trail ≠ []) →
    (Node.ctx rl cs).at (p ++ trail) = some (.tok t) →
    Cut (.ctx rl cs) (p ++ trail.dropLast) (trail.getLast hne) (pend b f) →
    Cut (.ctx rl cs) p ((Node.ctx rl cs).kidsAt p).length
      (pend (replay b (evSlices (.ctx rl cs) f (upF p trail)).2) (evSlices (.ctx rl cs) f (upF p trail)).1) ∧
    (evSlices (.ctx rl cs) f (upF p trail)).1.fpush = [] ∧
    Replay (.ctx rl cs) b (evSlices (.ctx rl cs) f (upF p trail)).2 := by
  intro trail
  induction trail with
  | nil => intro p f b hne; exact absurd rfl hne
  | cons i is ih =>
    intro p f b hne hat hcut
    cases is with
    | nil =>
      simp only [List.dropLast_singleton, List.append_nil, List.getLast_singleton] at hcut
      obtain ⟨l, h1, h2⟩ := at_snoc hat
      have hwf := hcut.wf hw
      have hlt := getElem?_lt h2
      have hb := (pieces_border hwf.2.1 h2 (by intro u hu; cases hu; exact ht)).2
      have hwd : WF (((Node.ctx rl cs).kidsAt p).drop i) :=
        WF.sub (a := ((Node.ctx rl cs).kidsAt p).take i) (c := []) hwf (by simp) hb
      have := evSlice_ok (root := .ctx rl cs) (f := f) (m := .none) (p := p) (a := i) (o := none) (b := b)
        (k := ((Node.ctx rl cs).kidsAt p).length - i)
        (by simp only [cutSlice]; rw [List.take_of_length_le (by simp)]) (Nat.le_refl _)
        (by rw [List.take_of_length_le (by simp)]; exact hwd) hcut
      have he : i + (((Node.ctx rl cs).kidsAt p).length - i) = ((Node.ctx rl cs).kidsAt p).length := by omega
      rw [he] at this
      exact ⟨this.1, this.2.1 (Or.inl (by omega)), this.2.2⟩
    | cons j js =>
      have hd : p ++ (i :: j :: js).dropLast = (p ++ [i]) ++ (j :: js).dropLast := by simp
      have hg : (i :: j :: js).getLast hne = (j :: js).getLast (by simp) := by simp
      rw [hd, hg] at hcut
      have hat' : (Node.ctx rl cs).at ((p ++ [i]) ++ (j :: js)) = some (.tok t) := by
        rw [← hat]; simp
      obtain ⟨c1, f1, r1⟩ := ih (p ++ [i]) f b (by simp) hat' hcut
      obtain ⟨l, m, h1, h2, h3, h4⟩ := at_ctx hat
      obtain ⟨l', ds, rfl⟩ := at_cons_ctx h4
      have hwf := (WF.at hw h1).1
      have hlt := getElem?_lt h2
      have hb := (pieces_after hwf.2.1 h2 (by intro u hu; cases hu)).2
      have hwd : WF (((Node.ctx rl cs).kidsAt p).drop (i + 1)) :=
        WF.sub (a := ((Node.ctx rl cs).kidsAt p).take (i + 1)) (c := []) hwf (by simp) hb
      simp only [upF]
      rw [evSlices_append]
      generalize evSlices (.ctx rl cs) f (upF (p ++ [i]) (j :: js)) = r at c1 f1 r1
      have hpop := pend_pop (replay b r.2) r.1 f1
      have hcut2 : Cut (.ctx rl cs) p (i + 1) (pend (replay b r.2) ((Move.pop : Move L).run r.1)) := by
        show Cut (.ctx rl cs) p (i + 1) (pend (replay b r.2) (r.1.pop 1))
        rw [hpop.1]
        exact Cut.leave c1 (Nat.le_refl _)
      have := evSlice_ok (root := .ctx rl cs) (f := r.1) (m := .pop) (p := p) (a := i + 1) (o := none) (b := replay b r.2)
        (k := ((Node.ctx rl cs).kidsAt p).length - (i + 1))
        (by simp only [cutSlice]; rw [List.take_of_length_le (by simp)]) (Nat.le_refl _)
        (by rw [List.take_of_length_le (by simp)]; exact hwd) hcut2
      have he : i + 1 + (((Node.ctx rl cs).kidsAt p).length - (i + 1)) = ((Node.ctx rl cs).kidsAt p).length := by omega
      rw [he] at this
      refine ⟨?_, this.2.1 (Or.inr hpop.2), r1.append this.2.2⟩
      rw [replay_append]
      exact this.1

theorem pushAt_ok {root : Node α L A} {p : List Nat} {i : Nat} {b : BState α L A} {f : Factory L} {l : L}
    {ds : List (Node α L A)} (h : Cut root p i (pend b f)) (hi : (root.kidsAt p)[i]? = some (.ctx l ds)) :
    Cut root (p ++ [i]) 0 (pend b ((pushAt root (p ++ [i])).run f)) := by
  obtain ⟨l', h1, _⟩ := h.kids
  have h2 := kidsAt_snoc ⟨_, h1⟩ hi
  have h3 : pushAt root (p ++ [i]) = .push l := by simp [pushAt, lexAt, h2]
  rw [h3]
  show Cut root (p ++ [i]) 0 (pend b (f.push [l]))
  rw [pend_push]
  exact h.enter hi

theorem downF_ok {rl : L} {cs : List (Node α L A)} (hw : WF cs) (t : TokN α A)
    (ht : t.group = none ∨ ∃ g, t.group = some g ∧ g < 0) :
    ∀ (trail : List Nat) (p : List Nat) (f : Factory L) (b : BState α L A), (hne : trail ≠ []) →
    (Node.ctx rl cs).at (p ++ trail) = some (.tok t) →
    Cut (.ctx rl cs) p 0 (pend b ((pushAt (.ctx rl cs) p).run f)) →
    Cut (.ctx rl cs) (p ++ trail.dropLast) (trail.getLast hne + 1)
      (pend (replay b (evSlices (.ctx rl cs) f (downF (.ctx rl cs) p trail)).2) (evSlices (.ctx rl cs) f (downF (.ctx rl cs) p trail)).1) ∧
    Replay (.ctx rl cs) b (evSlices (.ctx rl cs) f (downF (.ctx rl cs) p trail)).2 := by
  intro trail
  induction trail with
  | nil => intro p f b hne; exact absurd rfl hne
  | cons i is ih =>
    intro p f b hne hat hcut
    have hwf := hcut.wf hw
    cases is with
    | nil =>
      simp only [List.dropLast_singleton, List.append_nil, List.getLast_singleton]
      obtain ⟨l, h1, h2⟩ := at_snoc hat
      have hlt := getElem?_lt h2
      have hb := (pieces_after hwf.2.1 h2 (by intro u hu; cases hu; exact ht)).1
      have hwd : WF (((Node.ctx rl cs).kidsAt p).take (i + 1)) :=
        WF.sub (a := []) (c := ((Node.ctx rl cs).kidsAt p).drop (i + 1)) hwf (by simp) hb
      have := evSlice_ok (root := .ctx rl cs) (f := f) (m := pushAt (.ctx rl cs) p) (p := p) (a := 0) (o := some (i + 1)) (b := b)
        (k := i + 1) (by simp [cutSlice, slice]) (by omega) (by simpa using hwd) hcut
      rw [Nat.zero_add] at this
      exact ⟨this.1, this.2.2⟩
    | cons j js =>
      have hd : p ++ (i :: j :: js).dropLast = (p ++ [i]) ++ (j :: js).dropLast := by simp
      have hg : (i :: j :: js).getLast hne = (j :: js).getLast (by simp) := by simp
      rw [hd, hg]
      have hat' : (Node.ctx rl cs).at ((p ++ [i]) ++ (j :: js)) = some (.tok t) := by
        rw [← hat]; simp
      obtain ⟨l, m, h1, h2, h3, h4⟩ := at_ctx hat
      obtain ⟨l', ds, rfl⟩ := at_cons_ctx h4
      have hlt := getElem?_lt h2
      have hb := (pieces_border hwf.2.1 h2 (by intro u hu; cases hu)).1
      have hwd : WF (((Node.ctx rl cs).kidsAt p).take i) :=
        WF.sub (a := []) (c := ((Node.ctx rl cs).kidsAt p).drop i) hwf (by simp) hb
      have h5 := evSlice_ok (root := .ctx rl cs) (f := f) (m := pushAt (.ctx rl cs) p) (p := p) (a := 0) (o := some i) (b := b)
        (k := i) (by simp [cutSlice, slice]) (by omega) (by simpa using hwd) hcut
      rw [Nat.zero_add] at h5
      have hsplit : downF (.ctx rl cs) p (i :: j :: js) =
          [(pushAt (.ctx rl cs) p, (p, 0, some i))] ++ downF (.ctx rl cs) (p ++ [i]) (j :: js) := rfl
      rw [hsplit, evSlices_append]
      generalize evSlices (.ctx rl cs) f [(pushAt (.ctx rl cs) p, (p, 0, some i))] = r at h5
      have h6 := ih (p ++ [i]) r.1 (replay b r.2) (by simp) hat' (pushAt_ok h5.1 h2)
      refine ⟨?_, h5.2.2.append h6.2⟩
      rw [replay_append]
      exact h6.1

/-- The slices from the common ancestor on. -/
def midF (root : Node α L A) (m : Move L) (p : List Nat) (a e : Nat) : List Nat → List (FSlice L)
  | f :: es => (m, (p, a, some e)) :: downF root (p ++ [e]) (f :: es)
  | [] => [(m, (p, a, some (e + 1)))]

/-- From the common ancestor on. -/
theorem midF_ok {rl : L} {cs : List (Node α L A)} (hw : WF cs) (t : TokN α A)
    (ht : t.group = none ∨ ∃ g, t.group = some g ∧ g < 0) (p : List Nat) (a e : Nat) (es : List Nat) (m : Move L)
    (f : Factory L) (b : BState α L A) (hat : (Node.ctx rl cs).at (p ++ e :: es) = some (.tok t)) (hae : a ≤ e)
    (hip : InPieces (((Node.ctx rl cs).kidsAt p).drop a))
    (hcut : Cut (.ctx rl cs) p a (pend b (m.run f))) (ss : List (FSlice L))
    (hss : ss = midF (.ctx rl cs) m p a e es) :
    Cut (.ctx rl cs) (p ++ (e :: es).dropLast) ((e :: es).getLast (by simp) + 1)
      (pend (replay b (evSlices (.ctx rl cs) f ss).2) (evSlices (.ctx rl cs) f ss).1) ∧
    Replay (.ctx rl cs) b (evSlices (.ctx rl cs) f ss).2 := by
  have hwf := hcut.wf hw
  have hwd : WF (((Node.ctx rl cs).kidsAt p).drop a) :=
    WF.sub (a := ((Node.ctx rl cs).kidsAt p).take a) (c := []) hwf (by simp) hip
  cases es with
  | nil =>
    simp only [midF] at hss
    subst hss
    simp only [List.dropLast_singleton, List.append_nil, List.getLast_singleton]
    obtain ⟨l, h1, h2⟩ := at_snoc hat
    have hlt := getElem?_lt h2
    have h3 : (((Node.ctx rl cs).kidsAt p).drop a)[e - a]? = some (.tok t) := by
      rw [List.getElem?_drop, ← h2]; congr 1; omega
    have hb := (pieces_after hip h3 (by intro u hu; cases hu; exact ht)).1
    have hwt := WF.sub (a := []) (c := (((Node.ctx rl cs).kidsAt p).drop a).drop (e - a + 1)) hwd (by rw [List.nil_append, List.take_append_drop]) hb
    have h4 : e - a + 1 = e + 1 - a := by omega
    rw [h4] at hwt
    have := evSlice_ok (root := .ctx rl cs) (f := f) (m := m) (p := p) (a := a) (o := some (e + 1)) (b := b)
      (k := e + 1 - a) (by simp only [cutSlice, slice]; rw [List.drop_take]) (by omega) hwt hcut
    have h5 : a + (e + 1 - a) = e + 1 := by omega
    rw [h5] at this
    exact ⟨this.1, this.2.2⟩
  | cons j js =>
    simp only [midF] at hss
    have hd : p ++ (e :: j :: js).dropLast = (p ++ [e]) ++ (j :: js).dropLast := by simp
    have hg : (e :: j :: js).getLast (by simp) = (j :: js).getLast (by simp) := by simp
    rw [hd, hg]
    have hat' : (Node.ctx rl cs).at ((p ++ [e]) ++ (j :: js)) = some (.tok t) := by
      rw [← hat]; simp
    obtain ⟨l, m', h1, h2, h3, h4⟩ := at_ctx hat
    obtain ⟨l', ds, rfl⟩ := at_cons_ctx h4
    have hlt := getElem?_lt h2
    have h3 : (((Node.ctx rl cs).kidsAt p).drop a)[e - a]? = some (.ctx l' ds) := by
      rw [List.getElem?_drop, ← h2]; congr 1; omega
    have hb := (pieces_border hip h3 (by intro u hu; cases hu)).1
    have hwt := WF.sub (a := []) (c := (((Node.ctx rl cs).kidsAt p).drop a).drop (e - a)) hwd (by rw [List.nil_append, List.take_append_drop]) hb
    have h5 := evSlice_ok (root := .ctx rl cs) (f := f) (m := m) (p := p) (a := a) (o := some e) (b := b)
      (k := e - a) (by simp only [cutSlice, slice]; rw [List.drop_take]) (by omega) hwt hcut
    have h6 : a + (e - a) = e := by omega
    rw [h6] at h5
    have hsplit : ss = [(m, (p, a, some e))] ++ downF (.ctx rl cs) (p ++ [e]) (j :: js) := hss
    rw [hsplit, evSlices_append]
    generalize evSlices (.ctx rl cs) f [(m, (p, a, some e))] = r at h5
    have h7 := downF_ok hw t ht (j :: js) (p ++ [e]) r.1 (replay b r.2) (by simp) hat' (pushAt_ok h5.1 h2)
    refine ⟨?_, h5.2.2.append h7.2⟩
    rw [replay_append]
    exact h7.1

/-- All slices of a range. -/
theorem slicesF_ok {rl : L} {cs : List (Node α L A)} (hw : WF cs) (t u : TokN α A)
    (ht : t.group = none ∨ t.group = some 0) (hu : u.group = none ∨ ∃ g, u.group = some g ∧ g < 0)
    (p : List Nat) (i : Nat) (is : List Nat) (e : Nat) (es : List Nat)
    (hat : (Node.ctx rl cs).at (p ++ i :: is) = some (.tok t)) (hat' : (Node.ctx rl cs).at (p ++ e :: es) = some (.tok u))
    (hie : i < e ∨ (i = e ∧ is = [] ∧ es = [])) (f : Factory L) (b : BState α L A)
    (hcut : Cut (.ctx rl cs) (p ++ (i :: is).dropLast) ((i :: is).getLast (by simp)) (pend b f)) :
    Cut (.ctx rl cs) (p ++ (e :: es).dropLast) ((e :: es).getLast (by simp) + 1)
      (pend (replay b (evSlices (.ctx rl cs) f (slicesF (.ctx rl cs) ⟨p, i :: is, e :: es⟩)).2)
        (evSlices (.ctx rl cs) f (slicesF (.ctx rl cs) ⟨p, i :: is, e :: es⟩)).1) ∧
    Replay (.ctx rl cs) b (evSlices (.ctx rl cs) f (slicesF (.ctx rl cs) ⟨p, i :: is, e :: es⟩)).2 := by
  obtain ⟨l, m, h1, h2, h3, h4⟩ := at_ctx hat
  have hwf := (WF.at hw h1).1
  cases is with
  | nil =>
    simp only [Node.at, Option.some.injEq] at h4
    subst h4
    simp only [List.dropLast_singleton, List.append_nil, List.getLast_singleton] at hcut
    have hb := (pieces_border hwf.2.1 h2 (by intro x hx; cases hx; exact ht)).2
    refine midF_ok hw u hu p i e es .none f b hat' (by omega) hb hcut _ ?_
    cases es <;> simp [slicesF, startIdx, midF]
  | cons j js =>
    obtain ⟨l', ds, rfl⟩ := at_cons_ctx h4
    have hie : i < e := by
      rcases hie with h | h
      · exact h
      · exact absurd h.2.1 (by simp)
    have hd : p ++ (i :: j :: js).dropLast = (p ++ [i]) ++ (j :: js).dropLast := by simp
    have hg : (i :: j :: js).getLast (by simp) = (j :: js).getLast (by simp) := by simp
    rw [hd, hg] at hcut
    have hat2 : (Node.ctx rl cs).at ((p ++ [i]) ++ (j :: js)) = some (.tok t) := by
      rw [← hat]; simp
    have hup := upF_ok hw t ht (j :: js) (p ++ [i]) f b (by simp) hat2 hcut
    have hb := (pieces_after hwf.2.1 h2 (by intro x hx; cases hx)).2
    have hsplit : ∃ ss, slicesF (.ctx rl cs) ⟨p, i :: j :: js, e :: es⟩ = upF (p ++ [i]) (j :: js) ++ ss ∧
        ss = midF (.ctx rl cs) .pop p (i + 1) e es := by
      cases es <;> simp [slicesF, startIdx, midF]
    obtain ⟨ss, hs1, hs2⟩ := hsplit
    rw [hs1, evSlices_append]
    generalize evSlices (.ctx rl cs) f (upF (p ++ [i]) (j :: js)) = r at hup
    have hpop := pend_pop (replay b r.2) r.1 hup.2.1
    have hcut2 : Cut (.ctx rl cs) p (i + 1) (pend (replay b r.2) ((Move.pop : Move L).run r.1)) := by
      show Cut (.ctx rl cs) p (i + 1) (pend (replay b r.2) (r.1.pop 1))
      rw [hpop.1]
      exact Cut.leave hup.1 (Nat.le_refl _)
    have := midF_ok hw u hu p (i + 1) e es .pop r.1 (replay b r.2) hat' (by omega) hb hcut2 ss hs2
    refine ⟨?_, hup.2.2.append this.2⟩
    rw [replay_append]
    exact this.1

/-! ### The tokens of a tree under construction -/

def doneT : List (Frame α L A) → List (TokN α A)
  | [] => []
  | f :: fs => doneT fs ++ toksL f.kids

/-- The tokens added so far. -/
def toksB (b : BState α L A) : List (TokN α A) := doneT (b.cur :: b.up)

theorem toksB_leave (b : BState α L A) : toksB b.leave = toksB b := by
  obtain ⟨cur, up⟩ := b
  cases up with
  | nil => rfl
  | cons f fs => simp [BState.leave, toksB, doneT, toksL_append, toksL, Node.toks]

theorem toksB_leaves (n : Nat) (b : BState α L A) : toksB (b.leaves n) = toksB b := by
  induction n generalizing b with
  | zero => rfl
  | succ n ih => exact (ih b.leave).trans (toksB_leave b)

theorem toksB_enters (ls : List L) (b : BState α L A) : toksB (ls.foldl BState.enter b) = toksB b := by
  induction ls generalizing b with
  | nil => rfl
  | cons l ls ih =>
    rw [List.foldl_cons, ih]
    simp [BState.enter, toksB, doneT, toksL]

theorem toksB_target (tg : Option (Target L)) (b : BState α L A) : toksB (b.target tg) = toksB b := by
  cases tg with
  | none => rfl
  | some t =>
    show toksB (t.push.foldl BState.enter (b.leaves t.pop)) = _
    rw [toksB_enters, toksB_leaves]

theorem toksB_pend (f : Factory L) (b : BState α L A) : toksB (pend b f) = toksB b := by
  rw [← target_get, toksB_target]

theorem toksB_event (e : Event α L A) (b : BState α L A) : toksB (b.event e) = toksB b ++ makeTokens e.lexemes := by
  rw [event_eq]
  rw [← toksB_target e.target b]
  simp [addN, toksB, doneT, toksL_append, toksL_toks]

theorem toksB_replay (evs : List (EvT α L A)) (b : BState α L A) :
    toksB (replay b evs) = toksB b ++ evs.flatMap (fun x => makeTokens x.ev.lexemes) := by
  induction evs generalizing b with
  | nil => simp [replay]
  | cons x xs ih =>
    show toksB (replay (b.event x.ev) xs) = _
    rw [ih, toksB_event]; simp

theorem closeUp_toks (n : Node α L A) (fs : List (Frame α L A)) (R : List (List (Node α L A))) :
    ∃ rest, (closeUp n fs R).toks = doneT fs ++ n.toks ++ rest := by
  induction fs generalizing n R with
  | nil => exact ⟨[], by simp [closeUp, doneT]⟩
  | cons f fs ih =>
    obtain ⟨rest, h⟩ := ih (.ctx f.lex (f.kids ++ n :: R.headD [])) R.tail
    refine ⟨toksL (R.headD []) ++ rest, ?_⟩
    simp only [closeUp, h, doneT, Node.toks, toksL_append, toksL, List.append_assoc]

theorem closeR_toks (b : BState α L A) (R : List (List (Node α L A))) : ∃ rest, (closeR b R).toks = toksB b ++ rest := by
  obtain ⟨rest, h⟩ := closeUp_toks (.ctx b.cur.lex (b.cur.kids ++ R.headD [])) b.up R.tail
  refine ⟨toksL (R.headD []) ++ rest, ?_⟩
  show (closeUp _ _ _).toks = _
  rw [h]
  simp [toksB, doneT, Node.toks, toksL_append]

theorem Cut.toks {root : Node α L A} {p : List Nat} {i : Nat} {b : BState α L A} (h : Cut root p i b) :
    ∃ rest, root.toks = toksB b ++ rest := by
  have := closeR_toks b (rightsAt [] root p i)
  rwa [h.rights] at this

/-- A tree cut after a token ends with this token. -/
theorem Cut.last {root : Node α L A} {p : List Nat} {i : Nat} {b : BState α L A} (h : Cut root p (i + 1) b) {t : TokN α A}
    (ht : (root.kidsAt p)[i]? = some (.tok t)) : ∃ ts, toksB b = ts ++ [t] := by
  obtain ⟨l, h1, h2⟩ := h.kids
  refine ⟨doneT b.up ++ toksL ((root.kidsAt p).take i), ?_⟩
  simp only [toksB, doneT, h2]
  rw [List.take_add_one, ht, toksL_append]
  simp [toksL, Node.toks]

/-! ### Paths -/

theorem splitCommon_spec (p q : List Nat) :
    p = (splitCommon p q).1 ++ (splitCommon p q).2.1 ∧ q = (splitCommon p q).1 ++ (splitCommon p q).2.2 ∧
    ((splitCommon p q).2.1 = [] ∨ (splitCommon p q).2.2 = [] ∨
      ∃ i is j js, (splitCommon p q).2.1 = i :: is ∧ (splitCommon p q).2.2 = j :: js ∧ i ≠ j) := by
  induction p generalizing q with
  | nil => cases q <;> simp [splitCommon]
  | cons i p ih =>
    cases q with
    | nil => simp [splitCommon]
    | cons j q =>
      simp only [splitCommon]
      by_cases h : i = j
      · subst h
        obtain ⟨h1, h2, h3⟩ := ih q
        simp only [if_true, List.cons_append, List.cons.injEq, true_and]
        exact ⟨h1, h2, h3⟩
      · simp only [h, if_false, List.nil_append, true_and]
        exact Or.inr (Or.inr ⟨i, p, j, q, rfl, rfl, h⟩)

/-- A token is not on the way to another node. -/
theorem tok_not_prefix {root n : Node α L A} {p q : List Nat} {t : TokN α A} (h : root.at p = some (.tok t))
    (h' : root.at (p ++ q) = some n) : q = [] := by
  cases q with
  | nil => rfl
  | cons i q =>
    rw [at_append, h] at h'
    simp [Node.at, Node.kids] at h'

theorem at_mem_toks {n : Node α L A} {p : List Nat} {t : TokN α A} (h : n.at p = some (.tok t)) : t ∈ n.toks := by
  have h1 := (mem_leavesAt n [] p t).2 ⟨p, by simp, h⟩
  rw [← leavesAt_toks n []]
  exact List.mem_map.2 ⟨_, h1, rfl⟩

/-- Two different leaves: where the paths differ, the earlier one has the smaller index. -/
theorem leaf_lt {rl : L} {cs : List (Node α L A)} (ho : Ordered (toksL cs)) {p is js : List Nat} {i j : Nat}
    {t u : TokN α A} (hf : FullL cs) (h1 : (Node.ctx rl cs).at (p ++ i :: is) = some (.tok t))
    (h2 : (Node.ctx rl cs).at (p ++ j :: js) = some (.tok u)) (hij : i < j) : t.stop ≤ u.pos := by
  obtain ⟨l, m, a1, a2, a3, a4⟩ := at_ctx h1
  obtain ⟨l', m', b1, b2, b3, b4⟩ := at_ctx h2
  have hwf := at_wf (root := .ctx rl cs) hf ho a1
  exact Ordered.between hwf.2 a2 b2 hij (at_mem_toks a4) (at_mem_toks b4)

theorem dropLast_append_cons (p : List Nat) (i : Nat) (is : List Nat) :
    (p ++ i :: is).dropLast = p ++ (i :: is).dropLast := by
  rw [List.dropLast_append_of_ne_nil (by simp)]

/-- The events made from the tokens build the tree from these tokens, and the last one is the
    last token. -/
theorem eventsWithTokens_ok2 {rl : L} {cs : List (Node α L A)} (hw : WF cs) (ho : Ordered (toksL cs)) (start last : Leaf α A)
    (hs : (Node.ctx rl cs).at start.1 = some (.tok start.2)) (hl : (Node.ctx rl cs).at last.1 = some (.tok last.2))
    (hgs : start.2.group = none ∨ start.2.group = some 0)
    (hgl : last.2.group = none ∨ ∃ g, last.2.group = some g ∧ g < 0) (p : List Nat) (i : Nat) (hp : start.1 = p ++ [i])
    (b : BState α L A) (hcut : Cut (.ctx rl cs) p i (pend b (startFac (.ctx rl cs) start))) :
    Replay (.ctx rl cs) b (eventsWithTokens (.ctx rl cs) start last) ∧
    ((eventsWithTokens (.ctx rl cs) start last = [] ∧ start.1 ≠ last.1 ∧ last.2.pos ≤ start.2.pos) ∨
      ∃ ts, toksB (replay b (eventsWithTokens (.ctx rl cs) start last)) = ts ++ [last.2]) := by
  obtain ⟨sp, st⟩ := start
  obtain ⟨lp, lt⟩ := last
  simp only at hs hl hgs hgl hp
  have main : ∀ q i' is e es, sp = q ++ i' :: is → lp = q ++ e :: es → (i' < e ∨ (i' = e ∧ is = [] ∧ es = [])) →
      Replay (.ctx rl cs) b (evSlices (.ctx rl cs) (startFac (.ctx rl cs) (sp, st)) (slicesF (.ctx rl cs) ⟨q, i' :: is, e :: es⟩)).2 ∧
      ∃ ts, toksB (replay b (evSlices (.ctx rl cs) (startFac (.ctx rl cs) (sp, st)) (slicesF (.ctx rl cs) ⟨q, i' :: is, e :: es⟩)).2) =
        ts ++ [lt] := by
    intro q i' is e es h1 h2 h3
    have e1 : p = q ++ (i' :: is).dropLast := by
      have := congrArg List.dropLast (hp.symm.trans h1)
      simpa [dropLast_append_cons] using this
    have e2 : i = (i' :: is).getLast (by simp) := by
      have h := hp.symm.trans h1
      have h2 : p ++ [i] = (q ++ (i' :: is).dropLast) ++ [(i' :: is).getLast (by simp)] := by
        rw [List.append_assoc, List.dropLast_concat_getLast]; exact h
      exact (List.append_inj' h2 rfl).2 |> List.singleton_inj.1
    rw [e1, e2] at hcut
    have h4 := slicesF_ok hw st lt hgs hgl q i' is e es (h1 ▸ hs) (h2 ▸ hl) h3 _ b hcut
    refine ⟨h4.2, ?_⟩
    have h5 : (Node.ctx rl cs).at ((q ++ (e :: es).dropLast) ++ [(e :: es).getLast (by simp)]) = some (.tok lt) := by
      rw [List.append_assoc, List.dropLast_concat_getLast, ← h2]; exact hl
    obtain ⟨_, _, h6⟩ := at_snoc h5
    have h7 := h4.1.last h6
    rwa [toksB_pend] at h7
  unfold eventsWithTokens commonAncestor
  by_cases he : sp = lp
  · subst he
    simp only [if_true]
    have h1 : sp.drop (sp.length - 1) = [i] := by rw [hp]; simp
    have h2 : sp.dropLast = p := by rw [hp]; simp
    rw [h1, h2]
    have := main p i [] i [] (by rw [hp]) (by rw [hp]) (Or.inr ⟨rfl, rfl, rfl⟩)
    exact ⟨this.1, Or.inr this.2⟩
  · simp only [he, if_false]
    by_cases hpos : st.pos < lt.pos
    · simp only [hpos, if_true]
      obtain ⟨h1, h2, h3⟩ := splitCommon_spec sp lp
      generalize splitCommon sp lp = r at h1 h2 h3
      obtain ⟨q, r1, r2⟩ := r
      simp only at h1 h2 h3 ⊢
      rcases h3 with h3 | h3 | ⟨i', is, e, es, h4, h5, h6⟩
      · subst h3
        rw [List.append_nil] at h1
        exfalso
        have := tok_not_prefix (p := q) (h1 ▸ hs) (h2 ▸ hl)
        subst this
        exact he (by rw [h1, h2]; simp)
      · subst h3
        rw [List.append_nil] at h2
        exfalso
        have := tok_not_prefix (p := q) (h2 ▸ hl) (h1 ▸ hs)
        subst this
        exact he (by rw [h1, h2]; simp)
      · subst h4
        subst h5
        have hlt : i' < e := by
          rcases Nat.lt_or_gt_of_ne h6 with h | h
          · exact h
          · have := leaf_lt ho hw.1 (h2 ▸ hl) (h1 ▸ hs) h
            have h7 : lt.text.length ≥ 0 := by omega
            unfold TokN.stop at this
            omega
        have := main q i' is e es h1 h2 (Or.inl hlt)
        exact ⟨this.1, Or.inr this.2⟩
    · simp only [hpos, if_false]
      exact ⟨trivial, Or.inl ⟨trivial, he, by omega⟩⟩

theorem eventsWithTokens_ok {rl : L} {cs : List (Node α L A)} (hw : WF cs) (ho : Ordered (toksL cs)) (start last : Leaf α A)
    (hs : (Node.ctx rl cs).at start.1 = some (.tok start.2)) (hl : (Node.ctx rl cs).at last.1 = some (.tok last.2))
    (hgs : start.2.group = none ∨ start.2.group = some 0)
    (hgl : last.2.group = none ∨ ∃ g, last.2.group = some g ∧ g < 0) (p : List Nat) (i : Nat) (hp : start.1 = p ++ [i])
    (b : BState α L A) (hcut : Cut (.ctx rl cs) p i (pend b (startFac (.ctx rl cs) start))) :
    Replay (.ctx rl cs) b (eventsWithTokens (.ctx rl cs) start last) ∧
    (eventsWithTokens (.ctx rl cs) start last = [] ∨
      ∃ ts, toksB (replay b (eventsWithTokens (.ctx rl cs) start last)) = ts ++ [last.2]) := by
  have h := eventsWithTokens_ok2 hw ho start last hs hl hgs hgl p i hp b hcut
  exact ⟨h.1, h.2.imp (·.1) id⟩

/-- The first event is for the start token. -/
theorem eventsWithTokens_head {rl : L} {cs : List (Node α L A)} (hw : WF cs) (ho : Ordered (toksL cs)) (start last : Leaf α A)
    (hs : (Node.ctx rl cs).at start.1 = some (.tok start.2)) (hl : (Node.ctx rl cs).at last.1 = some (.tok last.2))
    {x : EvT α L A} {xs : List (EvT α L A)} (hx : eventsWithTokens (.ctx rl cs) start last = x :: xs) :
    x.path = start.1 ∧ x.ev.target = (startFac (.ctx rl cs) start).get.1 ∧ x.ev.lexemes.head? = some start.2.lexeme := by
  obtain ⟨sp, st⟩ := start
  obtain ⟨lp, lt⟩ := last
  simp only at hs hl ⊢
  have one : ∀ (p : List Nat) (a : Nat) (o : Option Nat) (ss : List (FSlice L)) (f : Factory L) (m : Move L), m.run f = f →
      (∀ k, o = some k → a < k) → (Node.ctx rl cs).at (p ++ [a]) = some (.tok st) →
      (evSlices (.ctx rl cs) f ((m, (p, a, o)) :: ss)).2 = x :: xs →
      x.path = p ++ [a] ∧ x.ev.target = f.get.1 ∧ x.ev.lexemes.head? = some st.lexeme := by
    intro p a o ss f m hm hk hat hev
    obtain ⟨l, _, h2⟩ := at_snoc hat
    have hlt := getElem?_lt h2
    have hcs : ∃ ns, cutSlice ((Node.ctx rl cs).kidsAt p) a o = .tok st :: ns := by
      have hd : ((Node.ctx rl cs).kidsAt p).drop a = .tok st :: ((Node.ctx rl cs).kidsAt p).drop (a + 1) := by
        rw [List.drop_eq_getElem_cons hlt]
        rw [List.getElem?_eq_getElem hlt] at h2
        rw [Option.some.inj h2]
      cases o with
      | none => exact ⟨_, hd⟩
      | some k =>
        refine ⟨(((Node.ctx rl cs).kidsAt p).drop (a + 1)).take (k - a - 1), ?_⟩
        simp only [cutSlice, slice]
        rw [List.drop_take, hd]
        have h3 := hk k rfl
        obtain ⟨d, hd'⟩ : ∃ d, k - a = d + 1 := ⟨k - a - 1, by omega⟩
        rw [hd']
        simp
    obtain ⟨ns, hcs⟩ := hcs
    simp only [evSlices, hcs, hm] at hev
    simp only [evNodes, sizeL, Node.size, List.cons_append, List.cons.injEq] at hev
    obtain ⟨rfl, _⟩ := hev
    exact ⟨rfl, rfl, rfl⟩
  have up : ∀ (trail : List Nat) (p : List Nat) (ss : List (FSlice L)) (f : Factory L), trail ≠ [] →
      (Node.ctx rl cs).at (p ++ trail) = some (.tok st) →
      (evSlices (.ctx rl cs) f (upF p trail ++ ss)).2 = x :: xs →
      x.path = p ++ trail ∧ x.ev.target = f.get.1 ∧ x.ev.lexemes.head? = some st.lexeme := by
    intro trail
    induction trail with
    | nil => intro p ss f h; exact absurd rfl h
    | cons i is ih =>
      intro p ss f _ hat hev
      cases is with
      | nil => exact one p i none ss f .none rfl (by simp) hat hev
      | cons j js =>
        simp only [upF, List.append_assoc] at hev
        have := ih (p ++ [i]) _ f (by simp) (by rw [← hat]; simp) hev
        simpa using this
  have main : ∀ q i' is e es, sp = q ++ i' :: is → (i' < e ∨ (i' = e ∧ is = [] ∧ es = [])) →
      (evSlices (.ctx rl cs) (startFac (.ctx rl cs) (sp, st)) (slicesF (.ctx rl cs) ⟨q, i' :: is, e :: es⟩)).2 = x :: xs →
      x.path = sp ∧ x.ev.target = (startFac (.ctx rl cs) (sp, st)).get.1 ∧ x.ev.lexemes.head? = some st.lexeme := by
    intro q i' is e es h1 h3 hev
    generalize hfac : startFac (.ctx rl cs) (sp, st) = fac at hev ⊢
    cases is with
    | nil =>
      rw [h1]
      cases es with
      | nil =>
        simp only [slicesF, startIdx, List.nil_append] at hev
        exact one q i' _ _ _ _ (by simp [Move.run]) (by intro k hk; simp at hk; omega) (h1 ▸ hs) hev
      | cons f es =>
        simp only [slicesF, startIdx, List.nil_append] at hev
        exact one q i' _ _ _ _ (by simp [Move.run]) (by intro k hk; simp at hk; simp at h3; omega) (h1 ▸ hs) hev
    | cons j js =>
      simp only [slicesF] at hev
      have := up (j :: js) (q ++ [i']) _ fac (by simp) (by rw [← hs, h1]; simp) hev
      rw [h1]
      simpa using this
  unfold eventsWithTokens commonAncestor at hx
  by_cases he : sp = lp
  · subst he
    simp only [if_true] at hx
    have hne : sp ≠ [] := by
      intro h
      subst h
      simp [Node.at] at hs
    obtain ⟨p, i, hp⟩ : ∃ p i, sp = p ++ [i] := ⟨_, _, (List.dropLast_concat_getLast hne).symm⟩
    have h1 : sp.drop (sp.length - 1) = [i] := by rw [hp]; simp
    have h2 : sp.dropLast = p := by rw [hp]; simp
    rw [h1, h2] at hx
    exact main p i [] i [] hp (Or.inr ⟨rfl, rfl, rfl⟩) hx
  · simp only [he, if_false] at hx
    by_cases hpos : st.pos < lt.pos
    · simp only [hpos, if_true] at hx
      obtain ⟨h1, h2, h3⟩ := splitCommon_spec sp lp
      generalize splitCommon sp lp = r at h1 h2 h3 hx
      obtain ⟨q, r1, r2⟩ := r
      simp only at h1 h2 h3 hx
      rcases h3 with h3 | h3 | ⟨i', is, e, es, h4, h5, h6⟩
      · subst h3
        rw [List.append_nil] at h1
        exfalso
        have := tok_not_prefix (p := q) (h1 ▸ hs) (h2 ▸ hl)
        subst this
        exact he (by rw [h1, h2]; simp)
      · subst h3
        rw [List.append_nil] at h2
        exfalso
        have := tok_not_prefix (p := q) (h2 ▸ hl) (h1 ▸ hs)
        subst this
        exact he (by rw [h1, h2]; simp)
      · subst h4
        subst h5
        have hlt : i' < e := by
          rcases Nat.lt_or_gt_of_ne h6 with h | h
          · exact h
          · have := leaf_lt ho hw.1 (h2 ▸ hl) (h1 ▸ hs) h
            have h7 : lt.text.length ≥ 0 := by omega
            unfold TokN.stop at this
            omega
        exact main q i' is e es h1 (Or.inl hlt) hx
    · simp only [hpos, if_false] at hx
      simp at hx

end Parce.RB

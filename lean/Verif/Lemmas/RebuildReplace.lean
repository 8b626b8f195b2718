import Verif.Lemmas.RebuildPrep
/-!
# Putting the new tree in the place of the old nodes
-/
set_option linter.unusedSectionVars false
namespace Parce.RB
variable {α L A ρ : Type}

theorem closeUp_snoc (fs : List (Frame α L A)) (f : Frame α L A) : ∀ (n : Node α L A) (R : List (List (Node α L A))),
    closeUp n (fs ++ [f]) R = .ctx f.lex (f.kids ++ closeUp n fs R :: R.getD fs.length []) := by
  induction fs with
  | nil => intro n R; cases R <;> simp [closeUp]
  | cons g fs ih =>
    intro n R
    simp only [List.cons_append, closeUp, ih]
    cases R <;> simp

theorem joinRest_nil (d : Int) (c t : Node α L A) : joinRest d c t [] = t := by
  cases c <;> cases t <;> rfl

theorem rightsAt_app (rs : List (List (Node α L A))) : ∀ (p : List Nat) (n m : Node α L A) (i : Nat) (l : L) (ds : List (Node α L A)),
    n.at p = some (.ctx l ds) → rightsAt rs n p i = rightsAt [] n p i ++ rs ∧ (rightsAt [] n p i).length = p.length + 1 := by
  intro p
  induction p generalizing rs with
  | nil =>
    intro n m i l ds h
    simp only [Node.at, Option.some.injEq] at h
    subst h
    simp [rightsAt]
  | cons j p ih =>
    intro n m i l ds h
    cases n with
    | tok t => simp [Node.at, Node.kids] at h
    | ctx l' cs =>
      simp only [Node.at, Node.kids] at h
      cases hj : cs[j]? with
      | none => rw [hj] at h; simp at h
      | some c =>
        rw [hj] at h
        simp only [Option.bind_some] at h
        simp only [rightsAt, hj]
        obtain ⟨h1, h2⟩ := ih (cs.drop (j + 1) :: rs) c m i l ds h
        obtain ⟨h3, _⟩ := ih [cs.drop (j + 1)] c m i l ds h
        rw [h1, h3]
        simp [h2]

/-- Joining adds the nodes to the right of the end, moved, to the open contexts of the new tree. -/
theorem joinRest_eq (d : Int) : ∀ (p : List Nat) (n : Node α L A) (i : Nat) (l l0 : L) (ds ks : List (Node α L A))
    (fs : List (Frame α L A)), n.at p = some (.ctx l0 ds) → fs.length = p.length →
    joinRest d n (closeUp (.ctx l ks) fs []) (p ++ [i]) =
      closeUp (.ctx l (ks ++ (shiftR d (rightsAt [] n p i)).headD [])) fs (shiftR d (rightsAt [] n p i)).tail := by
  intro p
  induction p with
  | nil =>
    intro n i l l0 ds ks fs h hl
    simp only [Node.at, Option.some.injEq] at h
    subst h
    have : fs = [] := List.length_eq_zero_iff.1 (by simpa using hl)
    subst this
    simp [joinRest, closeUp, rightsAt, shiftR]
  | cons j p ih =>
    intro n i l l0 ds ks fs h hl
    cases n with
    | tok t => simp [Node.at, Node.kids] at h
    | ctx l' cs =>
      simp only [Node.at, Node.kids] at h
      cases hj : cs[j]? with
      | none => rw [hj] at h; simp at h
      | some c =>
        rw [hj] at h
        simp only [Option.bind_some] at h
        rcases List.eq_nil_or_concat fs with rfl | ⟨fs', f, rfl⟩
        · simp at hl
        · rw [List.concat_eq_append] at hl ⊢
          simp only [List.length_append, List.length_cons, List.length_nil, Nat.add_right_cancel_iff] at hl
          have hr := rightsAt_app [cs.drop (j + 1)] p c c i l0 ds h
          have hR : rightsAt [] (.ctx l' cs) (j :: p) i = rightsAt [] c p i ++ [cs.drop (j + 1)] := by
            simp only [rightsAt, hj]; exact hr.1
          rw [closeUp_snoc, closeUp_snoc]
          simp only [List.cons_append, joinRest]
          have hne : p ++ [i] ≠ [] := by simp
          have hgl : (f.kids ++ closeUp (.ctx l ks) fs' [] :: ([] : List (List (Node α L A))).getD fs'.length []).getLast? =
              some (closeUp (.ctx l ks) fs' []) := by simp
          have hdl : (f.kids ++ closeUp (.ctx l ks) fs' [] :: ([] : List (List (Node α L A))).getD fs'.length []).dropLast = f.kids := by
            simp
          rw [if_neg hne, if_neg hne, hgl, hj]
          simp only
          rw [hdl, ih c i l l0 ds ks fs' h hl, hR]
          have hlen : (shiftR d (rightsAt [] c p i)).length = p.length + 1 := by simp [shiftR, hr.2]
          have h1 : shiftR d (rightsAt [] c p i ++ [cs.drop (j + 1)]) = shiftR d (rightsAt [] c p i) ++ [shiftL d (cs.drop (j + 1))] := by
            simp [shiftR]
          rw [h1]
          generalize shiftR d (rightsAt [] c p i) = R at hlen ⊢
          cases R with
          | nil => simp at hlen
          | cons r R =>
            simp only [List.length_cons, Nat.add_right_cancel_iff] at hlen
            simp only [List.cons_append, List.headD_cons, List.tail_cons]
            have h2 : (R ++ [shiftL d (cs.drop (j + 1))]).getD fs'.length [] = shiftL d (cs.drop (j + 1)) := by
              rw [hl, ← hlen]; simp
            have h3 : closeUp (.ctx l (ks ++ r)) fs' (R ++ [shiftL d (cs.drop (j + 1))]) = closeUp (.ctx l (ks ++ r)) fs' R := by
              apply closeUp_same
              intro k hk
              have : k < R.length := by omega
              simp [List.getD_eq_getElem?_getD, List.getElem?_append_left this]
            rw [h2, h3]
            simp

theorem joinRest_cut (d : Int) {root : Node α L A} {p : List Nat} {i : Nat} {l0 : L} {ds : List (Node α L A)}
    (h : root.at p = some (.ctx l0 ds)) (b : BState α L A) (hb : b.up.length = p.length) :
    joinRest d root (closeR b []) (p ++ [i]) = closeR b (shiftR d (rightsAt [] root p i)) := by
  have := joinRest_eq d p root i b.cur.lex l0 ds b.cur.kids b.up h hb
  simpa [closeR] using this

/-! ### The start -/

theorem anc_up (p : List Nat) : ∀ (up : List (Frame α L A)) (n m : Node α L A) (u : List (Frame α L A)),
    anc up n p = some (m, u) → ∃ u', u = u' ++ up ∧ anc [] n p = some (m, u') := by
  induction p with
  | nil => intro up n m u h; simp only [anc, Option.some.injEq, Prod.mk.injEq] at h; exact ⟨[], by simp [h.2], by simp [anc, h.1]⟩
  | cons i p ih =>
    intro up n m u h
    cases n with
    | tok t => simp [anc] at h
    | ctx l cs =>
      simp only [anc] at h ⊢
      cases hi : cs[i]? with
      | none => rw [hi] at h; simp at h
      | some c =>
        rw [hi] at h
        simp only [Option.bind_some] at h ⊢
        obtain ⟨u1, h1, h2⟩ := ih _ _ _ _ h
        obtain ⟨u2, h3⟩ : ∃ u2, anc ([] : List (Frame α L A)) c p = some (m, u2) := ⟨_, h2⟩
        have key : ∀ (p : List Nat) (a b : List (Frame α L A)) (n m : Node α L A) (u : List (Frame α L A)),
            anc a n p = some (m, u) → anc (a ++ b) n p = some (m, u ++ b) := by
          intro p
          induction p with
          | nil => intro a b n m u h; simp only [anc, Option.some.injEq, Prod.mk.injEq] at h ⊢; exact ⟨h.1, by rw [h.2]⟩
          | cons i p ih =>
            intro a b n m u h
            cases n with
            | tok t => simp [anc] at h
            | ctx l cs =>
              simp only [anc] at h ⊢
              cases hi : cs[i]? with
              | none => rw [hi] at h; simp at h
              | some c =>
                rw [hi] at h
                simp only [Option.bind_some] at h ⊢
                exact ih _ b _ _ _ h
        refine ⟨u1 ++ [⟨l, cs.take i⟩], by rw [h1]; simp, ?_⟩
        have := key p [] [⟨l, cs.take i⟩] c m u1 h2
        simpa using this

/-- The empty frames with these lexicons. -/
def emptyFrames (ls : List L) : List (Frame α L A) := ls.map (fun l => ⟨l, []⟩)

/-- Replacing what is right of the start: the new tree is continued from the old one. -/
theorem replaceStart_eq : ∀ (p : List Nat) (l : L) (cs : List (Node α L A)) (j : Nat) (l1 l1' : L) (ds : List (Node α L A))
    (up : List (Frame α L A)) (ls : List L) (R : List (List (Node α L A))) (r : List (Node α L A)),
    anc [] (.ctx l cs) p = some (.ctx l1 ds, up) → ls.length = p.length →
    replaceStart cs (closeUp (.ctx l1' r) (emptyFrames ls) R).kids [] (p ++ [j]) =
      some (closeUp (.ctx l1 (ds.take (j + 1) ++ r)) up R).kids := by
  intro p
  induction p with
  | nil =>
    intro l cs j l1 l1' ds up ls R r h hl
    simp only [anc, Option.some.injEq, Prod.mk.injEq, Node.ctx.injEq] at h
    obtain ⟨⟨rfl, rfl⟩, rfl⟩ := h
    have : ls = [] := List.length_eq_zero_iff.1 (by simpa using hl)
    subst this
    simp [replaceStart, closeUp, emptyFrames, Node.kids]
  | cons i p ih =>
    intro l cs j l1 l1' ds up ls R r h hl
    simp only [anc] at h
    cases hi : cs[i]? with
    | none => rw [hi] at h; simp at h
    | some c =>
      rw [hi] at h
      simp only [Option.bind_some] at h
      obtain ⟨u', hu, hu2⟩ := anc_up _ _ _ _ _ h
      rcases List.eq_nil_or_concat ls with rfl | ⟨ls', x, rfl⟩
      · simp at hl
      · rw [List.concat_eq_append] at hl ⊢
        simp only [List.length_append, List.length_cons, List.length_nil, Nat.add_right_cancel_iff] at hl
        have he : emptyFrames (α := α) (A := A) (ls' ++ [x]) = emptyFrames ls' ++ [⟨x, []⟩] := by simp [emptyFrames]
        rw [he, hu, closeUp_snoc, closeUp_snoc]
        have hctx : ∃ lc dc, c = .ctx lc dc := by
          cases c with
          | ctx lc dc => exact ⟨lc, dc, rfl⟩
          | tok t =>
            cases p with
            | nil => simp [anc] at h
            | cons _ _ => simp [anc] at h
        obtain ⟨lc, dc, rfl⟩ := hctx
        have hclose : ∀ (n : List (Node α L A)) (x : L) (fs : List (Frame α L A)), ∃ a b, closeUp (.ctx x n) fs R = .ctx a b := by
          intro n x fs
          rcases List.eq_nil_or_concat fs with rfl | ⟨fs', f, rfl⟩
          · exact ⟨_, _, rfl⟩
          · rw [List.concat_eq_append, closeUp_snoc]; exact ⟨_, _, rfl⟩
        have hlexc : ∀ (q : List Nat) (a : L) (b : List (Node α L A)) (u : List (Frame α L A)) (n : List (Node α L A)),
            anc [] (.ctx a b) q = some (.ctx l1 ds, u) → ∃ k, closeUp (.ctx l1 n) u R = .ctx a k := by
          intro q a b u n hq
          cases q with
          | nil =>
            simp only [anc, Option.some.injEq, Prod.mk.injEq, Node.ctx.injEq] at hq
            obtain ⟨⟨rfl, rfl⟩, rfl⟩ := hq
            exact ⟨n, rfl⟩
          | cons k q =>
            simp only [anc] at hq
            cases hk : b[k]? with
            | none => rw [hk] at hq; simp at hq
            | some c =>
              rw [hk] at hq
              simp only [Option.bind_some] at hq
              obtain ⟨u'', hu'', _⟩ := anc_up _ _ _ _ _ hq
              rw [hu'', closeUp_snoc]
              exact ⟨_, rfl⟩
        obtain ⟨a, b, hab⟩ := hclose r l1' (emptyFrames ls')
        obtain ⟨k, hk⟩ := hlexc p lc dc u' (ds.take (j + 1) ++ r) hu2
        have hIH := ih lc dc j l1 l1' ds u' ls' R r hu2 hl
        rw [hab, hk] at hIH
        simp only [Node.kids] at hIH
        simp only [Node.kids, List.nil_append]
        rw [hab, hk]
        have hul : u'.length = ls'.length := by
          have hlen : ∀ (q : List Nat) (n m : Node α L A) (w u : List (Frame α L A)), anc w n q = some (m, u) → u.length = q.length + w.length := by
            intro q
            induction q with
            | nil => intro n m w u h; simp only [anc, Option.some.injEq, Prod.mk.injEq] at h; simp [← h.2]
            | cons i q ih =>
              intro n m w u h
              cases n with
              | tok t => simp [anc] at h
              | ctx l cs =>
                simp only [anc] at h
                cases hi : cs[i]? with
                | none => rw [hi] at h; simp at h
                | some c =>
                  rw [hi] at h
                  simp only [Option.bind_some] at h
                  have := ih _ _ _ _ h
                  simp only [List.length_cons] at this ⊢; omega
          have := hlen _ _ _ _ _ hu2
          simp at this; omega
        cases hpj : p ++ [j] with
        | nil => simp at hpj
        | cons j' js =>
          rw [hpj] at hIH
          simp only [List.cons_append, hpj, replaceStart, hi, hIH]
          simp [emptyFrames, hul]

theorem replaceStart_cut {l : L} {cs : List (Node α L A)} {p : List Nat} {j : Nat} {F : BState α L A}
    (h : Cut (.ctx l cs) p (j + 1) F) (b0 : BState α L A) (hk : b0.cur.kids = []) {ls : List L} (hu : b0.up = emptyFrames ls)
    (hl : ls.length = p.length) (R : List (List (Node α L A))) :
    replaceStart cs (closeR b0 R).kids [] (p ++ [j]) = some (closeR F R).kids := by
  obtain ⟨l1, ds, up, h1, rfl⟩ := h
  have := replaceStart_eq p l cs j l1 b0.cur.lex ds up ls R.tail (R.headD []) h1 hl
  simp only [closeR, hk, hu, List.nil_append]
  exact this

/-! ### The context that really changes -/

/-- The nodes begin with contexts as deep as the path. -/
def Deep : List (Node α L A) → List Nat → Prop
  | _, [] => True
  | _, [_] => True
  | ts, _ :: j :: is => ∃ l us ts', ts = .ctx l us :: ts' ∧ Deep us (j :: is)
termination_by structural _ p => p

theorem deep_closeUp : ∀ (ls : List L) (l : L) (r : List (Node α L A)) (R : List (List (Node α L A))) (p : List Nat) (j : Nat),
    ls.length = p.length → Deep (closeUp (.ctx l r) (emptyFrames ls) R).kids (p ++ [j]) := by
  intro ls l r R p
  induction p generalizing ls with
  | nil => intro j _; trivial
  | cons i p ih =>
    intro j hl
    rcases List.eq_nil_or_concat ls with rfl | ⟨ls', x, rfl⟩
    · simp at hl
    · rw [List.concat_eq_append] at hl ⊢
      simp only [List.length_append, List.length_cons, List.length_nil, Nat.add_right_cancel_iff] at hl
      have he : emptyFrames (α := α) (A := A) (ls' ++ [x]) = emptyFrames ls' ++ [⟨x, []⟩] := by simp [emptyFrames]
      rw [he, closeUp_snoc]
      have hclose : ∀ (fs : List (Frame α L A)), ∃ a b, closeUp (.ctx l r) fs R = .ctx a b := by
        intro fs
        rcases List.eq_nil_or_concat fs with rfl | ⟨fs', f, rfl⟩
        · exact ⟨_, _, rfl⟩
        · rw [List.concat_eq_append, closeUp_snoc]; exact ⟨_, _, rfl⟩
      obtain ⟨a, b, hab⟩ := hclose (emptyFrames ls')
      have hIH := ih ls' j hl
      rw [hab] at hIH ⊢
      simp only [Node.kids, List.nil_append, List.cons_append] at hIH ⊢
      cases hp : p ++ [j] with
      | nil => simp at hp
      | cons j' js => rw [hp] at hIH; exact ⟨a, b, _, rfl, hIH⟩

theorem deep_closeR {b0 : BState α L A} (hk : b0.cur.kids = []) {ls : List L} (hu : b0.up = emptyFrames ls) {p : List Nat}
    (hl : ls.length = p.length) (j : Nat) (R : List (List (Node α L A))) : Deep (closeR b0 R).kids (p ++ [j]) := by
  simp only [closeR, hk, hu, List.nil_append]
  exact deep_closeUp ls _ _ _ p j hl

theorem replaceStart_after {cs ts after : List (Node α L A)} {st : List Nat} (h : Deep ts st) :
    replaceStart cs ts after st = replaceStart cs (ts ++ after) [] st := by
  match st, h with
  | [], _ => simp [replaceStart]
  | [i], _ => simp [replaceStart]
  | i :: j :: is, ⟨l, us, ts', h1, _⟩ =>
    subst h1
    simp only [replaceStart, List.cons_append]
    cases cs[i]? with
    | none => rfl
    | some c => cases c <;> simp

theorem joinRest_ctx (d : Int) (c : Node α L A) (l : L) (ts : List (Node α L A)) (et : List Nat) :
    ∃ us, joinRest d c (.ctx l ts) et = .ctx l us := by
  cases et with
  | nil => exact ⟨ts, joinRest_nil _ _ _⟩
  | cons e et =>
    cases c with
    | tok t => exact ⟨ts, rfl⟩
    | ctx l' cs =>
      simp only [joinRest]
      split
      · exact ⟨_, rfl⟩
      · split <;> exact ⟨_, rfl⟩

/-- Joining keeps the contexts at the beginning. -/
theorem joinFirst_deep (d : Int) (cs ts : List (Node α L A)) (et st : List Nat) (h : Deep ts st) : Deep (joinFirst d cs ts et) st := by
  have key : ∀ (st : List Nat) (c : Node α L A) (l : L) (ts : List (Node α L A)) (et : List Nat), Deep ts st →
      ∃ us, joinRest d c (.ctx l ts) et = .ctx l us ∧ Deep us st := by
    intro st
    induction st with
    | nil => intro c l ts et _; obtain ⟨us, h⟩ := joinRest_ctx d c l ts et; exact ⟨us, h, trivial⟩
    | cons i st ih =>
      intro c l ts et h
      cases st with
      | nil => obtain ⟨us, h⟩ := joinRest_ctx d c l ts et; exact ⟨us, h, trivial⟩
      | cons j is =>
        obtain ⟨l1, us1, ts1, rfl, h1⟩ := h
        cases et with
        | nil => exact ⟨_, joinRest_nil _ _ _, l1, us1, ts1, rfl, h1⟩
        | cons e et =>
          cases c with
          | tok t => exact ⟨_, rfl, l1, us1, ts1, rfl, h1⟩
          | ctx l' cs' =>
            simp only [joinRest]
            split
            · exact ⟨_, rfl, l1, us1, _, rfl, h1⟩
            · split
              · rename_i tl c' htl hc'
                cases ts1 with
                | nil =>
                  simp only [List.getLast?_singleton, Option.some.injEq] at htl
                  subst htl
                  obtain ⟨us2, h2, h3⟩ := ih c' l1 us1 et h1
                  rw [h2]
                  exact ⟨_, rfl, l1, us2, _, rfl, h3⟩
                | cons x xs => exact ⟨_, rfl, l1, us1, (x :: xs).dropLast ++ [joinRest d c' tl et] ++ shiftL d (cs'.drop (e + 1)), rfl, h1⟩
              · exact ⟨_, rfl, l1, us1, _, rfl, h1⟩
  match st, h with
  | [], _ => trivial
  | [_], _ => trivial
  | i :: j :: is, ⟨l, us, ts', h1, h2⟩ =>
    subst h1
    unfold joinFirst
    split
    · split
      · rename_i e f es _ _ tl c htl hc
        cases ts' with
        | nil =>
          simp only [List.getLast?_singleton, Option.some.injEq] at htl
          subst htl
          obtain ⟨us2, h3, h4⟩ := key (j :: is) c l us (f :: es) h2
          rw [h3]
          exact ⟨l, us2, [], rfl, h4⟩
        | cons x xs => exact ⟨l, us, (x :: xs).dropLast ++ [joinRest d c tl (f :: es)], by simp, h2⟩
      · exact ⟨l, us, ts', rfl, h2⟩
    · exact ⟨l, us, ts', rfl, h2⟩

theorem join_first (d : Int) (l l' : L) (cs ts : List (Node α L A)) (et : List Nat) (hc : ∀ e f es, et = e :: f :: es → (cs[e]?).isSome ∧ ts ≠ []) :
    (joinRest d (.ctx l cs) (.ctx l' ts) et).kids = joinFirst d cs ts et ++
      (match sliceEnd et with
       | none => []
       | some k => shiftL d (cs.drop k)) := by
  match et with
  | [] => simp [joinRest, joinFirst, sliceEnd, Node.kids]
  | [e] => simp [joinRest, joinFirst, sliceEnd, Node.kids]
  | e :: f :: es =>
    obtain ⟨h1, h2⟩ := hc e f es rfl
    obtain ⟨c, hc⟩ := Option.isSome_iff_exists.1 h1
    obtain ⟨tl, htl⟩ : ∃ tl, ts.getLast? = some tl := by
      cases htl : ts.getLast? with
      | none => exact absurd (List.getLast?_eq_none_iff.1 htl) h2
      | some tl => exact ⟨tl, rfl⟩
    simp [joinRest, joinFirst, sliceEnd, Node.kids, htl, hc]

/-- The new nodes end with contexts as deep as the end trail, minus the last index. -/
def DeepEnd : List (Node α L A) → List Nat → Prop
  | _, [] => True
  | _, [_] => True
  | ts, _ :: j :: is => ∃ l us, ts.getLast? = some (.ctx l us) ∧ DeepEnd us (j :: is)
termination_by structural _ p => p

theorem deepEnd_closeUp : ∀ (fs : List (Frame α L A)) (l : L) (r : List (Node α L A)) (p : List Nat) (j : Nat),
    fs.length = p.length → DeepEnd (closeUp (.ctx l r) fs []).kids (p ++ [j]) := by
  intro fs l r p
  induction p generalizing fs with
  | nil => intro j _; trivial
  | cons i p ih =>
    intro j hl
    rcases List.eq_nil_or_concat fs with rfl | ⟨fs', f, rfl⟩
    · simp at hl
    · rw [List.concat_eq_append] at hl ⊢
      simp only [List.length_append, List.length_cons, List.length_nil, Nat.add_right_cancel_iff] at hl
      rw [closeUp_snoc]
      have hclose : ∀ (fs : List (Frame α L A)), ∃ a b, closeUp (.ctx l r) fs [] = .ctx a b := by
        intro fs
        rcases List.eq_nil_or_concat fs with rfl | ⟨fs', f, rfl⟩
        · exact ⟨_, _, rfl⟩
        · rw [List.concat_eq_append, closeUp_snoc]; exact ⟨_, _, rfl⟩
      obtain ⟨a, b, hab⟩ := hclose fs'
      have hIH := ih fs' j hl
      rw [hab] at hIH ⊢
      simp only [Node.kids] at hIH
      simp only [List.cons_append]
      cases hp : p ++ [j] with
      | nil => simp at hp
      | cons j' js => rw [hp] at hIH; exact ⟨a, b, by simp [Node.kids], hIH⟩

/-- Finding the context that really changes does not make a difference: the result is the same as
    joining and replacing from the root on. -/
theorem replaceAt_eq (d : Int) : ∀ (st : List Nat) (l l' : L) (cs ts : List (Node α L A)) (et : List Nat) (t u : TokN α A),
    Deep ts st → DeepEnd ts et → (st = [] ∨ (Node.ctx l cs).at st = some (.tok t)) →
    (et = [] ∨ (Node.ctx l cs).at et = some (.tok u)) → (st = et → st = []) →
    replaceAt d cs ts st et = replaceStart cs (joinRest d (.ctx l cs) (.ctx l' ts) et).kids [] st := by
  intro st
  induction st with
  | nil =>
    intro l l' cs ts et t u hd hde hs he hne
    have hh : replaceHere d cs ts [] et = replaceStart cs (joinRest d (.ctx l cs) (.ctx l' ts) et).kids [] [] := by
      unfold replaceHere
      rw [replaceStart_after (by trivial)]
      refine congrArg (fun x => replaceStart cs x [] []) (join_first d l l' cs ts et ?_).symm
      intro e f es hee
      rcases he with he | he
      · rw [he] at hee; simp at hee
      · rw [hee] at he
        simp only [Node.at, Node.kids] at he
        refine ⟨?_, ?_⟩
        · cases hc : cs[e]? with
          | none => rw [hc] at he; simp at he
          | some c => rfl
        · rw [hee] at hde
          obtain ⟨_, _, h1, _⟩ := hde
          intro h0; rw [h0] at h1; simp at h1
    cases ts with
    | nil => cases et <;> exact hh
    | cons x xs => cases x <;> cases xs <;> cases et <;> exact hh
  | cons s st ih =>
    intro l l' cs ts et t u hd hde hs he hne
    have hs : (Node.ctx l cs).at (s :: st) = some (.tok t) := by simpa using hs
    have hh : replaceHere d cs ts (s :: st) et = replaceStart cs (joinRest d (.ctx l cs) (.ctx l' ts) et).kids [] (s :: st) := by
      unfold replaceHere
      rw [replaceStart_after (joinFirst_deep d cs ts et _ hd)]
      refine congrArg (fun x => replaceStart cs x [] (s :: st)) (join_first d l l' cs ts et ?_).symm
      intro e f es hee
      rcases he with he | he
      · rw [he] at hee; simp at hee
      · rw [hee] at he
        simp only [Node.at, Node.kids] at he
        refine ⟨?_, ?_⟩
        · cases hc : cs[e]? with
          | none => rw [hc] at he; simp at he
          | some c => rfl
        · rw [hee] at hde
          obtain ⟨_, _, h1, _⟩ := hde
          intro h0; rw [h0] at h1; simp at h1
    cases et with
    | nil =>
      cases ts with
      | nil => exact hh
      | cons x xs => cases x <;> cases xs <;> exact hh
    | cons e et =>
      have he : (Node.ctx l cs).at (e :: et) = some (.tok u) := by simpa using he
      cases ts with
      | nil => exact hh
      | cons x xs =>
        cases xs with
        | cons y ys => cases x <;> exact hh
        | nil =>
          cases x with
          | tok _ => exact hh
          | ctx l0 us =>
            simp only [replaceAt]
            by_cases hse : s = e
            · subst hse
              rw [if_pos rfl]
              simp only [Node.at, Node.kids] at hs he
              cases hc : cs[s]? with
              | none => rw [hc] at hs; simp at hs
              | some c =>
                rw [hc] at hs he
                simp only [Option.bind_some] at hs he
                cases c with
                | tok w =>
                  exfalso
                  cases st with
                  | cons _ _ => simp [Node.at, Node.kids] at hs
                  | nil =>
                    cases et with
                    | cons _ _ => simp [Node.at, Node.kids] at he
                    | nil => have := hne rfl; simp at this
                | ctx lc ds =>
                  have hst : st ≠ [] := by intro h0; rw [h0] at hs; simp [Node.at] at hs
                  have het : et ≠ [] := by intro h0; rw [h0] at he; simp [Node.at] at he
                  simp only
                  rw [if_neg (by simp [hst, het])]
                  have hne' : st = et → st = [] := by
                    intro h0
                    have := hne (by rw [h0])
                    simp at this
                  obtain ⟨j, js, rfl⟩ : ∃ j js, st = j :: js := by
                    cases st with
                    | nil => exact absurd rfl hst
                    | cons j js => exact ⟨j, js, rfl⟩
                  obtain ⟨k, ks, rfl⟩ : ∃ k ks, et = k :: ks := by
                    cases et with
                    | nil => exact absurd rfl het
                    | cons j js => exact ⟨j, js, rfl⟩
                  obtain ⟨l2, us2, ts2, h2, hd2⟩ := hd
                  simp only [List.cons.injEq, Node.ctx.injEq] at h2
                  obtain ⟨⟨rfl, rfl⟩, rfl⟩ := h2
                  obtain ⟨l3, us3, h3, hde2⟩ := hde
                  simp only [List.getLast?_singleton, Option.some.injEq, Node.ctx.injEq] at h3
                  obtain ⟨rfl, rfl⟩ := h3
                  rw [ih lc l0 ds us (k :: ks) t u hd2 hde2 (Or.inr hs) (Or.inr he) hne']
                  obtain ⟨vs, hvs⟩ := joinRest_ctx d (.ctx lc ds) l0 us (k :: ks)
                  have hj : joinRest d (.ctx l cs) (.ctx l' [.ctx l0 us]) (s :: k :: ks) =
                      .ctx l' ([] ++ [joinRest d (.ctx lc ds) (.ctx l0 us) (k :: ks)] ++ shiftL d (cs.drop (s + 1))) := by
                    rw [joinRest]
                    simp [hc]
                  rw [hj, hvs]
                  simp [Node.kids, replaceStart, hc]
            · rw [if_neg hse]
              exact hh

/-! ### Trails -/

variable [DecidableEq α] [DecidableEq L] [DecidableEq A]

theorem find_trail {l : L} {cs : List (Node α L A)} (hf : FullL cs) (ho : Ordered (toksL cs)) {q : List Nat} {u : TokN α A}
    (h : (Node.ctx l cs).at q = some (.tok u)) : (findTokenTrail cs u.pos).map (·.2) = some q := by
  obtain ⟨after, h1⟩ := back_split hf ho h
  have ht := leaves_toks (cs := cs)
  rw [h1] at ht
  simp only [List.map_append, List.map_cons] at ht
  have ho' := ho
  rw [← ht] at ho'
  have hlen := List.length_pos_iff.2 (ho'.1 u (by simp))
  have h2 : findToken cs u.pos = some u := by
    rw [C26_find_token cs hf ho, ← ht, List.find?_append, List.find?_eq_none.2]
    · simp [TokN.stop, hlen]
    · intro x hx
      have := (ordered_app ho').2.2 x hx u (by simp)
      simp; omega
  obtain ⟨h3, h4⟩ := C27_trail l cs u.pos
  rw [h2] at h3
  cases hf2 : findTokenTrail cs u.pos with
  | none => rw [hf2] at h3; simp at h3
  | some r =>
    obtain ⟨v, tr⟩ := r
    rw [hf2] at h3
    simp only [Option.map_some, Option.some.injEq] at h3
    subst h3
    have := (leaf_unique hf ho h (h4 _ _ hf2) rfl).1
    simp [this]

theorem find_left_trail {l : L} {cs : List (Node α L A)} (hf : FullL cs) (ho : Ordered (toksL cs)) {q : List Nat} {u : TokN α A}
    (h : (Node.ctx l cs).at q = some (.tok u)) : (findTokenLeftTrail cs u.stop).map (·.2) = some q := by
  obtain ⟨after, h1⟩ := back_split hf ho h
  have ht := leaves_toks (cs := cs)
  rw [h1] at ht
  simp only [List.map_append, List.map_cons] at ht
  have ho' := ho
  rw [← ht] at ho'
  have hlen := List.length_pos_iff.2 (ho'.1 u (by simp))
  have h2 : findTokenLeft cs u.stop = some u := by
    rw [C26_find_token_left cs hf ho, ← ht]
    simp only [List.reverse_append, List.reverse_cons, List.append_assoc, List.cons_append, List.nil_append]
    rw [List.find?_append, List.find?_eq_none.2]
    · simp [TokN.stop, hlen]
    · intro x hx
      have := (ordered_app (a := [u]) (ordered_app ho').2.1).2.2 u (by simp) x (by simpa using hx)
      simp; omega
  obtain ⟨h3, h4⟩ := C27_trail_left l cs u.stop
  rw [h2] at h3
  cases hf2 : findTokenLeftTrail cs u.stop with
  | none => rw [hf2] at h3; simp at h3
  | some r =>
    obtain ⟨v, tr⟩ := r
    rw [hf2] at h3
    simp only [Option.map_some, Option.some.injEq] at h3
    subst h3
    have := (leaf_unique hf ho h (h4 _ _ hf2) rfl).1
    simp [this]

end Parce.RB

import Verif.Lemmas.EventsOf
/-!
# The events made from a tree are the events the tree was built from
-/
set_option linter.unusedSectionVars false
namespace Parce.RB
variable {α L A ρ : Type}

/-! ### How many contexts a target leaves -/

/-- The pending target leaves no more than the `D` contexts there are, and leads to the depth `k`. -/
def Lev (D : Nat) (f : Factory L) (k : Nat) : Prop := f.fpop ≤ D ∧ D - f.fpop + f.fpush.length = k

/-- A target that does something. -/
def Does (tg : Option (Target L)) : Prop := ∀ t, tg = some t → t.pop ≠ 0 ∨ t.push ≠ []

/-- The targets of events leave no more contexts than there are, starting at depth `D`. -/
def Pops : Nat → List (EvT α L A) → Prop
  | _, [] => True
  | D, x :: xs => ((∀ t, x.ev.target = some t → t.pop ≤ D) ∧ Does x.ev.target) ∧ Pops (x.path.length - 1) xs

def depthAfter : Nat → List (EvT α L A) → Nat
  | D, [] => D
  | _, x :: xs => depthAfter (x.path.length - 1) xs

theorem pops_append (xs ys : List (EvT α L A)) : ∀ D, Pops D (xs ++ ys) ↔ Pops D xs ∧ Pops (depthAfter D xs) ys := by
  induction xs with
  | nil => intro D; simp [Pops, depthAfter]
  | cons x xs ih => intro D; simp only [List.cons_append, Pops, depthAfter, ih, and_assoc]

theorem depth_append (xs ys : List (EvT α L A)) : ∀ D, depthAfter D (xs ++ ys) = depthAfter (depthAfter D xs) ys := by
  induction xs with
  | nil => intro D; rfl
  | cons x xs ih => intro D; simp only [List.cons_append, depthAfter, ih]

theorem Lev.push {D k : Nat} {f : Factory L} (h : Lev D f k) (l : L) : Lev D (f.push [l]) (k + 1) := by
  obtain ⟨h1, h2⟩ := h
  refine ⟨h1, ?_⟩
  simp only [Factory.push, List.length_append, List.length_cons, List.length_nil]
  omega

theorem Lev.pop {D k : Nat} {f : Factory L} (h : Lev D f (k + 1)) : Lev D (f.pop 1) k := by
  obtain ⟨h1, h2⟩ := h
  unfold Factory.pop
  rw [if_pos (by decide)]
  by_cases h3 : 1 ≤ f.fpush.length
  · rw [if_pos h3]
    refine ⟨h1, ?_⟩
    simp only [List.length_take]
    omega
  · rw [if_neg h3]
    refine ⟨by simp only; omega, ?_⟩
    simp only [List.length_nil]
    omega

theorem Lev.get {D k : Nat} {f : Factory L} (h : Lev D f k) :
    (∀ t, f.get.1 = some t → t.pop ≤ D) ∧ Does f.get.1 ∧ Lev k f.get.2 k := by
  rw [get_snd]
  refine ⟨?_, ?_, Nat.zero_le _, by simp [Factory.init]⟩
  · intro t ht
    unfold Factory.get at ht
    split at ht
    · simp only [Option.some.injEq] at ht; rw [← ht]; exact h.1
    · simp at ht
  · intro t ht
    unfold Factory.get at ht
    split at ht
    · rename_i hc
      simp only [Option.some.injEq] at ht; rw [← ht]; exact hc
    · simp at ht

theorem evNodes_lev : ∀ (fuel : Nat) (f : Factory L) (p : List Nat) (i : Nat) (ns : List (Node α L A)) (D : Nat), Lev D f p.length →
    Pops D (evNodes fuel f p i ns).2 ∧ Lev (depthAfter D (evNodes fuel f p i ns).2) (evNodes fuel f p i ns).1 p.length := by
  intro fuel
  induction fuel with
  | zero => intro f p i ns D h; exact ⟨trivial, h⟩
  | succ fuel ih =>
    intro f p i ns D h
    cases ns with
    | nil => exact ⟨trivial, h⟩
    | cons n ns =>
      cases n with
      | ctx l cs =>
        simp only [evNodes]
        have h1 := ih (f.push [l]) (p ++ [i]) 0 cs D (by rw [List.length_append]; exact h.push l)
        rw [List.length_append] at h1
        have h2 := ih _ p (i + 1) ns _ h1.2.pop
        rw [pops_append, depth_append]
        exact ⟨⟨h1.1, h2.1⟩, h2.2⟩
      | tok t =>
        simp only [evNodes]
        obtain ⟨h1, h2, h3⟩ := h.get
        have h4 := ih f.get.2 p (i + groupSize t ns) (ns.drop (groupSize t ns - 1)) _ h3
        simp only [Pops, depthAfter, List.length_append, List.length_cons, List.length_nil, Nat.add_sub_cancel]
        exact ⟨⟨⟨h1, h2⟩, h4.1⟩, h4.2⟩

/-- The depths of slices fit to the moves between them. -/
def Steps : Nat → List (FSlice L) → Prop
  | _, [] => True
  | k, (m, (p, _, _)) :: ss =>
    (match m with
      | .none => p.length = k
      | .pop => p.length + 1 = k
      | .push _ => p.length = k + 1) ∧ Steps p.length ss

def endDepth : Nat → List (FSlice L) → Nat
  | k, [] => k
  | _, (_, (p, _, _)) :: ss => endDepth p.length ss

theorem steps_append (a b : List (FSlice L)) : ∀ k, Steps k (a ++ b) ↔ Steps k a ∧ Steps (endDepth k a) b := by
  induction a with
  | nil => intro k; simp [Steps, endDepth]
  | cons x a ih => intro k; obtain ⟨m, p, i, j⟩ := x; simp only [List.cons_append, Steps, endDepth, ih, and_assoc]

theorem endDepth_append (a b : List (FSlice L)) : ∀ k, endDepth k (a ++ b) = endDepth (endDepth k a) b := by
  induction a with
  | nil => intro k; rfl
  | cons x a ih => intro k; obtain ⟨m, p, i, j⟩ := x; simp only [List.cons_append, endDepth, ih]

theorem evSlices_lev (root : Node α L A) : ∀ (ss : List (FSlice L)) (f : Factory L) (D k : Nat), Lev D f k → Steps k ss →
    Pops D (evSlices root f ss).2 := by
  intro ss
  induction ss with
  | nil => intro f D k _ _; trivial
  | cons s ss ih =>
    intro f D k h hs
    obtain ⟨m, p, a, b⟩ := s
    simp only [evSlices]
    have h0 : Lev D (m.run f) p.length := by
      obtain ⟨hm, _⟩ := hs
      cases m with
      | none => simp only at hm; rw [hm]; exact h
      | pop => simp only at hm; rw [← hm] at h; exact h.pop
      | push l => simp only at hm; rw [hm]; exact h.push l
    have h1 := evNodes_lev (sizeL (cutSlice (root.kidsAt p) a b) + 1) (m.run f) p a (cutSlice (root.kidsAt p) a b) D h0
    rw [pops_append]
    exact ⟨h1.1, ih _ _ _ h1.2 hs.2⟩

theorem steps_up : ∀ (is : List Nat) (p : List Nat) (i : Nat), Steps (p.length + is.length) (upF (L := L) p (i :: is)) ∧
    endDepth (p.length + is.length) (upF (L := L) p (i :: is)) = p.length := by
  intro is
  induction is with
  | nil => intro p i; exact ⟨⟨rfl, trivial⟩, rfl⟩
  | cons j is ih =>
    intro p i
    obtain ⟨h1, h2⟩ := ih (p ++ [i]) j
    have he : (p ++ [i]).length + is.length = p.length + (j :: is).length := by simp; omega
    rw [he] at h1 h2
    rw [show upF (L := L) p (i :: j :: is) = upF (p ++ [i]) (j :: is) ++ [(.pop, (p, i + 1, none))] from rfl, steps_append, endDepth_append, h2]
    refine ⟨⟨h1, ?_, trivial⟩, rfl⟩
    simp

theorem steps_down (root : Node α L A) : ∀ (es : List Nat) (p : List Nat) (e : Nat) (n : Node α L A) (k : Nat), p.length = k + 1 →
    root.at (p ++ e :: es) = some n → Steps k (downF root p (e :: es)) := by
  intro es
  induction es with
  | nil =>
    intro p e n k hk h
    obtain ⟨l, h1, _⟩ := at_snoc h
    refine ⟨?_, trivial⟩
    simp only [pushAt, lexAt, h1]
    exact hk
  | cons e' es ih =>
    intro p e n k hk h
    have h0 : ∃ l, root.at p = some (.ctx l (root.kidsAt p)) := by
      have h' := h
      rw [at_append] at h'
      cases hp : root.at p with
      | none => simp [hp] at h'
      | some m =>
        rw [hp] at h'
        cases m with
        | tok t => simp [Node.at, Node.kids] at h'
        | ctx l cs => exact ⟨l, by simp [Node.kidsAt, hp, Node.kids]⟩
    obtain ⟨l, h1⟩ := h0
    refine ⟨?_, ?_⟩
    · simp only [pushAt, lexAt, h1]
      exact hk
    · exact ih (p ++ [e]) e' n p.length (by simp) (by simpa using h)

theorem steps_slices (root : Node α L A) (q : List Nat) (i : Nat) (is : List Nat) (e : Nat) (es : List Nat) (n : Node α L A)
    (h : root.at (q ++ e :: es) = some n) : Steps (q.length + is.length) (slicesF root ⟨q, i :: is, e :: es⟩) := by
  have key : ∀ k m a b, (match m with
      | .none => q.length = k
      | .pop => q.length + 1 = k
      | .push _ => q.length = k + 1) →
      Steps k (match e :: es with
        | e :: f :: es => (m, (q, a, some e)) :: downF root (q ++ [e]) (f :: es)
        | [e] => [(m, (q, a, b))]
        | [] => []) := by
    intro k m a b hm
    cases es with
    | nil => exact ⟨hm, trivial⟩
    | cons f es => exact ⟨hm, steps_down root es (q ++ [e]) f n q.length (by simp) (by simpa using h)⟩
  cases is with
  | nil =>
    have := key q.length .none (startIdx [i]) (some (e + 1)) rfl
    cases es with
    | nil => simpa [slicesF] using this
    | cons f es => simpa [slicesF] using this
  | cons j js =>
    obtain ⟨h1, h2⟩ := steps_up (L := L) js (q ++ [i]) j
    have he : (q ++ [i]).length + js.length = q.length + (j :: js).length := by simp; omega
    rw [he] at h1 h2
    have := key (q ++ [i]).length .pop (startIdx (i :: j :: js)) (some (e + 1)) (by simp)
    cases es with
    | nil =>
      simp only [slicesF, steps_append, h2]
      exact ⟨h1, by simpa using this⟩
    | cons f es =>
      simp only [slicesF, steps_append, h2]
      exact ⟨h1, by simpa using this⟩

/-! ### A target is known from where it leads -/

theorem enters_up : ∀ (ls : List L) (b : BState α L A),
    (ls.foldl BState.enter b).cur :: (ls.foldl BState.enter b).up = (ls.map (fun l => (⟨l, []⟩ : Frame α L A))).reverse ++ (b.cur :: b.up) := by
  intro ls
  induction ls with
  | nil => intro b; rfl
  | cons l ls ih => intro b; rw [List.foldl_cons, ih]; simp [BState.enter]

theorem leaves_up : ∀ (n : Nat) (b : BState α L A), n < b.up.length →
    ∃ f x, b.up[n]? = some f ∧ (b.leaves (n + 1)).cur = ⟨f.lex, f.kids ++ [x]⟩ ∧ (b.leaves (n + 1)).up = b.up.drop (n + 1) := by
  intro n
  induction n with
  | zero =>
    intro b h
    obtain ⟨cur, up⟩ := b
    cases up with
    | nil => simp at h
    | cons f fs => exact ⟨f, .ctx cur.lex cur.kids, rfl, rfl, rfl⟩
  | succ n ih =>
    intro b h
    obtain ⟨cur, up⟩ := b
    cases up with
    | nil => simp at h
    | cons f fs =>
      obtain ⟨g, x, h1, h2, h3⟩ := ih ⟨⟨f.lex, f.kids ++ [.ctx cur.lex cur.kids]⟩, fs⟩ (by simpa using h)
      exact ⟨g, x, by simpa using h1, h2, h3⟩

theorem leaves_tail {b : BState α L A} {n m : Nat} (h1 : n < m) (h2 : m ≤ b.up.length) :
    ∃ C, (b.leaves n).cur :: (b.leaves n).up = C ++ b.up.drop (m - 1) := by
  cases n with
  | zero =>
    refine ⟨b.cur :: b.up.take (m - 1), ?_⟩
    show b.cur :: b.up = _
    simp
  | succ n =>
    obtain ⟨f, x, _, _, h3⟩ := leaves_up n b (by omega)
    refine ⟨(b.leaves (n + 1)).cur :: (b.up.drop (n + 1)).take (m - 1 - (n + 1)), ?_⟩
    rw [h3, List.cons_append]
    have : b.up.drop (m - 1) = (b.up.drop (n + 1)).drop (m - 1 - (n + 1)) := by
      rw [List.drop_drop]; congr 1; omega
    rw [this, List.take_append_drop]

theorem leaves_length {b : BState α L A} {n : Nat} (h : n ≤ b.up.length) : (b.leaves n).up.length = b.up.length - n := by
  cases n with
  | zero => rfl
  | succ n =>
    obtain ⟨f, x, _, _, h3⟩ := leaves_up n b h
    rw [h3, List.length_drop]

theorem pend_lt {b : BState α L A} {n m : Nat} {ls ls' : List L} (h : ls.foldl BState.enter (b.leaves n) = ls'.foldl BState.enter (b.leaves m))
    (hm : m ≤ b.up.length) : ¬ n < m := by
  intro hlt
  have h1 := enters_up ls (b.leaves n)
  rw [h, enters_up] at h1
  obtain ⟨C, h2⟩ := leaves_tail hlt hm
  obtain ⟨k, rfl⟩ : ∃ k, m = k + 1 := ⟨m - 1, by omega⟩
  obtain ⟨f, x, h3, h4, h5⟩ := leaves_up k b hm
  rw [h2, h4, h5] at h1
  have h6 : b.up.drop (k + 1 - 1) = f :: b.up.drop (k + 1) := by
    rw [Nat.add_sub_cancel, List.drop_eq_getElem?_toList_append, h3]; rfl
  rw [h6, ← List.append_assoc] at h1
  have h7 := (List.append_inj' h1 (by simp)).2
  simp only [List.cons.injEq] at h7
  have h8 := congrArg (fun g : Frame α L A => g.kids.length) h7.1
  simp at h8

theorem target_inj {b : BState α L A} {s t : Option (Target L)} (h : b.target s = b.target t)
    (hs : ∀ u, s = some u → u.pop ≤ b.up.length) (ht : ∀ u, t = some u → u.pop ≤ b.up.length) (ds : Does s) (dt : Does t) : s = t := by
  have key : ∀ (n m : Nat) (ls ls' : List L), n ≤ b.up.length → m ≤ b.up.length →
      ls.foldl BState.enter (b.leaves n) = ls'.foldl BState.enter (b.leaves m) → n = m ∧ ls = ls' := by
    intro n m ls ls' hn hm h
    have h1 : n = m := by
      have := pend_lt h hm
      have := pend_lt h.symm hn
      omega
    subst h1
    have h2 := enters_up ls (b.leaves n)
    rw [h, enters_up] at h2
    have h3 := List.reverse_inj.1 (List.append_cancel_right h2)
    have h4 := congrArg (List.map (fun g : Frame α L A => g.lex)) h3
    simp only [List.map_map] at h4
    have hid : ((fun g : Frame α L A => g.lex) ∘ fun l => (⟨l, []⟩ : Frame α L A)) = id := rfl
    rw [hid, List.map_id, List.map_id] at h4
    exact ⟨rfl, h4.symm⟩
  cases s with
  | none =>
    cases t with
    | none => rfl
    | some v =>
      obtain ⟨h1, h2⟩ := key 0 v.pop [] v.push (Nat.zero_le _) (ht v rfl) h
      rcases dt v rfl with h3 | h3
      · exact absurd h1.symm h3
      · exact absurd h2.symm h3
  | some u =>
    cases t with
    | none =>
      obtain ⟨h1, h2⟩ := key u.pop 0 u.push [] (hs u rfl) (Nat.zero_le _) h
      rcases ds u rfl with h3 | h3
      · exact absurd h1 h3
      · exact absurd h2 h3
    | some v =>
      obtain ⟨h1, h2⟩ := key u.pop v.pop u.push v.push (hs u rfl) (ht v rfl) h
      obtain ⟨a, b⟩ := u
      obtain ⟨c, d⟩ := v
      simp only at h1 h2
      rw [h1, h2]

/-- Where a group ends is known from its tokens. -/
theorem makeTokens_inj {l1 l2 : List (Lexeme α A)} {r1 r2 : List (TokN α A)} (h1 : l1 ≠ []) (h2 : l2 ≠ [])
    (h : makeTokens l1 ++ r1 = makeTokens l2 ++ r2) : l1 = l2 := by
  have key : ∀ {l1 l2 : List (Lexeme α A)} {r1 r2 : List (TokN α A)}, l1 ≠ [] → makeTokens l1 ++ r1 = makeTokens l2 ++ r2 →
      ¬ l1.length < l2.length := by
    intro l1 l2 r1 r2 h1 h hlt
    have hp := List.length_pos_iff.2 h1
    have hk : l1.length - 1 < (makeTokens l1).length := by rw [makeTokens_length]; omega
    have hk2 : l1.length - 1 < (makeTokens l2).length := by rw [makeTokens_length]; omega
    have ha := List.getElem?_eq_getElem hk
    have hb := List.getElem?_eq_getElem hk2
    have hab : (makeTokens l1 ++ r1)[l1.length - 1]? = (makeTokens l2 ++ r2)[l1.length - 1]? := by rw [h]
    rw [List.getElem?_append_left hk, List.getElem?_append_left hk2, ha, hb, Option.some.injEq] at hab
    rw [← hab] at hb
    have ga := (makeTokens_get ha).2
    have gb := (makeTokens_get hb).2
    rw [ga] at gb
    rw [if_neg (show ¬ l2.length = 1 by omega), if_neg (show ¬ l1.length - 1 + 1 = l2.length by omega)] at gb
    by_cases h3 : l1.length = 1
    · rw [if_pos h3] at gb; simp at gb
    · rw [if_neg h3, if_pos (show l1.length - 1 + 1 = l1.length by omega), Option.some.injEq] at gb
      omega
  have hlen : l1.length = l2.length := by
    have := key h1 h
    have := key h2 h.symm
    omega
  have h3 := (List.append_inj h (by rw [makeTokens_length, makeTokens_length, hlen])).1
  rw [← makeTokens_lexeme l1, h3, makeTokens_lexeme]

variable [DecidableEq α] [DecidableEq L] [DecidableEq A]

/-- Events made from the tree are the next events the tree was built from. -/
theorem replay_exact {rl : L} {cs : List (Node α L A)} (hf : FullL cs) (ho : Ordered (toksL cs)) :
    ∀ (xs : List (EvT α L A)) (b : BState α L A) (Y : List (Event α L A)), closeR b (pull Y []) = .ctx rl cs → KeepsRoot b.lexs Y →
    (∀ e ∈ Y, e.lexemes ≠ [] ∧ Does e.target) → Replay (.ctx rl cs) b xs → Pops b.up.length xs →
    ∃ Z, Y = xs.map (·.ev) ++ Z := by
  intro xs
  induction xs with
  | nil => intro b Y _ _ _ _ _; exact ⟨Y, rfl⟩
  | cons x xs ih =>
    intro b Y hcl hk hY hr hp
    obtain ⟨⟨p, j, g1, g2, g3, g4, g5, g6⟩, hr⟩ := hr
    obtain ⟨⟨hp1, hp2⟩, hp⟩ := hp
    obtain ⟨post, ht⟩ := g2.toks
    have htoks : (Node.ctx rl cs).toks = toksB b ++ Y.flatMap (fun e => makeTokens e.lexemes) := by
      rw [← hcl, ← closeR_events Y b hk [], ← close_eq, close_toks, toksB_events]
    rw [toksB_event, htoks, List.append_assoc] at ht
    have ht := List.append_cancel_left ht
    have hxl : x.ev.lexemes ≠ [] := by rw [g4]; simpa using g3
    cases Y with
    | nil =>
      exfalso
      rw [g5] at ht
      simp at ht
      exact g3 ht.1
    | cons y Y =>
      obtain ⟨hyl, hyd⟩ := hY y (by simp)
      rw [List.flatMap_cons] at ht
      have hlx : y.lexemes = x.ev.lexemes := makeTokens_inj hyl hxl ht
      have hcl' : closeR (b.event y) (pull Y []) = .ctx rl cs := by rw [closeR_event y b hk.1]; exact hcl
      have hcut := cut_closeR (b.event y) (pull Y [])
      rw [hcl'] at hcut
      have hlen : (b.event y).cur.kids.length = (b.target y.target).cur.kids.length + x.toks.length := by
        rw [event_eq]
        simp only [addN, List.length_append, List.length_map]
        rw [hlx, g5]
      obtain ⟨t0, ht0⟩ : ∃ t0, x.toks[0]? = some t0 := by
        cases hx : x.toks with
        | nil => exact absurd hx g3
        | cons t0 r => exact ⟨t0, rfl⟩
      have a1 := g6 0 t0 ht0
      have a2 : (Node.ctx rl cs).at (pathOf (b.event y).up ++ [(b.target y.target).cur.kids.length]) = some (.tok t0) := by
        obtain ⟨l, k1, k2⟩ := hcut.kids
        have k3 := congrArg Frame.kids k2
        simp only at k3
        have k4 : (b.event y).cur.kids[(b.target y.target).cur.kids.length]? = some (.tok t0) := by
          rw [event_eq]
          simp only [addN]
          rw [List.getElem?_append_right (Nat.le_refl _), Nat.sub_self, hlx, g5, List.getElem?_map, ht0]
          rfl
        rw [k3] at k4
        rw [at_append, k1]
        simp only [Option.bind_some, Node.at, Node.kids]
        have k5 := getElem?_lt k4
        rw [List.getElem?_take_of_lt (by rw [List.length_take] at k5; omega)] at k4
        rw [k4]; rfl
      have a3 := (leaf_unique hf ho a1 a2 rfl).1
      simp only [Nat.add_zero] at a3
      have a4 := List.append_inj' a3 rfl
      simp only [List.cons.injEq, and_true] at a4
      rw [hlen, ← a4.1, ← a4.2] at hcut
      have hev := g2.unique hcut
      have htg : b.target x.ev.target = b.target y.target := by
        rw [event_eq, event_eq, hlx] at hev
        generalize b.target x.ev.target = u at hev
        generalize b.target y.target = v at hev
        obtain ⟨⟨ul, uk⟩, uu⟩ := u
        obtain ⟨⟨vl, vk⟩, vu⟩ := v
        simp only [addN, BState.mk.injEq, Frame.mk.injEq] at hev
        obtain ⟨⟨h1, h2⟩, h3⟩ := hev
        rw [h1, h3, List.append_cancel_right h2]
      have htgt := target_inj htg hp1 (by
        intro u hu
        have h1 := hk.1 u hu
        simp only [BState.lexs, List.length_cons, List.length_map] at h1
        omega) hp2 hyd
      have hxy : x.ev = y := by
        obtain ⟨⟨a, b⟩, _, _⟩ := x
        obtain ⟨c, d⟩ := y
        simp only at htgt hlx
        simp [htgt, hlx]
      have hdepth : (b.event y).up.length = x.path.length - 1 := by
        rw [← hxy, g2.up_length, g1]
        simp
      obtain ⟨Z, hZ⟩ := ih (b.event y) Y hcl' (by rw [(event_lexs y b hk.1).1]; exact hk.2) (fun e he => hY e (by simp [he]))
        (by rw [← hxy]; exact hr) (by rw [hdepth]; exact hp)
      exact ⟨Z, by rw [List.map_cons, List.cons_append, hxy, ← hZ]⟩

/-- The events made from a tree leave no more contexts than there are. -/
theorem eventsWithTokens_pops {root : Node α L A} (start last : Leaf α A) (hs : root.at start.1 = some (.tok start.2))
    (hl : root.at last.1 = some (.tok last.2)) (p : List Nat) (i : Nat) (hp : start.1 = p ++ [i]) (D : Nat)
    (hD : Lev D (startFac root start) p.length) : Pops D (eventsWithTokens root start last) := by
  obtain ⟨sp, st⟩ := start
  obtain ⟨lp, lt⟩ := last
  simp only at hs hl hp
  have main : ∀ q i' is e es, sp = q ++ i' :: is → lp = q ++ e :: es →
      Pops D (evSlices root (startFac root (sp, st)) (slicesF root ⟨q, i' :: is, e :: es⟩)).2 := by
    intro q i' is e es h1 h2
    have hlen : p.length = q.length + is.length := by
      have := congrArg List.length (hp.symm.trans h1)
      simp at this
      omega
    rw [hlen] at hD
    exact evSlices_lev root _ _ D _ hD (steps_slices root q i' is e es _ (h2 ▸ hl))
  unfold eventsWithTokens commonAncestor
  by_cases he : sp = lp
  · subst he
    simp only [if_true]
    have h1 : sp.drop (sp.length - 1) = [i] := by rw [hp]; simp
    have h2 : sp.dropLast = p := by rw [hp]; simp
    rw [h1, h2]
    exact main p i [] i [] (by rw [hp]) (by rw [hp])
  · simp only [he, if_false]
    by_cases hpos : st.pos < lt.pos
    · simp only [hpos, if_true]
      obtain ⟨h1, h2, h3⟩ := splitCommon_spec sp lp
      generalize splitCommon sp lp = r at h1 h2 h3
      obtain ⟨q, r1, r2⟩ := r
      simp only at h1 h2 h3 ⊢
      rcases h3 with h3 | h3 | ⟨i', is, e, es, h4, h5, h6⟩
      · subst h3
        rw [List.append_nil] at h1
        exfalso
        have := tok_not_prefix (p := q) (h1 ▸ hs) (h2 ▸ hl)
        subst this
        exact he (by rw [h1, h2]; simp)
      · subst h3
        rw [List.append_nil] at h2
        exfalso
        have := tok_not_prefix (p := q) (h2 ▸ hl) (h1 ▸ hs)
        subst this
        exact he (by rw [h1, h2]; simp)
      · subst h4
        subst h5
        exact main q i' is e es h1 h2
    · simp only [hpos, if_false]
      trivial

theorem startFac_pop (root : Node α L A) (start : Leaf α A) : (startFac root start).fpop = 0 := by
  unfold startFac
  split <;> rfl

/-- The events of the lexer have targets that do something. -/
theorem lexRun_does (lang : Lang α L A ρ) (t : List α) : ∀ (n : Nat) (s : LState L ρ), ∀ e ∈ (lexRun lang t n s).1, Does e.target := by
  have hem : ∀ (f : Factory L) (tok : Tok α L A ρ), ∀ e ∈ (emit lang f tok).2, Does e.target := by
    intro f tok e he
    rcases emit_cases lang f tok with ⟨_, h⟩ | ⟨_, h⟩
    · rw [h] at he; simp at he
    · rw [h] at he
      simp only [List.mem_cons, List.not_mem_nil, or_false] at he
      subst he
      exact (Lev.get (D := f.fpop) (k := f.fpop - f.fpop + f.fpush.length) ⟨Nat.le_refl _, rfl⟩).2.1
  intro n
  induction n with
  | zero => intro s e he; simp [lexRun] at he
  | succ n ih =>
    intro s e he
    cases hstep : lexStep lang t s with
    | none => simp [lexRun, hstep] at he
    | some r =>
      obtain ⟨s', ev⟩ := r
      simp only [lexRun, hstep, List.mem_append] at he
      rcases he with he | he
      · obtain ⟨top, rest, tok, ps', hs, hp, hc⟩ := lexStep_cases hstep
        rcases hc with ⟨_, _, rfl, rfl⟩ | ⟨_, _, rfl, rfl⟩ | ⟨tg0, tg, _, _, _, ⟨rfl, rfl⟩ | ⟨rfl, rfl⟩⟩ |
          ⟨tg0, tg, _, _, _, rfl, _⟩
        · exact hem _ _ e he
        · simp at he
        · exact hem _ _ e he
        · exact hem _ _ e he
        · simp at he
      · exact ih s' e he

/-- The events made from the tokens of a tree, from a start token that is not the first token of the tree: the events the tree
    was built from, without the target of the first one. -/
theorem events_part {rl : L} {E : List (Event α L A)} {cs : List (Node α L A)} (h : Built rl E cs) (hd : ∀ e ∈ E, Does e.target)
    (start last : Leaf α A) (hs : (Node.ctx rl cs).at start.1 = some (.tok start.2))
    (hla : (Node.ctx rl cs).at last.1 = some (.tok last.2)) (hgs : start.2.group = none ∨ start.2.group = some 0)
    (hgl : last.2.group = none ∨ ∃ g, last.2.group = some g ∧ g < 0)
    {X : List (Event α L A)} {y : Event α L A} {Y : List (Event α L A)} (hE : E = X ++ y :: Y) (hy : y.lexemes.head? = some start.2.lexeme) :
    ∃ Z, (⟨if X = [] then y.target else none, y.lexemes⟩ :: Y : List (Event α L A)) =
      (eventsWithTokens (.ctx rl cs) start last).map (·.ev) ++ Z := by
  obtain ⟨c1, c2, c3⟩ := h.cut hE
  have hk := h.keeps
  rw [hE] at hk
  obtain ⟨hl1, hl2⟩ := before_lexs hk
  rw [keepsRoot_append] at hk
  obtain ⟨t0, ht0, hpos⟩ : ∃ t0, (makeTokens y.lexemes)[0]? = some t0 ∧ t0.pos = start.2.pos := by
    have h1 := makeTokens_lexeme y.lexemes
    cases hm : makeTokens y.lexemes with
    | nil =>
      rw [hm] at h1
      simp only [List.map_nil] at h1
      rw [← h1] at hy; simp at hy
    | cons t0 r =>
      refine ⟨t0, rfl, ?_⟩
      rw [hm] at h1
      simp only [List.map_cons] at h1
      rw [← h1] at hy
      simp only [List.head?_cons, Option.some.injEq] at hy
      exact congrArg Lexeme.pos hy
  have hp := (leaf_unique h.wf.1 h.ord hs (c3 0 t0 ht0) hpos.symm).1
  rw [Nat.add_zero] at hp
  have hY : ∀ e ∈ Y, e.lexemes ≠ [] ∧ Does e.target := fun e he => ⟨h.ne e (by rw [hE]; simp [he]), hd e (by rw [hE]; simp [he])⟩
  have hylx := h.ne y (by rw [hE]; simp)
  obtain ⟨after, hsplit⟩ := back_split (rl := rl) h.wf.1 h.ord hs
  have hbk : X = [] ↔ back (.ctx rl cs) start.1 = [] := by
    have ht := leaves_toks (cs := cs)
    rw [hsplit, h.toks, hE] at ht
    have hne : ∀ e ∈ E, makeTokens e.lexemes ≠ [] := by
      intro e he hc
      have := makeTokens_length e.lexemes
      rw [hc] at this
      exact h.ne e he (List.length_eq_zero_iff.1 this.symm)
    have hst : makeTokens y.lexemes = start.2 :: (makeTokens y.lexemes).tail := by
      have := (leaf_unique h.wf.1 h.ord hs (c3 0 t0 ht0) hpos.symm).2
      cases hm : makeTokens y.lexemes with
      | nil => rw [hm] at ht0; simp at ht0
      | cons a r => rw [hm] at ht0; simp only [List.getElem?_cons_zero, Option.some.injEq] at ht0; rw [List.tail_cons, ht0, this]
    have ho := h.ord
    rw [h.toks, hE] at ho
    constructor
    · intro hX
      cases hb : back (.ctx rl cs) start.1 with
      | nil => rfl
      | cons a r =>
        exfalso
        rw [hb, hX] at ht
        rw [hX] at ho
        simp only [List.reverse_cons, List.append_assoc, List.map_append, List.map_cons, List.map_nil, List.cons_append,
          List.nil_append, List.flatMap_cons] at ht ho
        rw [← ht] at ho
        rw [hst] at ht
        have h1 := (ordered_app (a := (r.reverse.map Prod.snd) ++ [a.2]) (by simpa using ho)).2.2 a.2 (by simp) start.2 (by simp)
        have h2 := List.length_pos_iff.2 (ho.1 a.2 (by simp))
        have ho' := ho
        rw [ht] at ho'
        simp only [TokN.stop] at h1
        have hmem : a.2 ∈ start.2 :: ((makeTokens y.lexemes).tail ++ Y.flatMap (fun e => makeTokens e.lexemes)) := by
          rw [← List.cons_append, ← ht]; simp
        rcases List.mem_cons.1 hmem with h6 | h6
        · rw [h6] at h1 h2; omega
        · have := (ordered_app (a := [start.2]) ho').2.2 start.2 (by simp) a.2 h6
          simp only [TokN.stop] at this
          omega
    · intro hb
      cases X with
      | nil => rfl
      | cons x X =>
        exfalso
        rw [hb] at ht
        simp only [List.reverse_nil, List.nil_append, List.map_cons, List.cons_append, List.flatMap_cons] at ht
        have hx := hne x (by rw [hE]; simp)
        cases hm : makeTokens x.lexemes with
        | nil => exact hx hm
        | cons a r =>
          rw [hm] at ht
          simp only [List.cons_append, List.cons.injEq] at ht
          simp only [List.cons_append, List.flatMap_cons, hm, ← ht.1] at ho
          have hmem : start.2 ∈ r ++ (X ++ y :: Y).flatMap (fun e => makeTokens e.lexemes) := by
            rw [List.flatMap_append, List.flatMap_cons, hst]; simp
          have := (ordered_app (a := [start.2]) ho).2.2 start.2 (by simp) start.2 hmem
          have h2 := List.length_pos_iff.2 (ho.1 start.2 (by simp))
          simp only [TokN.stop] at this
          omega
  by_cases hX : X = []
  · rw [if_pos hX]
    subst hX
    have hb := hbk.1 rfl
    obtain ⟨q, rest, hq⟩ : ∃ q rest, leavesL [] 0 cs = q :: rest := ⟨_, _, by rw [hsplit, hb]; rfl⟩
    have hqs : q = start := by
      rw [hsplit, hb] at hq
      simp only [List.reverse_nil, List.nil_append, List.cons.injEq] at hq
      exact hq.1.symm
    subst hqs
    obtain ⟨_, _, p', i', f1, f2⟩ := first_leaf h hq
    have hrep := (eventsWithTokens_ok h.wf h.ord q last hs hla hgs hgl p' i' f1 (b00 rl) f2).1
    have hlev : Lev 0 (startFac (.ctx rl cs) q) p'.length := by
      refine ⟨by rw [startFac_pop]; exact Nat.le_refl _, ?_⟩
      have h1 := f2.up_length
      have h2 := congrArg List.length (enters_up (α := α) (A := A) (startFac (.ctx rl cs) q).fpush (b00 rl))
      have h3 : pend (b00 (α := α) (A := A) rl) (startFac (.ctx rl cs) q) = (startFac (.ctx rl cs) q).fpush.foldl BState.enter (b00 rl) := by
        unfold pend; rw [startFac_pop]; rfl
      rw [h3] at h1
      simp only [List.length_cons, h1, List.length_append, List.length_reverse, List.length_map] at h2
      have h4 : (b00 (α := α) (A := A) rl).up.length = 0 := rfl
      rw [h4] at h2
      omega
    have hpops := eventsWithTokens_pops q last hs hla p' i' f1 0 hlev
    refine replay_exact h.wf.1 h.ord _ (b00 rl) (y :: Y) ?_ hk.2 ?_ hrep hpops
    · rw [← closeR_events (y :: Y) (b00 rl) hk.2, ← close_eq]
      have := h.tree
      rw [hE] at this
      exact this
    · intro e he
      rcases List.mem_cons.1 he with rfl | he
      · exact ⟨hylx, hd e (by rw [hE]; simp)⟩
      · exact hY e he
  · rw [if_neg hX]
    have hb : ∃ nxt rem, back (.ctx rl cs) start.1 = nxt :: rem := by
      cases hb : back (.ctx rl cs) start.1 with
      | nil => exact absurd (hbk.2 hb) hX
      | cons a r => exact ⟨a, r, rfl⟩
    obtain ⟨nxt, rem, hb⟩ := hb
    have hsf : startFac (.ctx rl cs) start = Factory.init := startFac_init h.ord h.wf.1 hs hb
    have hrep := (eventsWithTokens_ok h.wf h.ord start last hs hla hgs hgl _ _ hp (before rl X y) (by
      rw [hsf, pend_init]; exact c1)).1
    have hpops := eventsWithTokens_pops start last hs hla _ _ hp (before rl X y).up.length (by
      rw [hsf, ← c1.up_length]
      exact ⟨Nat.zero_le _, by simp [Factory.init]⟩)
    refine replay_exact h.wf.1 h.ord _ (before rl X y) _ c2 ?_ ?_ hrep hpops
    · refine ⟨fun t ht => by simp at ht, ?_⟩
      have h2 := hk.2.2
      rw [hl2]
      exact h2
    · intro e he
      rcases List.mem_cons.1 he with rfl | he
      · exact ⟨hylx, fun t ht => by simp at ht⟩
      · exact hY e he

end Parce.RB

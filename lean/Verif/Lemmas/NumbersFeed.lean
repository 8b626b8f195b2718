import Verif.Spec.Numbers
/-!
# The contexts for numbers, as a machine that reads the kinds of words
-/
namespace Parce.Num

/-- The open contexts between root and the current one, the current one first; with each the sum of its values, if it
    has any. -/
abbrev Stk := List (NL × Option Nat)

/-- The numbers that were found, and the open contexts. -/
structure M where
  done : List Nat
  fs : Stk
deriving DecidableEq

/-- The lexicons that are entered (after leaving the current one) when a lexicon reads a word. -/
def accept : NL → Kind → Option (List NL)
  | .n99, .unit _ => some []
  | .n99, .teen _ => some []
  | .n99, .tens _ => some [.p1]
  | .p1, .unit _ => some []
  | .p2, .hundred => some [.n99]
  | .p3, .thousand => some [.p2, .n99]
  | .p6, .million => some [.p3, .p2, .n99]
  | _, _ => none

def factor : NL → Nat
  | .p2 => 100
  | .p3 => 1000
  | .p6 => 1000000
  | _ => 0

/-- The value of a context that ends with a word. -/
def gain (l : NL) (o : Option Nat) : Kind → Nat
  | .unit v => v
  | .teen v => v
  | .tens v => v
  | _ => factor l * o.getD 1

def plus : Option Nat → Option Nat → Option Nat
  | none, y => y
  | x, none => x
  | some x, some y => some (x + y)

/-- Add a value to the current context. -/
def addL (v : Nat) : Stk → Stk
  | [] => []
  | (l, o) :: fs => (l, plus o (some v)) :: fs

/-- In root, the value is one of the numbers. -/
def addM (v : Nat) (m : M) : M := ⟨if m.fs = [] then m.done ++ [v] else m.done, addL v m.fs⟩

def pushM (ls : List NL) (m : M) : M := ⟨m.done, ls.reverse.map (·, none) ++ m.fs⟩

/-- Leave contexts until a word can be read; the value of the one before is `x`. -/
def down (d : List Nat) (x : Option Nat) (k : Kind) : Stk → M ⊕ List Nat
  | [] => .inr (d ++ x.toList)
  | (l, o) :: fs => match accept l k with
    | some ls => .inl (pushM ls (addM (gain l (plus o x) k) ⟨d, fs⟩))
    | none => down d (plus o x) k fs

def fullFs : Stk := [(.n99, none), (.p2, none), (.p3, none), (.p6, none), (.number, none)]

def feed (m : M) (k : Kind) : M := match down m.done none k m.fs with
  | .inl m' => m'
  | .inr d => match down d none k fullFs with
    | .inl m' => m'
    | .inr d => ⟨d, []⟩

/-- Leave all contexts. -/
def closeL (d : List Nat) (x : Option Nat) : Stk → List Nat
  | [] => d ++ x.toList
  | (_, o) :: fs => closeL d (plus o x) fs

def M.close (m : M) : List Nat := closeL m.done none m.fs

/-- What becomes of it when blanks are read. -/
def rest (m : M) : M := match m.fs with
  | [] => ⟨m.done, fullFs⟩
  | [(.number, o)] => ⟨m.done ++ o.toList, fullFs⟩
  | _ => m

def feeds (m : M) (ks : List Kind) : M := ks.foldl feed m

theorem down_full (d : List Nat) (k : Kind) : ∃ m, down d none k fullFs = .inl m := by
  cases k <;> exact ⟨_, rfl⟩

theorem feed_rest (m : M) (k : Kind) : feed (rest m) k = feed m k := by
  obtain ⟨d, fs⟩ := m
  unfold rest
  split
  · next h =>
    simp only at h
    subst h
    obtain ⟨m', hm⟩ := down_full d k
    have : down d none k [] = .inr d := by simp [down]
    simp only [feed, this, hm]
  · next o h =>
    simp only at h
    subst h
    obtain ⟨m', hm⟩ := down_full (d ++ o.toList) k
    have : down d none k [(.number, o)] = .inr (d ++ o.toList) := by
      cases o <;> cases k <;> rfl
    simp only [feed, this, hm]
  · rfl

theorem close_rest (m : M) : (rest m).close = m.close := by
  obtain ⟨d, fs⟩ := m
  unfold rest
  split
  · next h =>
    simp only at h
    subst h
    rfl
  · next o h =>
    simp only at h
    subst h
    cases o <;> simp [M.close, closeL, fullFs, plus]
  · rfl

theorem feed_root (d : List Nat) (k : Kind) : feed ⟨d, []⟩ k = feed ⟨d, fullFs⟩ k := (feed_rest ⟨d, []⟩ k).symm

theorem addL_addL (a b : Nat) (fs : Stk) : addL b (addL a fs) = addL (a + b) fs := by
  cases fs with
  | nil => rfl
  | cons f fs =>
    obtain ⟨l, o⟩ := f
    cases o <;> simp [addL, plus, Nat.add_assoc]

theorem addL_ne {a : Nat} {fs : Stk} (h : fs ≠ []) : addL a fs ≠ [] := by
  cases fs with
  | nil => exact absurd rfl h
  | cons f fs => simp [addL]

theorem addM_ne {a : Nat} {d : List Nat} {fs : Stk} (h : fs ≠ []) : addM a ⟨d, fs⟩ = ⟨d, addL a fs⟩ := by
  simp [addM, h]

/-! ### The grammar -/

/-- For words that the lexicons `ls` do not read, the open contexts are alike. -/
def Sim (ls : List NL) (F G : Stk) : Prop :=
  (∀ d k, (∀ l ∈ ls, accept l k = none) → down d none k F = down d none k G) ∧ ∀ d, closeL d none F = closeL d none G

theorem Sim.mono {ls ls' : List NL} {F G : Stk} (h : Sim ls F G) (hl : ∀ l ∈ ls, l ∈ ls') : Sim ls' F G :=
  ⟨fun d k hk => h.1 d k (fun l hl' => hk l (hl l hl')), h.2⟩

theorem Sim.trans {ls : List NL} {F G H : Stk} (h1 : Sim ls F G) (h2 : Sim ls G H) : Sim ls F H :=
  ⟨fun d k hk => (h1.1 d k hk).trans (h2.1 d k hk), fun d => (h1.2 d).trans (h2.2 d)⟩

theorem plus_none (x : Option Nat) : plus x none = x := by cases x <;> rfl

/-- Contexts without values do not matter. -/
theorem sim_front {ls : List NL} (F : Stk) : ∀ (front : List NL), (∀ l ∈ front, l ∈ ls) → Sim ls (front.map (·, none) ++ F) F := by
  intro front
  induction front with
  | nil => intro _; exact ⟨fun _ _ _ => rfl, fun _ => rfl⟩
  | cons l front ih =>
    intro h
    have hi := ih (fun l' hl' => h l' (List.mem_cons_of_mem _ hl'))
    refine ⟨fun d k hk => ?_, fun d => ?_⟩
    · have := hi.1 d k hk
      simp only [List.map_cons, List.cons_append, down, hk l (h l (List.mem_cons_self ..)), plus]
      exact this
    · have := hi.2 d
      simp only [List.map_cons, List.cons_append, closeL, plus]
      exact this

/-- The value of a context that is left is added to the one below. -/
theorem sim_value {ls : List NL} {l : NL} (hl : l ∈ ls) (a : Nat) {fs : Stk} (hfs : fs ≠ []) : Sim ls ((l, some a) :: fs) (addL a fs) := by
  obtain ⟨⟨l', o⟩, fs, rfl⟩ := List.exists_cons_of_ne_nil hfs
  refine ⟨fun d k hk => ?_, fun d => ?_⟩
  · rw [down]
    simp only [hk l hl, addL]
    rw [down, down]
    cases o <;> rfl
  · simp only [closeL, addL]
    cases o <;> rfl

/-- What reading the words `ks` for the number `a` does: the contexts of `front` are open for them. -/
def Adds (front ls : List NL) (ks : List Kind) (a : Nat) : Prop :=
  ∀ (d : List Nat) (fs : Stk), fs ≠ [] → ∃ F, feeds ⟨d, front.map (·, none) ++ fs⟩ ks = ⟨d, F⟩ ∧ Sim ls F (addL a fs)

theorem adds_99 {ks : List Kind} {a : Nat} (h : To99 ks a) : Adds [.n99] [.n99, .p1] ks a := by
  intro d fs hfs
  cases h with
  | unit v =>
    refine ⟨addL a fs, ?_, fun _ _ _ => rfl, fun _ => rfl⟩
    simp [feeds, feed, down, accept, addM_ne hfs, pushM, gain]
  | teen v =>
    refine ⟨addL a fs, ?_, fun _ _ _ => rfl, fun _ => rfl⟩
    simp [feeds, feed, down, accept, addM_ne hfs, pushM, gain]
  | tens v =>
    refine ⟨(.p1, none) :: addL a fs, ?_, sim_front _ [.p1] (by simp)⟩
    simp [feeds, feed, down, accept, addM_ne hfs, pushM, gain]
  | both v w =>
    refine ⟨addL (v + w) fs, ?_, fun _ _ _ => rfl, fun _ => rfl⟩
    simp [feeds, feed, down, accept, addM_ne hfs, addM_ne (addL_ne hfs), pushM, gain, addL_addL]

theorem feeds_append (m : M) (ks ls : List Kind) : feeds m (ks ++ ls) = feeds (feeds m ks) ls := List.foldl_append

theorem adds_with {S : List Kind → Nat → Prop} {front ls : List NL} {h : Kind} {p : NL} {f : Nat}
    (hS : ∀ ks a, S ks a → Adds front ls ks a) (hacc : accept p h = some front.reverse) (hn : ∀ l ∈ ls, accept l h = none)
    (hfr : ∀ l ∈ front, l ∈ ls) (hg : ∀ o, gain p o h = f * o.getD 1) {ks : List Kind} {a : Nat} (hw : With S h f ks a) :
    Adds (front ++ [p]) (p :: ls) ks a := by
  intro d fs hfs
  have hfront : (front ++ [p]).map (·, (none : Option Nat)) ++ fs = front.map (·, none) ++ ((p, none) :: fs) := by simp
  have hbare : ∀ d, feed ⟨d, front.map (·, none) ++ ((p, none) :: fs)⟩ h = ⟨d, front.map (·, none) ++ addL f fs⟩ := by
    intro d
    have := (sim_front (ls := ls) ((p, none) :: fs) front hfr).1 d h hn
    simp only [feed, this, down, hacc, plus, pushM, List.reverse_reverse, addM_ne hfs, hg, Option.getD_none, Nat.mul_one]
  have htimes : ∀ F d a, Sim ls F ((p, some a) :: fs) → feed ⟨d, F⟩ h = ⟨d, front.map (·, none) ++ addL (f * a) fs⟩ := by
    intro F d a hF
    have := hF.1 d h hn
    simp only [feed, this, down, hacc, plus, pushM, List.reverse_reverse, addM_ne hfs, hg, Option.getD_some]
  have hsub : ∀ l ∈ ls, l ∈ p :: ls := fun l hl => List.mem_cons_of_mem _ hl
  cases hw with
  | plain h1 =>
    obtain ⟨F, hF, hs⟩ := hS _ _ h1 d ((p, none) :: fs) (by simp)
    exact ⟨F, by rw [hfront, hF], (hs.mono hsub).trans (sim_value (List.mem_cons_self ..) a hfs)⟩
  | bare =>
    refine ⟨front.map (·, none) ++ addL f fs, ?_, sim_front _ _ (fun l hl => hsub l (hfr l hl))⟩
    rw [hfront]
    exact hbare d
  | @times ks a h1 =>
    obtain ⟨F, hF, hs⟩ := hS _ _ h1 d ((p, none) :: fs) (by simp)
    refine ⟨front.map (·, none) ++ addL (f * a) fs, ?_, sim_front _ _ (fun l hl => hsub l (hfr l hl))⟩
    rw [hfront, feeds_append, hF]
    exact htimes F d a hs
  | @bareAnd ls' b h1 =>
    obtain ⟨F, hF, hs⟩ := hS _ _ h1 d (addL f fs) (addL_ne hfs)
    rw [addL_addL] at hs
    refine ⟨F, ?_, hs.mono hsub⟩
    rw [hfront]
    show feeds (feed _ h) ls' = _
    rw [hbare d, hF]
  | @timesAnd ks ls' a b h1 h2 =>
    obtain ⟨F, hF, hs⟩ := hS _ _ h1 d ((p, none) :: fs) (by simp)
    obtain ⟨F', hF', hs'⟩ := hS _ _ h2 d (addL (f * a) fs) (addL_ne hfs)
    rw [addL_addL] at hs'
    refine ⟨F', ?_, hs'.mono hsub⟩
    rw [hfront, feeds_append, hF]
    show feeds (feed _ h) ls' = _
    rw [htimes F d a hs, hF']

theorem phrase_adds {ks : List Kind} {n : Nat} (h : Phrase ks n) : Adds [.n99, .p2, .p3, .p6] [.p6, .p3, .p2, .n99, .p1] ks n := by
  have h1 : ∀ ks a, ToHundreds ks a → Adds [.n99, .p2] [.p2, .n99, .p1] ks a := fun ks a hk =>
    adds_with (fun _ _ => adds_99) rfl (by decide) (by decide) (fun _ => rfl) hk
  have h2 : ∀ ks a, ToThousands ks a → Adds [.n99, .p2, .p3] [.p3, .p2, .n99, .p1] ks a := fun ks a hk =>
    adds_with h1 rfl (by decide) (by decide) (fun _ => rfl) hk
  exact adds_with h2 rfl (by decide) (by decide) (fun _ => rfl) h

theorem with_ne {S : List Kind → Nat → Prop} {h : Kind} {f : Nat} (hS : ∀ ks a, S ks a → ks ≠ []) {ks : List Kind} {a : Nat}
    (hw : With S h f ks a) : ks ≠ [] := by
  cases hw with
  | plain h1 => exact hS _ _ h1
  | bare => simp
  | times h1 => simp
  | bareAnd h1 => simp
  | timesAnd h1 h2 => simp

theorem phrase_ne {ks : List Kind} {n : Nat} (h : Phrase ks n) : ks ≠ [] :=
  with_ne (fun _ _ => with_ne (fun _ _ => with_ne (fun _ _ h => by cases h <;> simp))) h

theorem feeds_phrase {ks : List Kind} {n : Nat} (h : Phrase ks n) (d : List Nat) : (feeds ⟨d, []⟩ ks).close = d ++ [n] := by
  obtain ⟨F, hF, hs⟩ := phrase_adds h d [(.number, none)] (by simp)
  have : feeds ⟨d, []⟩ ks = feeds ⟨d, fullFs⟩ ks := by
    obtain ⟨k, ks, rfl⟩ := List.exists_cons_of_ne_nil (phrase_ne h)
    show feeds (feed _ k) ks = feeds (feed _ k) ks
    rw [feed_root]
  rw [this]
  have h2 : feeds ⟨d, fullFs⟩ ks = ⟨d, F⟩ := hF
  rw [h2]
  show closeL d none F = _
  rw [hs.2 d]
  simp [closeL, addL, plus]

/-! ### The order of the contexts -/

def rank : NL → Nat
  | .n99 => 0
  | .p1 => 0
  | .p2 => 1
  | .p3 => 2
  | .p6 => 3
  | .number => 4
  | .root => 5

/-- The contexts are below each other in the order of their rank, and those for numbers below hundred have no values. -/
def Wf (fs : Stk) : Prop := fs.Pairwise (fun x y => rank x.1 < rank y.1) ∧ (∀ x ∈ fs, rank x.1 = 0 → x.2 = none) ∧
  (∀ x ∈ fs, x.1 ≠ .root)

theorem wf_full : Wf fullFs := by
  refine ⟨?_, by decide, by decide⟩
  unfold fullFs
  decide

theorem wf_nil : Wf [] := ⟨List.Pairwise.nil, by simp, by simp⟩

theorem wf_tail {x : NL × Option Nat} {fs : Stk} (h : Wf (x :: fs)) : Wf fs :=
  ⟨(List.pairwise_cons.1 h.1).2, fun y hy => h.2.1 y (List.mem_cons_of_mem _ hy), fun y hy => h.2.2 y (List.mem_cons_of_mem _ hy)⟩

theorem addL_lex (v : Nat) (fs : Stk) : (addL v fs).map (·.1) = fs.map (·.1) := by
  cases fs <;> rfl

theorem pairwise_lex (fs : Stk) : fs.Pairwise (fun x y => rank x.1 < rank y.1) ↔ (fs.map (·.1)).Pairwise (fun x y => rank x < rank y) := by
  rw [List.pairwise_map]

theorem wf_addL {v : Nat} {fs : Stk} (h : Wf fs) (hr : ∀ x ∈ fs, 0 < rank x.1) : Wf (addL v fs) := by
  refine ⟨?_, ?_, ?_⟩
  · rw [pairwise_lex, addL_lex, ← pairwise_lex]; exact h.1
  · cases fs with
    | nil => simp [addL]
    | cons f fs =>
      intro x hx h0
      simp only [addL, List.mem_cons] at hx
      rcases hx with rfl | hx
      · have := hr f (List.mem_cons_self ..); simp only at h0; omega
      · exact h.2.1 x (List.mem_cons_of_mem _ hx) h0
  · intro x hx
    have : x.1 ∈ (addL v fs).map (·.1) := List.mem_map.2 ⟨x, hx, rfl⟩
    rw [addL_lex] at this
    obtain ⟨y, hy, he⟩ := List.mem_map.1 this
    rw [← he]
    exact h.2.2 y hy

/-- What is entered has a lower rank than what is left. -/
theorem accept_rank {l : NL} {k : Kind} {ls : List NL} (h : accept l k = some ls) :
    (ls.reverse.Pairwise (fun x y => rank x < rank y)) ∧ (∀ x ∈ ls, rank x ≤ rank l) ∧ l ≠ .number ∧ l ≠ .root ∧ (∀ x ∈ ls, x ≠ .root) := by
  cases l <;> cases k <;> simp only [accept, Option.some.injEq, reduceCtorEq] at h <;> subst h <;> decide

theorem wf_hit {l : NL} {o : Option Nat} {fs : Stk} {k : Kind} {ls : List NL} {d : List Nat} {v : Nat} (h : Wf ((l, o) :: fs))
    (ha : accept l k = some ls) : Wf (pushM ls (addM v ⟨d, fs⟩)).fs := by
  obtain ⟨h1, h2, _, _, h3⟩ := accept_rank ha
  have hp := List.pairwise_cons.1 h.1
  have hpos : ∀ x ∈ fs, 0 < rank x.1 := fun x hx => by have := hp.1 x hx; simp only at this; omega
  have hw := wf_addL (v := v) (wf_tail h) hpos
  simp only [pushM, addM]
  refine ⟨?_, ?_, ?_⟩
  · rw [List.pairwise_append]
    refine ⟨by rw [List.pairwise_map]; exact h1, hw.1, fun x hx y hy => ?_⟩
    obtain ⟨x', hx', rfl⟩ := List.mem_map.1 hx
    have hy' : y.1 ∈ (addL v fs).map (·.1) := List.mem_map.2 ⟨y, hy, rfl⟩
    rw [addL_lex] at hy'
    obtain ⟨z, hz, he⟩ := List.mem_map.1 hy'
    have := hp.1 z hz
    have h4 := h2 x' (List.mem_reverse.1 hx')
    simp only at this ⊢
    rw [← he]
    omega
  · intro x hx h0
    rcases List.mem_append.1 hx with hx | hx
    · obtain ⟨x', _, rfl⟩ := List.mem_map.1 hx
      rfl
    · exact hw.2.1 x hx h0
  · intro x hx
    rcases List.mem_append.1 hx with hx | hx
    · obtain ⟨x', hx', rfl⟩ := List.mem_map.1 hx
      exact h3 x' (List.mem_reverse.1 hx')
    · exact hw.2.2 x hx

theorem wf_down {k : Kind} {d : List Nat} {fs : Stk} : ∀ {x : Option Nat} {m : M}, Wf fs → down d x k fs = .inl m → Wf m.fs := by
  induction fs with
  | nil => intro x m _ h; simp [down] at h
  | cons f fs ih =>
    intro x m hw h
    obtain ⟨l, o⟩ := f
    rw [down] at h
    cases ha : accept l k with
    | none => rw [ha] at h; exact ih (wf_tail hw) h
    | some ls =>
      rw [ha] at h
      simp only [Sum.inl.injEq] at h
      subst h
      exact wf_hit hw ha

theorem wf_feed {m : M} (h : Wf m.fs) (k : Kind) : Wf (feed m k).fs := by
  unfold feed
  split
  · next m' hm => exact wf_down h hm
  · next d hd =>
    split
    · next m' hm => exact wf_down wf_full hm
    · exact wf_nil

theorem wf_feeds (ks : List Kind) : ∀ {m : M}, Wf m.fs → Wf (feeds m ks).fs := by
  induction ks with
  | nil => intro m h; exact h
  | cons k ks ih => intro m h; exact ih (wf_feed h k)

theorem wf_rest {m : M} (h : Wf m.fs) : Wf (rest m).fs := by
  unfold rest
  split
  · exact wf_full
  · exact wf_full
  · exact h

/-! ### Numbers after each other -/

/-- No context reads the word. -/
theorem down_none {k : Kind} {d : List Nat} {fs : Stk} (h : ∀ x ∈ fs, accept x.1 k = none) : ∀ x, down d x k fs = .inr (closeL d x fs) := by
  induction fs with
  | nil => intro x; rfl
  | cons f fs ih =>
    intro x
    rw [down, h f (List.mem_cons_self ..)]
    exact ih (fun y hy => h y (List.mem_cons_of_mem _ hy)) _

/-- The contexts after a word, if a following word may stand apart. -/
theorem apart_hit {a b : Kind} (hab : Apart a b) {l : NL} {o : Option Nat} {fs : Stk} {ls : List NL} {d : List Nat} {v : Nat}
    (h : Wf ((l, o) :: fs)) (ha : accept l a = some ls) : ∀ x ∈ (pushM ls (addM v ⟨d, fs⟩)).fs, accept x.1 b = none := by
  have hp := List.pairwise_cons.1 h.1
  have hfs : ∀ l', l' ∈ fs.map (·.1) → accept l' b = none := by
    intro l' hl'
    obtain ⟨z, hz, rfl⟩ := List.mem_map.1 hl'
    have := hp.1 z hz
    simp only at this
    cases hz1 : z.1 <;> rw [hz1] at this <;> cases a <;> cases b <;> first | exact hab.elim | rfl | (simp [rank] at this)
  intro x hx
  simp only [pushM, addM] at hx
  rcases List.mem_append.1 hx with hx | hx
  · obtain ⟨x', hx', rfl⟩ := List.mem_map.1 hx
    cases l <;> cases a <;> simp only [accept, Option.some.injEq, reduceCtorEq] at ha <;> subst ha <;>
      simp only [List.reverse_nil, List.not_mem_nil, List.reverse_cons, List.nil_append, List.mem_cons, or_false] at hx' <;>
      first | (subst hx'; cases b <;> first | exact hab.elim | rfl) | (cases b <;> exact hab.elim)
  · refine hfs x.1 ?_
    rw [← addL_lex v]
    exact List.mem_map.2 ⟨x, hx, rfl⟩

theorem apart_down {a b : Kind} (hab : Apart a b) {d : List Nat} {fs : Stk} : ∀ {x : Option Nat} {m : M}, Wf fs →
    down d x a fs = .inl m → ∀ x ∈ m.fs, accept x.1 b = none := by
  induction fs with
  | nil => intro x m _ h; simp [down] at h
  | cons f fs ih =>
    intro x m hw h
    obtain ⟨l, o⟩ := f
    rw [down] at h
    cases ha : accept l a with
    | none => rw [ha] at h; exact ih (wf_tail hw) h
    | some ls =>
      rw [ha] at h
      simp only [Sum.inl.injEq] at h
      subst h
      exact apart_hit hab hw ha

theorem apart_feed {a b : Kind} (hab : Apart a b) {m : M} (h : Wf m.fs) : feed (feed m a) b = feed ⟨(feed m a).close, []⟩ b := by
  have hx : ∀ x ∈ (feed m a).fs, accept x.1 b = none := by
    unfold feed
    split
    · next m' hm => exact apart_down hab h hm
    · next d hd =>
      split
      · next m' hm => exact apart_down hab wf_full hm
      · intro x hx; simp at hx
  have h1 := down_none (d := (feed m a).done) hx none
  generalize feed m a = m1 at *
  show (match down m1.done none b m1.fs with
    | .inl m' => m'
    | .inr d => match down d none b fullFs with
      | .inl m' => m'
      | .inr d => ⟨d, []⟩) = _
  rw [h1]
  have h2 : down m1.close none b [] = .inr (closeL m1.done none m1.fs) := by simp [down, M.close]
  show _ = (match down m1.close none b [] with
    | .inl m' => m'
    | .inr d => match down d none b fullFs with
      | .inl m' => m'
      | .inr d => ⟨d, []⟩)
  rw [h2]

theorem feeds_numbers {R : Kind → Kind → Prop} (hR : ∀ a b, R a b → Apart a b) {ns : List Nat} {ks : List Kind} (h : Numbers R ns ks) : ∀ d, (feeds ⟨d, []⟩ ks).close = d ++ ns := by
  induction h with
  | nil => intro d; simp [feeds, M.close, closeL]
  | @cons ks ls n ns hp _ hab ih =>
    intro d
    have h1 := feeds_phrase hp d
    rw [feeds_append]
    cases ls with
    | nil =>
      have := ih (d ++ [n])
      show (feeds ⟨d, []⟩ ks).close = _
      have h2 : d ++ [n] = d ++ [n] ++ ns := by simpa [feeds, M.close, closeL] using this
      rw [h1, h2, List.append_assoc]
      rfl
    | cons b ls =>
      obtain ⟨ks', a, rfl⟩ : ∃ ks' a, ks = ks' ++ [a] := ⟨_, _, (List.dropLast_concat_getLast (phrase_ne hp)).symm⟩
      have hab' : Apart a b := hR a b (hab a (by simp) b (by simp))
      rw [feeds_append] at h1 ⊢
      have h3 := apart_feed hab' (m := feeds ⟨d, []⟩ ks') (wf_feeds ks' wf_nil)
      have h4 : (feed (feeds ⟨d, []⟩ ks') a).close = d ++ [n] := h1
      have h5 := ih (d ++ [n])
      show (feeds (feed (feed (feeds ⟨d, []⟩ ks') a) b) ls).close = _
      rw [h3, h4]
      have h6 : feeds (feed ⟨d ++ [n], []⟩ b) ls = feeds ⟨d ++ [n], []⟩ (b :: ls) := rfl
      rw [h6, h5]
      simp

end Parce.Num

import Verif.Lemmas.RegexReads
/-!
# Lemmas for the order in which an expression matches
-/
namespace Parce.Rx

/-! ## Lists where only the first suitable member counts -/

def LSame {β : Type} (l m : List β) : Prop := ∀ f, l.find? f = m.find? f

theorem LSame.refl {β : Type} (l : List β) : LSame l l := fun _ => rfl

theorem LSame.symm {β : Type} {l m : List β} (h : LSame l m) : LSame m l := fun f => (h f).symm

theorem LSame.trans {β : Type} {l m n : List β} (h : LSame l m) (h' : LSame m n) : LSame l n := fun f => (h f).trans (h' f)

theorem LSame.mem {l m : List Word} (h : LSame l m) {x : Word} (hx : x ∈ l) : x ∈ m := by
  have h1 : (l.find? (fun y => y == x)).isSome := List.find?_isSome.2 ⟨x, hx, by simp⟩
  rw [h, List.find?_isSome] at h1
  obtain ⟨y, hy, he⟩ := h1
  have : y = x := by simpa using he
  rwa [← this]

theorem LSame.append {β : Type} {l l' m m' : List β} (h : LSame l l') (h' : LSame m m') : LSame (l ++ m) (l' ++ m') := by
  intro f
  rw [List.find?_append, List.find?_append, h f, h' f]

theorem findSome_find {β γ : Type} (h : β → Option γ) : (l : List β) →
    l.findSome? h = (l.find? (fun x => (h x).isSome)).bind h
  | [] => rfl
  | x :: l => by
    rw [List.findSome?_cons, List.find?_cons]
    cases hx : h x with
    | none => simpa [hx] using findSome_find h l
    | some y => simp [hx]

theorem find_flatMap {β γ : Type} (g : β → List γ) (f : γ → Bool) : (l : List β) →
    (l.flatMap g).find? f = l.findSome? (fun x => (g x).find? f)
  | [] => rfl
  | x :: l => by
    rw [List.flatMap_cons, List.find?_append, List.findSome?_cons, find_flatMap g f l]
    cases (g x).find? f <;> rfl

theorem LSame.flatMap {β γ : Type} {l l' : List β} {g g' : β → List γ} (h : LSame l l') (h' : ∀ x, LSame (g x) (g' x)) :
    LSame (l.flatMap g) (l'.flatMap g') := by
  intro f
  rw [find_flatMap, find_flatMap]
  have : (fun x => (g x).find? f) = fun x => (g' x).find? f := funext (fun x => h' x f)
  rw [this, findSome_find, findSome_find, h]

/-- What comes again later does not count. -/
theorem LSame.absorb {l m : List Word} (h : ∀ y ∈ m, y ∈ l) : LSame (l ++ m) l := by
  intro f
  rw [List.find?_append]
  cases hl : l.find? f with
  | some x => rfl
  | none =>
    rw [List.find?_eq_none] at hl
    have : m.find? f = none := List.find?_eq_none.2 (fun y hy => hl y (h y hy))
    rw [this]
    rfl

theorem const_list {β : Type} {l : List β} (h : ∀ x ∈ l, ∀ y ∈ l, x = y) : l = [] ∨ ∃ x ∈ l, LSame l [x] := by
  cases l with
  | nil => exact Or.inl rfl
  | cons x l =>
    refine Or.inr ⟨x, List.mem_cons_self, fun f => ?_⟩
    cases hf : f x with
    | true => simp [hf]
    | false =>
      have : l.find? f = none := List.find?_eq_none.2 (fun y hy => by
        rw [← h x List.mem_cons_self y (List.mem_cons_of_mem _ hy), hf]; simp)
      simp [hf, this]

/-! ## Expressions that match in the same order -/

def Same (a b : Pat Char) : Prop := ∀ r, LSame (rems a r) (rems b r)

theorem Same.refl (a : Pat Char) : Same a a := fun _ => .refl _

theorem Same.symm {a b : Pat Char} (h : Same a b) : Same b a := fun r => (h r).symm

theorem Same.trans {a b c : Pat Char} (h : Same a b) (h' : Same b c) : Same a c := fun r => (h r).trans (h' r)

theorem Same.of_eq {a b : Pat Char} (h : ∀ r, rems a r = rems b r) : Same a b := fun r => by rw [h r]; exact .refl _

theorem Same.cat {a a' b b' : Pat Char} (h : Same a a') (h' : Same b b') : Same (.cat a b) (.cat a' b') :=
  fun r => (h r).flatMap h'

theorem Same.alt {a a' b b' : Pat Char} (h : Same a a') (h' : Same b b') : Same (.alt a b) (.alt a' b') :=
  fun r => (h r).append (h' r)

theorem same_assoc (a b c : Pat Char) : Same (.cat (.cat a b) c) (.cat a (.cat b c)) :=
  .of_eq (fun r => by simp only [rems, List.flatMap_assoc])

theorem same_cat_eps (a : Pat Char) : Same (.cat a .eps) a :=
  .of_eq (fun r => by
    simp only [rems]
    induction rems a r with
    | nil => rfl
    | cons x l ih => rw [List.flatMap_cons, ih]; rfl)

theorem same_eps_cat (a : Pat Char) : Same (.cat .eps a) a :=
  .of_eq (fun r => by simp [rems])

theorem same_alt_cat (a b c : Pat Char) : Same (.cat (.alt a b) c) (.alt (.cat a c) (.cat b c)) :=
  .of_eq (fun r => by simp only [rems, List.flatMap_append])

theorem same_absorb {a b : Pat Char} (h : ∀ r, ∀ x ∈ rems b r, x ∈ rems a r) : Same (.alt a b) a :=
  fun r => .absorb (h r)

theorem same_alt_assoc (a b c : Pat Char) : Same (.alt (.alt a b) c) (.alt a (.alt b c)) :=
  .of_eq (fun r => by simp only [rems, List.append_assoc])

theorem Same.sem {a b : Pat Char} (h : Same a b) {L : Lang} (hs : Sem a L) : Sem b L := by
  intro r x
  rw [← hs r x]
  exact ⟨fun hx => (h r).symm.mem hx, fun hx => (h r).mem hx⟩

/-- At any place only one match, if any. -/
def Const (a : Pat Char) : Prop := ∀ r, ∀ x ∈ rems a r, ∀ y ∈ rems a r, x = y

theorem const_distrib {a : Pat Char} (h : Const a) (b c : Pat Char) :
    Same (.cat a (.alt b c)) (.alt (.cat a b) (.cat a c)) := by
  intro r
  simp only [rems]
  rcases const_list (h r) with h | ⟨x, _, h⟩
  · rw [h]; exact .refl _
  · have e : ∀ b : Pat Char, LSame ((rems a r).flatMap (rems b)) (rems b x) := fun b =>
      (h.flatMap (fun _ => .refl _)).trans (by simp only [List.flatMap_cons, List.flatMap_nil, List.append_nil]; exact .refl _)
    exact (e (.alt b c)).trans ((e b).append (e c)).symm

/-- The set has no word that starts with another one. -/
def PrefixFree (L : Lang) : Prop := ∀ u v, L u → L v → u <+: v → u = v

theorem sem_const {a : Pat Char} {L : Lang} (hs : Sem a L) (hp : PrefixFree L) : Const a := by
  intro r x hx y hy
  obtain ⟨u, rfl, hu⟩ := (hs _ _).1 hx
  obtain ⟨v, he, hv⟩ := (hs _ _).1 hy
  have h1 : u <+: u ++ x := List.prefix_append _ _
  have h2 : v <+: u ++ x := by rw [he]; exact List.prefix_append _ _
  have : u = v := by
    rcases Nat.le_total u.length v.length with h | h
    · exact hp u v hu hv (List.prefix_of_prefix_length_le h1 h2 h)
    · exact (hp v u hv hu (List.prefix_of_prefix_length_le h2 h1 h)).symm
  subst this
  exact List.append_cancel_left he

theorem const_same {a b : Pat Char} {L : Lang} (ha : Sem a L) (hb : Sem b L) (hp : PrefixFree L) : Same a b := by
  intro r
  rcases const_list (sem_const ha hp r) with h | ⟨x, hx, h⟩
  · have : rems b r = [] := List.eq_nil_iff_forall_not_mem.2 (fun y hy => by
      rw [hb, ← ha, h] at hy; simp at hy)
    rw [h, this]; exact .refl _
  · have hx' := hx
    rw [ha, ← hb] at hx'
    rcases const_list (sem_const hb hp r) with h' | ⟨y, hy, h'⟩
    · rw [h'] at hx'; simp at hx'
    · rw [sem_const hb hp r x hx' y hy] at h
      exact h.trans h'.symm

/-! ## Counts -/

theorem same_times_add (a : Pat Char) : (m n : Nat) → Same (.cat (a.times m) (a.times n)) (a.times (m + n))
  | 0, n => by rw [Nat.zero_add]; exact same_eps_cat _
  | m + 1, n => by
    have : m + 1 + n = (m + n) + 1 := by omega
    rw [this]
    exact (same_assoc _ _ _).trans ((Same.refl a).cat (same_times_add a m n))

theorem upTo_comm {a : Pat Char} (h : Const a) : (n : Nat) → Same (.cat (a.upTo n) a) (.cat a (a.upTo n))
  | 0 => (same_eps_cat _).trans (same_cat_eps _).symm
  | n + 1 => by
    refine (same_alt_cat _ _ _).trans ?_
    refine Same.trans ?_ (const_distrib h _ _).symm
    refine Same.alt ?_ ((same_eps_cat _).trans (same_cat_eps _).symm)
    exact (same_assoc _ _ _).trans ((Same.refl a).cat (upTo_comm h n))

theorem upTo_times {a : Pat Char} (h : Const a) (n : Nat) : (m : Nat) →
    Same (.cat (a.upTo n) (a.times m)) (.cat (a.times m) (a.upTo n))
  | 0 => (same_cat_eps _).trans (same_eps_cat _).symm
  | m + 1 => by
    have h1 : Same (.cat (a.upTo n) (a.times (m + 1))) (.cat (.cat a (a.upTo n)) (a.times m)) :=
      (same_assoc _ _ _).symm.trans ((upTo_comm h n).cat (.refl _))
    have h2 : Same (.cat (.cat a (a.upTo n)) (a.times m)) (.cat a (.cat (a.times m) (a.upTo n))) :=
      (same_assoc _ _ _).trans ((Same.refl a).cat (upTo_times h n m))
    exact (h1.trans h2).trans (same_assoc _ _ _).symm

theorem upTo_mono (a : Pat Char) : (m n : Nat) → m ≤ n → ∀ r, ∀ x ∈ rems (a.upTo m) r, x ∈ rems (a.upTo n) r
  | 0, n, _, r, x, hx => by
    cases n with
    | zero => exact hx
    | succ n => exact List.mem_append_right _ hx
  | m + 1, 0, h, _, _, _ => by omega
  | m + 1, n + 1, h, r, x, hx => by
    rcases List.mem_append.1 hx with hx | hx
    · refine List.mem_append_left _ ?_
      simp only [rems, List.mem_flatMap] at hx ⊢
      obtain ⟨y, hy, hx⟩ := hx
      exact ⟨y, hy, upTo_mono a m n (by omega) y x hx⟩
    · exact List.mem_append_right _ hx

theorem upTo_add (a : Pat Char) : (m n : Nat) → Same (.cat (a.upTo m) (a.upTo n)) (a.upTo (m + n))
  | 0, n => by rw [Nat.zero_add]; exact same_eps_cat _
  | m + 1, n => by
    have : m + 1 + n = (m + n) + 1 := by omega
    rw [this]
    refine (same_alt_cat _ _ _).trans ?_
    refine Same.trans (((same_assoc _ _ _).trans ((Same.refl a).cat (upTo_add a m n))).alt (same_eps_cat _)) ?_
    cases n with
    | zero => exact .refl _
    | succ k =>
      refine (same_alt_assoc _ _ _).symm.trans ?_
      refine Same.alt (same_absorb (fun r x hx => ?_)) (.refl _)
      simp only [rems, List.mem_flatMap] at hx ⊢
      obtain ⟨y, hy, hx⟩ := hx
      exact ⟨y, hy, upTo_mono a k (m + (k + 1)) (by omega) y x hx⟩

/-- At least `lo` and at most `hi` times. -/
def rep (a : Pat Char) (lo hi : Nat) : Pat Char := .cat (a.times lo) (a.upTo (hi - lo))

theorem rep_cat_same {a : Pat Char} (h : Const a) {lo hi lo' hi' : Nat} (h1 : lo ≤ hi) (h2 : lo' ≤ hi') :
    Same (.cat (rep a lo hi) (rep a lo' hi')) (rep a (lo + lo') (hi + hi')) := by
  unfold rep
  have e : hi + hi' - (lo + lo') = (hi - lo) + (hi' - lo') := by omega
  rw [e]
  refine (same_assoc _ _ _).trans ?_
  refine ((Same.refl _).cat (same_assoc _ _ _).symm).trans ?_
  refine ((Same.refl _).cat ((upTo_times h _ _).cat (.refl _))).trans ?_
  refine ((Same.refl _).cat (same_assoc _ _ _)).trans ?_
  refine (same_assoc _ _ _).symm.trans ?_
  exact (same_times_add a _ _).cat (upTo_add a _ _)

theorem times_congr {a b : Pat Char} (h : Same a b) : (n : Nat) → Same (a.times n) (b.times n)
  | 0 => .refl _
  | n + 1 => h.cat (times_congr h n)

theorem upTo_congr {a b : Pat Char} (h : Same a b) : (n : Nat) → Same (a.upTo n) (b.upTo n)
  | 0 => .refl _
  | n + 1 => (h.cat (upTo_congr h n)).alt (.refl _)

theorem rep_congr {a b : Pat Char} (h : Same a b) (lo hi : Nat) : Same (rep a lo hi) (rep b lo hi) :=
  (times_congr h _).cat (upTo_congr h _)

theorem rep_one_same (a : Pat Char) : Same (rep a 1 1) a :=
  (same_cat_eps _).trans (same_cat_eps _)

theorem rep_opt_same (a : Pat Char) : Same (rep a 0 1) a.opt :=
  (same_eps_cat _).trans ((same_cat_eps _).alt (.refl _))

/-- An optional count of at most one. -/
theorem rep_or_eps (a : Pat Char) {lo hi : Nat} (h : lo ≤ 1) (hle : lo ≤ hi) (hhi : 1 ≤ hi) :
    Same (.alt (rep a lo hi) .eps) (rep a 0 hi) := by
  match lo, h with
  | 0, _ =>
    refine same_absorb (fun r x hx => ?_)
    simp only [rep, Pat.times, rems, List.flatMap_cons, List.flatMap_nil, List.append_nil, Nat.sub_zero]
    exact upTo_mono a 0 hi (by omega) r x hx
  | 1, _ =>
    obtain ⟨k, rfl⟩ : ∃ k, hi = k + 1 := ⟨hi - 1, by omega⟩
    refine Same.trans ?_ (same_eps_cat _).symm
    exact Same.alt ((same_cat_eps a).cat (.refl _)) (.refl _)

theorem sem_rep {a : Pat Char} {L : Lang} (h : Sem a L) {lo hi : Nat} (hle : lo ≤ hi) : Sem (rep a lo hi) (L.rep lo hi) :=
  sem_between h hle

/-! ## Expressions that prefer a longer match -/

/-- Among the suitable ones the first is the shortest (of what remains). -/
def GoodL (l : List Word) : Prop := ∀ f x, l.find? f = some x → ∀ y ∈ l, f y = true → x.length ≤ y.length

def Good (a : Pat Char) : Prop := ∀ r, GoodL (rems a r)

theorem goodL_congr {l m : List Word} (h : LSame l m) (hg : GoodL l) : GoodL m := by
  intro f x hx y hy hf
  rw [← h f] at hx
  exact hg f x hx y (h.symm.mem hy) hf

theorem Good.congr {a b : Pat Char} (hg : Good a) (h : Same a b) : Good b := fun r => goodL_congr (h r) (hg r)

theorem goodL_nil : GoodL [] := fun f x h => by simp at h

theorem goodL_one (x : Word) : GoodL [x] := by
  intro f y hy z hz _
  have h1 := List.mem_of_find?_eq_some hy
  simp only [List.mem_singleton] at h1 hz
  rw [h1, hz]
  exact Nat.le_refl _

theorem Const.good {a : Pat Char} (h : Const a) : Good a := by
  intro r
  rcases const_list (h r) with h | ⟨x, _, h⟩
  · rw [h]; exact goodL_nil
  · exact goodL_congr h.symm (goodL_one x)

theorem Const.cat_good {a b : Pat Char} (h : Const a) (hb : Good b) : Good (.cat a b) := by
  intro r
  simp only [rems]
  rcases const_list (h r) with h | ⟨x, _, h⟩
  · rw [h]; exact goodL_nil
  · have e : LSame ((rems a r).flatMap (rems b)) (rems b x) :=
      (h.flatMap (fun _ => .refl _)).trans (by simp only [List.flatMap_cons, List.flatMap_nil, List.append_nil]; exact .refl _)
    exact goodL_congr e.symm (hb x)

theorem Good.opt {a : Pat Char} (h : Good a) : Good (.alt a .eps) := by
  intro r f x hx y hy hf
  simp only [rems, List.find?_append] at hx
  simp only [rems, List.mem_append, List.mem_singleton] at hy
  cases hl : (rems a r).find? f with
  | some z =>
    rw [hl] at hx
    simp only [Option.some_or, Option.some.injEq] at hx
    subst hx
    rcases hy with hy | rfl
    · exact h r f z hl y hy hf
    · exact (rems_suffix (List.mem_of_find?_eq_some hl)).length_le
  | none =>
    rw [hl] at hx
    simp only [Option.none_or] at hx
    have h1 := List.mem_of_find?_eq_some hx
    simp only [List.mem_singleton] at h1
    rcases hy with hy | rfl
    · exact absurd hf (List.find?_eq_none.1 hl y hy)
    · rw [h1]; exact Nat.le_refl _

/-- A fixed word at the end. -/
theorem Good.cat_word {a b : Pat Char} (h : Good a) {s : Word} (hb : Sem b (fun w => w = s)) : Good (.cat a b) := by
  intro r f z hz z' hz' hf
  simp only [rems] at hz hz'
  rw [find_flatMap, findSome_find] at hz
  obtain ⟨x', hx', hz'⟩ := List.mem_flatMap.1 hz'
  cases hl : (rems a r).find? (fun x => ((rems b x).find? f).isSome) with
  | none => rw [hl] at hz; simp at hz
  | some x =>
    rw [hl] at hz
    simp only [Option.bind_some] at hz
    have h1 := h r _ x hl x' hx' (by
      simp only [List.find?_isSome]
      exact ⟨z', hz', hf⟩)
    obtain ⟨u, rfl, rfl⟩ := (hb _ _).1 (List.mem_of_find?_eq_some hz)
    obtain ⟨v, rfl, rfl⟩ := (hb _ _).1 hz'
    simp only [List.length_append] at h1
    omega

/-- Alternatives of which only one can match. -/
theorem Good.alt_disjoint {a b : Pat Char} (ha : Good a) (hb : Good b) (h : ∀ r, rems a r = [] ∨ rems b r = []) :
    Good (.alt a b) := by
  intro r
  simp only [rems]
  rcases h r with h | h
  · rw [h, List.nil_append]; exact hb r
  · rw [h, List.append_nil]; exact ha r

end Parce.Rx

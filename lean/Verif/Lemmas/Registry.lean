import Verif.Spec.Registry

/-
Lemmas about the registry.
-/

namespace Parce.Reg

/-! ## class names -/

theorem splitDot_ne_nil : (s : Str) → splitDot s ≠ []
  | [] => by simp [splitDot]
  | c :: s => by
    unfold splitDot
    split
    · simp
    · split <;> simp

theorem splitDot_dotfree : (s : Str) → '.' ∉ s → splitDot s = [s]
  | [], _ => rfl
  | c :: s, h => by
    have h1 : c ≠ '.' := fun e => h (by simp [e])
    have h2 : '.' ∉ s := fun e => h (by simp [e])
    rw [splitDot, if_neg h1, splitDot_dotfree s h2]

theorem splitDot_append : (a b : Str) → splitDot (a ++ '.' :: b) = splitDot a ++ splitDot b
  | [], b => by simp [splitDot]
  | c :: a, b => by
    rw [List.cons_append, splitDot, splitDot_append a b]
    rw [splitDot]
    split
    · simp
    · cases h : splitDot a with
      | nil => exact absurd h (splitDot_ne_nil a)
      | cons w ws => rfl

theorem className_eq {q c : Str} (h : HasClass q c) : className q = some c := by
  obtain ⟨m, l, hc, hl, rfl⟩ := h
  unfold className
  rw [splitDot_append (m ++ '.' :: c) l, splitDot_append m c, splitDot_dotfree c hc, splitDot_dotfree l hl]
  have hm := splitDot_ne_nil m
  obtain ⟨x, xs, hx⟩ : ∃ x xs, (splitDot m).reverse = x :: xs := by
    cases hx : (splitDot m).reverse with
    | nil => simp at hx; exact absurd hx hm
    | cons x xs => exact ⟨x, xs, rfl⟩
  simp [hx]

/-! ## qualname -/

variable {lower : Str → Str} {name : Str}

def isAlias (name : Str) (x : Str × Entry) : Bool := decide (name ∈ x.2.aliases)

def isNocase (lower : Str → Str) (name : Str) (x : Str × Entry) : Bool :=
  decide (lower name = lower x.2.name ∨ x.2.aliases.any (fun a => lower a == lower name))

def isClass (lower : Str → Str) (name : Str) (x : Str × Entry) : Bool :=
  (className x.1).any (fun c => lower name == lower c)

theorem qualnameLoop_eq : (r : Registry) → (as ns cs : List Str) → (∀ x ∈ r, (className x.1).isSome) →
    qualnameLoop lower name r as ns cs = .ok (match r.find? (fun x => name == x.2.name) with
      | some x => some x.1
      | none => ((as ++ (r.filter (isAlias name)).map (·.1)) ++ (ns ++ (r.filter (isNocase lower name)).map (·.1)) ++
          (cs ++ (r.filter (isClass lower name)).map (·.1))).head?)
  | [], as, ns, cs, _ => by simp [qualnameLoop]
  | (q, e) :: r, as, ns, cs, h => by
    have hq := h (q, e) (by simp)
    obtain ⟨c, hc⟩ := Option.isSome_iff_exists.1 hq
    have ih := fun as ns cs => qualnameLoop_eq r as ns cs (fun x hx => h x (by simp [hx]))
    unfold qualnameLoop
    by_cases hn : name = e.name
    · rw [if_pos hn]; simp [hn]
    · rw [if_neg hn]
      simp only [hc]
      rw [ih]
      have hn' : (name == e.name) = false := by simpa using hn
      simp only [List.find?_cons, hn']
      have h1 : isAlias name (q, e) = decide (name ∈ e.aliases) := rfl
      have h2 : isNocase lower name (q, e) = decide (lower name = lower e.name ∨ e.aliases.any (fun a => lower a == lower name)) := rfl
      have h3 : isClass lower name (q, e) = decide (lower name = lower c) := by
        simp only [isClass, hc, Option.any_some]
        rw [Bool.eq_iff_iff]; simp
      simp only [List.filter_cons, h1, h2, h3, decide_eq_true_eq]
      congr 1
      cases r.find? (fun x => name == x.2.name) with
      | some x => rfl
      | none =>
        simp only
        congr 1
        split <;> split <;> split <;> simp

/-! ## weights -/

/-- The dictionary with these names and weights. -/
def table (cands : List Str) (g : Str → Nat) : Weights := cands.map (fun n => (n, g n))

theorem table_any (cands : List Str) (g : Str → Nat) (q : Str) : (table cands g).any (·.1 == q) = decide (q ∈ cands) := by
  rw [Bool.eq_iff_iff]; simp [table]

theorem table_congr {cands : List Str} {g g' : Str → Nat} (h : ∀ n ∈ cands, g n = g' n) : table cands g = table cands g' := by
  unfold table
  exact List.map_congr_left (fun n hn => by rw [h n hn])

theorem wget_table (g : Str → Nat) (q : Str) : (cands : List Str) → q ∈ cands → wget (table cands g) q = g q
  | [], h => by cases h
  | c :: cands, h => by
    unfold wget table
    rw [List.map_cons, List.find?_cons]
    by_cases hc : c = q
    · simp [hc]
    · have : ((c, g c).1 == q) = false := by simpa using hc
      simp only [this]
      rcases List.mem_cons.1 h with h | h
      · exact absurd h.symm hc
      · exact wget_table g q cands h

theorem wadd_table (cands : List Str) (g : Str → Nat) (q : Str) (n : Nat) (hq : q ∈ cands) :
    wadd (table cands g) q n = table cands (fun m => if m = q then g m + n else g m) := by
  unfold wadd
  rw [table_any, if_pos (by simpa using hq)]
  unfold table
  rw [List.map_map]
  apply List.map_congr_left
  intro m _
  by_cases h : m = q <;> simp [h]

theorem wadd_table_new (cands : List Str) (g : Str → Nat) (q : Str) (n : Nat) (hq : q ∉ cands) :
    wadd (table cands g) q n = table (cands ++ [q]) (fun m => if m = q then n else g m) := by
  unfold wadd
  rw [table_any, if_neg (by simpa using hq)]
  simp only [table, List.map_append, List.map_cons, List.map_nil, if_true]
  congr 1
  apply List.map_congr_left
  intro m hm
  have : m ≠ q := fun e => hq (e ▸ hm)
  simp [this]

theorem addAll_table (f : Str → Nat) : (names cands : List Str) → (g : Str → Nat) → names.Nodup →
    (∀ n, n ∉ cands → g n = 0) →
    addAll f names (table cands g) =
      table (cands ++ names.filter (fun n => f n != 0 && !cands.contains n)) (fun n => if n ∈ names then g n + f n else g n)
  | [], cands, g, _, _ => by
    simp only [addAll, List.foldl_nil, List.filter_nil, List.append_nil]
    exact table_congr (fun n _ => by simp)
  | m :: names, cands, g, hn, hg => by
    obtain ⟨hm, hn⟩ := List.nodup_cons.1 hn
    unfold addAll
    rw [List.foldl_cons]
    by_cases hf : f m = 0
    · rw [if_pos hf]
      have := addAll_table f names cands g hn hg
      unfold addAll at this
      rw [this, List.filter_cons]
      rw [if_neg (by simp [hf])]
      apply table_congr
      intro n _
      by_cases h : n = m
      · subst h; simp [hm, hf]
      · simp [h]
    · rw [if_neg hf]
      by_cases hc : m ∈ cands
      · rw [wadd_table _ _ _ _ hc]
        have := addAll_table f names cands (fun n => if n = m then g n + f m else g n) hn (by
          intro n h
          have : n ≠ m := fun e => h (e ▸ hc)
          simp [this, hg n h])
        unfold addAll at this
        rw [this, List.filter_cons, if_neg (by simp [hc])]
        apply table_congr
        intro n _
        by_cases h : n = m
        · subst h; simp [hm]
        · simp [h]
      · rw [wadd_table_new _ _ _ _ hc]
        have := addAll_table f names (cands ++ [m]) (fun n => if n = m then f m else g n) hn (by
          intro n h
          simp only [List.mem_append, List.mem_singleton, not_or] at h
          simp [h.2, hg n h.1])
        unfold addAll at this
        rw [this, List.filter_cons, if_pos (by simp [hf, hc])]
        have e1 : names.filter (fun n => f n != 0 && !(cands ++ [m]).contains n) = names.filter (fun n => f n != 0 && !cands.contains n) := by
          apply List.filter_congr
          intro n hn'
          have : n ≠ m := fun e => hm (e ▸ hn')
          simp [this]
        rw [e1, List.append_assoc, List.singleton_append]
        apply table_congr
        intro n _
        by_cases h : n = m
        · subst h; simp [hm, hg n hc]
        · simp [h]

/-! ## sorting -/

theorem insertW_mem (x z : Str × Nat) : (l : Weights) → (z ∈ insertW x l ↔ z = x ∨ z ∈ l)
  | [] => by simp [insertW]
  | y :: l => by
    unfold insertW
    split
    · simp
    · rw [List.mem_cons, insertW_mem x z l, List.mem_cons]
      constructor
      · rintro (h | h | h) <;> simp [h]
      · rintro (h | h | h) <;> simp [h]

theorem insertW_sorted (x : Str × Nat) : (l : Weights) → l.Pairwise (fun a b => b.2 ≤ a.2) → (insertW x l).Pairwise (fun a b => b.2 ≤ a.2)
  | [], _ => by simp [insertW]
  | y :: l, h => by
    obtain ⟨h1, h2⟩ := List.pairwise_cons.1 h
    unfold insertW
    split
    · rename_i hle
      refine List.pairwise_cons.2 ⟨fun z hz => ?_, h⟩
      rcases List.mem_cons.1 hz with rfl | hz
      · exact hle
      · have := h1 z hz; omega
    · rename_i hle
      refine List.pairwise_cons.2 ⟨fun z hz => ?_, insertW_sorted x l h2⟩
      rcases (insertW_mem x z l).1 hz with rfl | hz
      · omega
      · exact h1 z hz

theorem insertW_filter (x : Str × Nat) (k : Nat) : (l : Weights) →
    (insertW x l).filter (fun z => z.2 == k) = (x :: l).filter (fun z => z.2 == k)
  | [] => by simp [insertW]
  | y :: l => by
    unfold insertW
    split
    · rfl
    · rename_i hle
      rw [List.filter_cons, insertW_filter x k l]
      simp only [List.filter_cons, beq_iff_eq]
      by_cases h1 : y.2 = k
      · by_cases h2 : x.2 = k
        · omega
        · simp [h1, h2]
      · simp [h1]

theorem sort_spec (w : Weights) : (w.foldr insertW []).Pairwise (fun a b => b.2 ≤ a.2) ∧
    (∀ z, z ∈ w.foldr insertW [] ↔ z ∈ w) ∧ ∀ k, (w.foldr insertW []).filter (fun z => z.2 == k) = w.filter (fun z => z.2 == k) := by
  induction w with
  | nil => simp
  | cons x w ih =>
    obtain ⟨h1, h2, h3⟩ := ih
    rw [List.foldr_cons]
    refine ⟨insertW_sorted x _ h1, fun z => ?_, fun k => ?_⟩
    · rw [insertW_mem, h2, List.mem_cons]
    · rw [insertW_filter, List.filter_cons, List.filter_cons, h3]

theorem ranked_ranking (cands : List Str) (g : Str → Nat) : Ranking g cands (ranked (table cands g)) := by
  obtain ⟨h1, h2, h3⟩ := sort_spec (table cands g)
  have hval : ∀ x ∈ (table cands g).foldr insertW [], x.2 = g x.1 := by
    intro x hx
    have := (h2 x).1 hx
    simp only [table, List.mem_map] at this
    obtain ⟨n, _, rfl⟩ := this
    rfl
  constructor
  · unfold ranked
    rw [List.pairwise_map]
    refine h1.imp_of_mem (fun {a b} ha hb h => ?_)
    rw [← hval a ha, ← hval b hb]; exact h
  · intro k
    unfold ranked
    rw [List.filter_map]
    have e1 : ((table cands g).foldr insertW []).filter ((fun a => g a == k) ∘ fun x => x.1) =
        ((table cands g).foldr insertW []).filter (fun z => z.2 == k) :=
      List.filter_congr (fun x hx => by rw [hval x hx]; rfl)
    rw [e1, h3]
    unfold table
    rw [List.filter_map, List.map_map]
    simp [Function.comp_def]

theorem Ranking.mem {g : Str → Nat} {cands l : List Str} (h : Ranking g cands l) (n : Str) : n ∈ l ↔ n ∈ cands := by
  have := h.2 (g n)
  constructor
  · intro hn
    have : n ∈ cands.filter (fun a => g a == g n) := by rw [← this, List.mem_filter]; simp [hn]
    exact (List.mem_filter.1 this).1
  · intro hn
    have : n ∈ l.filter (fun a => g a == g n) := by rw [this, List.mem_filter]; simp [hn]
    exact (List.mem_filter.1 this).1

theorem Ranking.congr {g g' : Str → Nat} {cands l : List Str} (h : Ranking g cands l) (e : ∀ n ∈ cands, g n = g' n) : Ranking g' cands l := by
  refine ⟨h.1.imp_of_mem (fun {a b} ha hb h1 => ?_), fun k => ?_⟩
  · rw [← e a ((h.mem a).1 ha), ← e b ((h.mem b).1 hb)]; exact h1
  · have e1 : l.filter (fun a => g' a == k) = l.filter (fun a => g a == k) :=
      List.filter_congr (fun n hn => by rw [e n ((h.mem n).1 hn)])
    have e2 : cands.filter (fun a => g' a == k) = cands.filter (fun a => g a == k) :=
      List.filter_congr (fun n hn => by rw [e n hn])
    rw [e1, e2]; exact h.2 k

theorem ranked_nil (cands : List Str) (g : Str → Nat) : ranked (table cands g) = [] ↔ cands = [] := by
  have := (ranked_ranking cands g).mem
  constructor
  · intro h
    rw [h] at this
    exact List.eq_nil_iff_forall_not_mem.2 (fun n hn => by have := (this n).2 hn; cases this)
  · rintro rfl; simp [ranked, table]

theorem best_largest (m : Str → Bool) (l : List (Str × Nat)) : Largest m l (best m l) := by
  have key : ∀ (xs : List Nat) (a : Nat), (xs.foldl max a = a ∨ xs.foldl max a ∈ xs) ∧ a ≤ xs.foldl max a ∧ ∀ x ∈ xs, x ≤ xs.foldl max a := by
    intro xs
    induction xs with
    | nil => intro a; simp
    | cons x xs ih =>
      intro a
      rw [List.foldl_cons]
      obtain ⟨h1, h2, h3⟩ := ih (max a x)
      refine ⟨?_, by omega, ?_⟩
      · rcases h1 with h1 | h1
        · rw [h1]
          rcases Nat.le_total a x with h | h
          · right; rw [Nat.max_eq_right h]; simp
          · left; exact Nat.max_eq_left h
        · right; simp [h1]
      · intro y hy
        rcases List.mem_cons.1 hy with rfl | hy
        · omega
        · exact h3 y hy
  obtain ⟨h1, _, h3⟩ := key ((l.filter (fun x => m x.1)).map (·.2)) 0
  refine ⟨?_, ?_⟩
  · rcases h1 with h1 | h1
    · exact Or.inl h1
    · right
      rw [List.mem_map] at h1
      obtain ⟨⟨p, y⟩, h4, h5⟩ := h1
      rw [List.mem_filter] at h4
      refine ⟨p, ?_, h4.2⟩
      have : best m l = y := h5.symm
      rw [this]; exact h4.1
  · intro p y hp hm
    exact h3 y (List.mem_map.2 ⟨(p, y), List.mem_filter.2 ⟨hp, hm⟩, rfl⟩)

theorem Largest.unique {m : Str → Bool} {l : List (Str × Nat)} {x y : Nat} (hx : Largest m l x) (hy : Largest m l y) : x = y := by
  obtain ⟨h1, h2⟩ := hx
  obtain ⟨h3, h4⟩ := hy
  apply Nat.le_antisymm
  · rcases h1 with h1 | ⟨p, h1, h5⟩
    · omega
    · exact h4 p x h1 h5
  · rcases h3 with h3 | ⟨p, h3, h5⟩
    · omega
    · exact h2 p y h3 h5

theorem get?_mem : (r : Registry) → (r.map (·.1)).Nodup → (n : Str) → (e : Entry) → (n, e) ∈ r → get? r n = some e
  | [], _, n, e, h => by cases h
  | (q, e') :: r, hn, n, e, h => by
    rw [List.map_cons, List.nodup_cons] at hn
    unfold get?
    rw [List.find?_cons]
    rcases List.mem_cons.1 h with h | h
    · injection h with h1 h2; subst h1 h2; simp
    · have : q ≠ n := fun e1 => hn.1 (List.mem_map.2 ⟨(n, e), h, e1.symm⟩)
      have : ((q, e').1 == n) = false := by simpa using this
      simp only [this]
      exact get?_mem r hn.2 n e h

/-- Only the weights of the names matter. -/
theorem addAll_congr {f f' : Str → Nat} : (names : List Str) → (∀ n ∈ names, f n = f' n) → (w : Weights) → addAll f names w = addAll f' names w
  | [], _, w => rfl
  | m :: names, h, w => by
    unfold addAll
    rw [List.foldl_cons, List.foldl_cons, h m (by simp)]
    exact addAll_congr names (fun n hn => h n (by simp [hn])) _

theorem addAll_zero (names : List Str) (w : Weights) : addAll (fun _ => 0) names w = w := by
  unfold addAll
  induction names with
  | nil => rfl
  | cons m names ih => rw [List.foldl_cons]; simpa using ih

theorem Ranking.nodup {g : Str → Nat} {cands l : List Str} (h : Ranking g cands l) (hn : cands.Nodup) : l.Nodup := by
  rw [List.nodup_iff_count]
  intro x
  have h1 := congrArg (List.count x) (h.2 (g x))
  rw [List.count_filter (by simp), List.count_filter (by simp)] at h1
  rw [h1]
  exact List.nodup_iff_count.1 hn x

/-- Whether the first two of a ranking differ. -/
theorem Ranking.unique {g : Str → Nat} {cands l : List Str} {a b : Str} (h : Ranking g cands (a :: b :: l)) (hn : cands.Nodup) :
    g b < g a ↔ Unique g cands := by
  have hd := h.nodup hn
  have hab : a ≠ b := fun e => (List.nodup_cons.1 hd).1 (by simp [e])
  have hs := List.pairwise_cons.1 h.1
  have hs2 := List.pairwise_cons.1 hs.2
  constructor
  · intro hlt
    refine ⟨a, (h.mem a).1 (by simp), fun c hc hca => ?_⟩
    have hc := (h.mem c).2 hc
    rcases List.mem_cons.1 hc with rfl | hc
    · exact absurd rfl hca
    · rcases List.mem_cons.1 hc with rfl | hc
      · exact hlt
      · have := hs2.1 c hc; omega
  · rintro ⟨c, hc, hmax⟩
    have ha := (h.mem a).1 (by simp)
    have hb := (h.mem b).1 (by simp)
    by_cases hca : a = c
    · subst hca; exact hmax b hb hab.symm
    · have h1 := hmax a ha hca
      have hc := (h.mem c).2 hc
      rcases List.mem_cons.1 hc with rfl | hc
      · exact absurd rfl hca
      · have := hs.1 c hc; omega

theorem Ranking.single {g : Str → Nat} {cands : List Str} {a : Str} (h : Ranking g cands [a]) : Unique g cands :=
  ⟨a, (h.mem a).1 (by simp), fun b hb hne => absurd (by simpa using (h.mem b).2 hb) hne⟩

/-! ## the dictionary -/

theorem get?_cons (x : Str × Entry) (r : Registry) (q : Str) : get? (x :: r) q = if x.1 = q then some x.2 else get? r q := by
  unfold get?
  rw [List.find?_cons]
  by_cases h : x.1 = q
  · simp [h]
  · have : (x.1 == q) = false := by simpa using h
    simp [this, h]

theorem get?_append (r s : Registry) (q : Str) : get? (r ++ s) q = (get? r q).or (get? s q) := by
  induction r with
  | nil => rfl
  | cons x r ih =>
    rw [List.cons_append, get?_cons, get?_cons, ih]
    split <;> rfl

theorem get?_none (r : Registry) (q : Str) (h : r.any (·.1 == q) = false) : get? r q = none := by
  induction r with
  | nil => rfl
  | cons x r ih =>
    rw [List.any_cons, Bool.or_eq_false_iff] at h
    rw [get?_cons, if_neg (by simpa using h.1), ih h.2]

theorem get?_replace (q q' : Str) (e : Entry) : (r : Registry) → get? (r.map (fun x => if x.1 == q then (q, e) else x)) q' =
    if q' = q then (if r.any (·.1 == q) then some e else none) else get? r q'
  | [] => by simp [get?]
  | x :: r => by
    rw [List.map_cons, get?_cons, get?_replace q q' e r, List.any_cons, get?_cons]
    by_cases h1 : x.1 = q
    · by_cases h2 : q' = q
      · simp [h1, h2]
      · have : ¬ q = q' := fun e => h2 e.symm
        simp [h1, h2, this]
    · have hx : (x.1 == q) = false := by simpa using h1
      by_cases h2 : q' = q
      · subst h2; simp only [hx, Bool.false_or, if_true, if_neg h1, Bool.false_eq_true, if_false]
      · simp [hx, h2]

theorem get?_put (r : Registry) (q : Str) (e : Entry) : get? (put r q e) q = some e := by
  unfold put
  split
  · rename_i h
    rw [get?_replace, if_pos rfl, if_pos h]
  · rename_i h
    rw [get?_append, get?_none r q (Bool.not_eq_true _ ▸ h), get?_cons, if_pos rfl]
    rfl

theorem get?_put_ne (r : Registry) (q q' : Str) (e : Entry) (h : q' ≠ q) : get? (put r q e) q' = get? r q' := by
  unfold put
  split
  · rw [get?_replace, if_neg h]
  · rw [get?_append, get?_cons, if_neg (fun e => h e.symm)]
    cases get? r q' <;> rfl

theorem get?_del (r : Registry) (q : Str) : get? (del r q) q = none := by
  apply get?_none
  simp [del]

theorem get?_del_ne (r : Registry) (q q' : Str) (h : q' ≠ q) : get? (del r q) q' = get? r q' := by
  unfold del
  induction r with
  | nil => rfl
  | cons x r ih =>
    rw [List.filter_cons]
    by_cases hx : x.1 = q
    · have : (x.1 != q) = false := by simpa using hx
      rw [if_neg (by simp [this]), ih, get?_cons, if_neg (fun e => h (e.symm.trans hx))]
    · rw [if_pos (by simpa using hx), get?_cons, get?_cons, ih]

end Parce.Reg

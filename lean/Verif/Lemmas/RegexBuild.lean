import Verif.Lemmas.RegexTuple
/-!
# Lemmas for regular expressions: building the text
-/
namespace Parce.Rx

def itemLang : Item → Lang
  | .str s => fun w => w = s
  | .grp es ts => fun w => w ∈ es ∨ ∃ t ∈ ts, partsLang t.1 w

def Counted.lang (x : Counted) : Lang := (itemLang x.item).rep x.lo x.hi

def itemsLang : List Counted → Lang
  | [] => fun w => w = []
  | x :: xs => x.lang.cat (itemsLang xs)

def ItemOk : Item → Prop
  | .str s => s ≠ []
  | .grp es ts => (es ≠ [] ∨ ts ≠ []) ∧ (∀ t ∈ ts, Den .alt t.2 (partsLang t.1) ∧ ¬ partsLang t.1 []) ∧ ∀ e ∈ es, e ≠ []

structure CountedOk (x : Counted) : Prop where
  le : x.lo ≤ x.hi
  hi : 1 ≤ x.hi
  item : ItemOk x.item

theorem item_eqv (a b : Item) (h : a.eqv b = true) : itemLang a = itemLang b := by
  apply Lang.ext
  intro w
  cases a with
  | str s =>
    cases b with
    | str t => simp only [Item.eqv, beq_iff_eq] at h; rw [h]
    | grp _ _ => simp [Item.eqv] at h
  | grp e t =>
    cases b with
    | str t => simp [Item.eqv] at h
    | grp e' t' =>
      simp only [Item.eqv, Bool.and_eq_true] at h
      obtain ⟨⟨⟨h1, h2⟩, h3⟩, h4⟩ := h
      simp only [itemLang]
      constructor
      · rintro (h | ⟨x, hx, hw⟩)
        · exact Or.inl (by simpa using List.all_eq_true.1 h1 w h)
        · obtain ⟨y, hy, he⟩ := List.any_eq_true.1 (List.all_eq_true.1 h3 x hx)
          exact Or.inr ⟨y, hy, (parts_eqv _ _ he w).1 hw⟩
      · rintro (h | ⟨y, hy, hw⟩)
        · exact Or.inl (by simpa using List.all_eq_true.1 h2 w h)
        · obtain ⟨x, hx, he⟩ := List.any_eq_true.1 (List.all_eq_true.1 h4 y hy)
          exact Or.inr ⟨x, hx, (parts_eqv _ _ he w).2 hw⟩

theorem itemsLang_append (xs ys : List Counted) : itemsLang (xs ++ ys) = (itemsLang xs).cat (itemsLang ys) := by
  induction xs with
  | nil => simp only [List.nil_append, itemsLang, Lang.nil_cat]
  | cons p ps ih => simp only [List.cons_append, itemsLang, ih, Lang.cat_assoc]

theorem mergeItems_spec : (ys : List Counted) → (x : Counted) → CountedOk x → (∀ y ∈ ys, CountedOk y) →
    itemsLang (mergeItems x ys) = x.lang.cat (itemsLang ys) ∧ ∀ y ∈ mergeItems x ys, CountedOk y
  | [], x, hx, _ => ⟨rfl, fun y hy => by simp only [mergeItems, List.mem_singleton] at hy; rw [hy]; exact hx⟩
  | y :: ys, x, hx, hys => by
    have hy := hys y List.mem_cons_self
    simp only [mergeItems]
    split
    · next he =>
      obtain ⟨h1, h2⟩ := mergeItems_spec ys ⟨x.item, x.lo + y.lo, x.hi + y.hi⟩
        ⟨Nat.add_le_add hx.le hy.le, Nat.le_trans hx.hi (Nat.le_add_right _ _), hx.item⟩
        (fun z hz => hys z (List.mem_cons_of_mem _ hz))
      refine ⟨?_, h2⟩
      rw [h1]
      simp only [itemsLang, Counted.lang, ← Lang.cat_assoc]
      rw [← item_eqv _ _ he, Lang.rep_cat _ hx.le hy.le]
    · obtain ⟨h1, h2⟩ := mergeItems_spec ys y hy (fun z hz => hys z (List.mem_cons_of_mem _ hz))
      refine ⟨by simp only [itemsLang, h1], fun z hz => ?_⟩
      rcases List.mem_cons.1 hz with rfl | hz
      · exact hx
      · exact h2 z hz

theorem mergeAll_spec (xs : List Counted) (h : ∀ x ∈ xs, CountedOk x) :
    itemsLang (mergeAll xs) = itemsLang xs ∧ ∀ y ∈ mergeAll xs, CountedOk y := by
  cases xs with
  | nil => exact ⟨rfl, by simp [mergeAll]⟩
  | cons x xs => exact mergeItems_spec xs x (h x List.mem_cons_self) (fun y hy => h y (List.mem_cons_of_mem _ hy))

/-! ## Numbers and qualifiers -/

theorem digit_spec : ∀ d < 10, (Char.ofNat (48 + d)).isDigit = true ∧ (Char.ofNat (48 + d)).toNat - 48 = d := by decide

theorem digits_num (n : Nat) : IsNum (digits n) n := by
  induction n using Nat.strongRecOn with
  | ind n ih =>
    rw [digits]
    split
    · next h =>
      obtain ⟨h1, h2⟩ := digit_spec n h
      refine ⟨by simp, ?_, ?_⟩
      · intro d hd
        rw [List.mem_singleton.1 hd]; exact h1
      · simp [h2]
    · next h =>
      obtain ⟨h1, h2⟩ := digit_spec (n % 10) (Nat.mod_lt _ (by omega))
      obtain ⟨h3, h4, h5⟩ := ih (n / 10) (by omega)
      refine ⟨by simp, ?_, ?_⟩
      · intro d hd
        rcases List.mem_append.1 hd with hd | hd
        · exact h4 d hd
        · rw [List.mem_singleton.1 hd]; exact h1
      · rw [List.foldl_append, h5]
        simp only [List.foldl_cons, List.foldl_nil, h2]
        omega

theorem atom_qualified {s : Word} {L : Lang} (h : Den .atom s L) {lo hi : Nat} (hle : lo ≤ hi) (hhi : 1 ≤ hi) :
    Den .piece (s ++ qualifier lo hi) (L.rep lo hi) := by
  unfold qualifier
  split
  · next h1 =>
    rw [h1.1, h1.2, Lang.rep_one, List.append_nil]
    exact .once _ _ h
  · split
    · next h1 => rw [h1.1, h1.2]; exact .opt _ _ h
    · split
      · next h1 => subst h1; exact .exact _ _ _ _ h (digits_num _)
      · by_cases h0 : lo = 0
        · subst h0
          have : digitsOr hi = digits hi := by unfold digitsOr; rw [if_neg (by omega)]
          rw [this]
          exact .upto _ _ _ _ h (digits_num _)
        · have h1 : digitsOr hi = digits hi := by unfold digitsOr; rw [if_neg (by omega)]
          have h2 : digitsOr lo = digits lo := by unfold digitsOr; rw [if_neg h0]
          rw [h1, h2]
          exact .between _ _ _ _ _ _ h (digits_num _) (digits_num _) hle

theorem qualifier_nil {lo hi : Nat} (h : qualifier lo hi = []) : lo = 1 ∧ hi = 1 := by
  unfold qualifier at h
  split at h
  · assumption
  · split at h
    · simp at h
    · split at h <;> simp at h

theorem piece_seq {s : Word} {L : Lang} (h : Den .piece s L) : Den .seq s L := by
  have := Den.cons _ _ _ _ h .nil
  rwa [List.append_nil, Lang.cat_nil] at this

/-! ## Alternatives -/

theorem join_alt : (l : List (Word × Lang)) → l ≠ [] → (∀ p ∈ l, Den .alt p.1 p.2) →
    Den .alt (join (l.map Prod.fst)) (fun w => ∃ p ∈ l, p.2 w)
  | [], h, _ => absurd rfl h
  | [p], _, h => by
    have he : (fun w => ∃ q ∈ [p], q.2 w) = p.2 := Lang.ext (fun w => by simp)
    rw [he]
    simpa [join] using h p List.mem_cons_self
  | p :: q :: l, _, h => by
    have h1 := join_alt (q :: l) (by simp) (fun p hp => h p (List.mem_cons_of_mem _ hp))
    have h2 := alt_or (h p List.mem_cons_self) h1
    have he : (fun w => ∃ r ∈ p :: q :: l, r.2 w) = fun w => p.2 w ∨ ∃ r ∈ q :: l, r.2 w :=
      Lang.ext (fun w => by simp)
    rw [he]
    simpa [join] using h2

/-- The single characters. -/
def charsOf (exprs : List Word) : List Char := (exprs.filter (fun k => k.length == 1)).flatten

theorem mem_charsOf {exprs : List Word} {c : Char} : c ∈ charsOf exprs ↔ [c] ∈ exprs := by
  simp only [charsOf, List.mem_flatten, List.mem_filter, beq_iff_eq]
  constructor
  · rintro ⟨l, ⟨hl, h1⟩, hc⟩
    obtain ⟨d, rfl⟩ := List.length_eq_one_iff.1 h1
    rw [List.mem_singleton.1 hc]
    exact hl
  · intro h
    exact ⟨[c], ⟨h, rfl⟩, List.mem_singleton.2 rfl⟩

/-- The first alternative. -/
def charAlt (cs : List Char) : List Word :=
  match cs with
  | [] => []
  | [c] => [escape [c]]
  | cs => ['[' :: makeCharclass cs ++ [']']]

theorem isClass_nil_aux {s : Word} {P : Char → Prop} (h : IsClass s P) : s = [] → ∀ c, ¬ P c := by
  induction h with
  | nil => exact fun _ _ h => h
  | char s c h => intro hs; subst hs; cases h
  | range s t a b h1 h2 h3 => intro hs; simp at hs
  | append s t P Q _ _ ih1 ih2 =>
    intro hs c hc
    obtain ⟨h1, h2⟩ := List.append_eq_nil_iff.1 hs
    rcases hc with hc | hc
    · exact ih1 h1 c hc
    · exact ih2 h2 c hc

theorem isClass_nil {P : Char → Prop} (h : IsClass [] P) (c : Char) : ¬ P c := isClass_nil_aux h rfl c

theorem charAlt_atom (cs : List Char) (h : cs ≠ []) : ∃ s, charAlt cs = [s] ∧ Den .atom s (fun w => ∃ c, w = [c] ∧ c ∈ cs) := by
  match cs, h with
  | [c], _ =>
    refine ⟨_, rfl, ?_⟩
    have : (fun w => ∃ d, w = [d] ∧ d ∈ [c]) = fun w => w = [c] := Lang.ext (fun w => by simp)
    rw [this]
    exact escape_atom c
  | c :: d :: cs, h =>
    obtain ⟨P, hP, hd⟩ := charclass_spec (c :: d :: cs)
    refine ⟨_, rfl, ?_⟩
    have hne : makeCharclass (c :: d :: cs) ≠ [] := fun h0 => by
      rw [h0] at hP
      exact isClass_nil hP c ((hd c).2 List.mem_cons_self)
    have := Den.cls _ _ hP hne
    simp only [hd] at this
    exact this

theorem groupAlts_eq (exprs tuples : List Word) : groupAlts exprs tuples =
    charAlt (charsOf exprs) ++ (sortWords (exprs.filter (fun k => k.length != 1))).map escape ++ tuples := rfl

theorem groupAlts_alt (es : List Word) (ts : List (List Part × Word)) (h : ItemOk (.grp es ts)) :
    Den .alt (join (groupAlts es (ts.map Prod.snd))) (itemLang (.grp es ts)) := by
  obtain ⟨hne, ht, _⟩ := h
  let l1 : List (Word × Lang) := (charAlt (charsOf es)).map (fun s => (s, fun w => ∃ c, w = [c] ∧ c ∈ charsOf es))
  let l2 : List (Word × Lang) := (sortWords (es.filter (fun k => k.length != 1))).map (fun s => (escape s, fun w => w = s))
  let l3 : List (Word × Lang) := ts.map (fun t => (t.2, partsLang t.1))
  have hfst : (l1 ++ l2 ++ l3).map Prod.fst = groupAlts es (ts.map Prod.snd) := by
    rw [groupAlts_eq]
    simp [l1, l2, l3, Function.comp_def]
  have hchar : charsOf es ≠ [] → ∃ s, l1 = [(s, fun w => ∃ c, w = [c] ∧ c ∈ charsOf es)] ∧
      Den .atom s (fun w => ∃ c, w = [c] ∧ c ∈ charsOf es) := by
    intro h
    obtain ⟨s, hs, hd⟩ := charAlt_atom _ h
    exact ⟨s, by simp [l1, hs], hd⟩
  have hnil : charsOf es = [] → l1 = [] := by
    intro h; simp [l1, h, charAlt]
  have hden : ∀ p ∈ l1 ++ l2 ++ l3, Den .alt p.1 p.2 := by
    intro p hp
    rcases List.mem_append.1 hp with hp | hp
    · rcases List.mem_append.1 hp with hp | hp
      · by_cases hc : charsOf es = []
        · rw [hnil hc] at hp; simp at hp
        · obtain ⟨s, hs, hd⟩ := hchar hc
          rw [hs] at hp
          rw [List.mem_singleton.1 hp]
          exact .single _ _ (piece_seq (.once _ _ hd))
      · obtain ⟨s, _, rfl⟩ := List.mem_map.1 hp
        exact .single _ _ (escape_seq s)
    · obtain ⟨t, ht', rfl⟩ := List.mem_map.1 hp
      exact (ht t ht').1
  have hsort : ∀ w, w ∈ sortWords (es.filter (fun k => k.length != 1)) ↔ w ∈ es ∧ w.length ≠ 1 := by
    intro w
    rw [sortWords, (List.mergeSort_perm _ _).mem_iff, List.mem_filter]
    simp
  have hlang : ∀ w, (∃ p ∈ l1 ++ l2 ++ l3, p.2 w) ↔ itemLang (.grp es ts) w := by
    intro w
    simp only [itemLang, List.mem_append]
    constructor
    · rintro ⟨p, (hp | hp) | hp, hw⟩
      · by_cases hc : charsOf es = []
        · rw [hnil hc] at hp; simp at hp
        · obtain ⟨s, hs, _⟩ := hchar hc
          rw [hs] at hp
          rw [List.mem_singleton.1 hp] at hw
          obtain ⟨c, rfl, hc⟩ := hw
          exact Or.inl (mem_charsOf.1 hc)
      · obtain ⟨s, hs, rfl⟩ := List.mem_map.1 hp
        have hw : w = s := hw
        rw [hw]
        exact Or.inl ((hsort s).1 hs).1
      · obtain ⟨t, ht', rfl⟩ := List.mem_map.1 hp
        exact Or.inr ⟨t, ht', hw⟩
    · rintro (hw | ⟨t, ht', hw⟩)
      · by_cases h1 : w.length = 1
        · obtain ⟨c, rfl⟩ := List.length_eq_one_iff.1 h1
          have hc : c ∈ charsOf es := mem_charsOf.2 hw
          obtain ⟨s, hs, _⟩ := hchar (fun h => by rw [h] at hc; simp at hc)
          exact ⟨(s, fun w => ∃ c, w = [c] ∧ c ∈ charsOf es),
            Or.inl (Or.inl (by rw [hs]; exact List.mem_singleton.2 rfl)), c, rfl, hc⟩
        · exact ⟨_, Or.inl (Or.inr (List.mem_map.2 ⟨w, (hsort w).2 ⟨hw, h1⟩, rfl⟩)), rfl⟩
      · exact ⟨_, Or.inr (List.mem_map.2 ⟨t, ht', rfl⟩), hw⟩
  have hall : l1 ++ l2 ++ l3 ≠ [] := by
    rcases hne with hne | hne
    · obtain ⟨w, hw⟩ := List.exists_mem_of_ne_nil es hne
      obtain ⟨p, hp, _⟩ := (hlang w).2 (Or.inl hw)
      exact List.ne_nil_of_mem hp
    · obtain ⟨t, ht'⟩ := List.exists_mem_of_ne_nil ts hne
      exact List.ne_nil_of_mem (List.mem_append_right _ (List.mem_map.2 ⟨t, ht', rfl⟩))
  have := join_alt _ hall hden
  rw [hfst] at this
  rwa [Lang.ext hlang] at this

/-! ## The text of an item -/

theorem escape_len_one {s : Word} (hne : s ≠ []) (h : (escape s).length = 1) : ∃ c, s = [c] := by
  match s, hne with
  | [c], _ => exact ⟨c, rfl⟩
  | c :: d :: s, _ =>
    exfalso
    simp only [escape] at h
    split at h <;> split at h <;> simp at h

variable [TupleOrder]

theorem ord_nil : TupleOrder.ord [] = [] := List.perm_nil.1 (TupleOrder.perm [])

theorem ord_mem {ts : List (List Part × Word)} {t : List Part × Word} : t ∈ TupleOrder.ord ts ↔ t ∈ ts :=
  (TupleOrder.perm ts).mem_iff

theorem ord_ok {es : List Word} {ts : List (List Part × Word)} (h : ItemOk (.grp es ts)) : ItemOk (.grp es (TupleOrder.ord ts)) := by
  refine ⟨?_, fun t ht => h.2.1 t (ord_mem.1 ht), h.2.2⟩
  rcases h.1 with h | h
  · exact Or.inl h
  · refine Or.inr (fun h0 => h ?_)
    have := TupleOrder.perm ts
    rw [h0] at this
    exact List.nil_perm.1 this

theorem ord_lang (es : List Word) (ts : List (List Part × Word)) : itemLang (.grp es (TupleOrder.ord ts)) = itemLang (.grp es ts) := by
  apply Lang.ext
  intro w
  simp only [itemLang, ord_mem]

theorem renderItem_spec (n : Nat) (x : Counted) (hx : CountedOk x) :
    Den .seq (renderItem n x) x.lang ∨ (¬ n > 1 ∧ Den .alt (renderItem n x) x.lang) := by
  obtain ⟨item, lo, hi⟩ := x
  have hle := hx.le
  have hhi := hx.hi
  have hit := hx.item
  simp only at hle hhi hit
  unfold renderItem Counted.lang
  simp only
  cases item with
  | str s =>
    left
    simp only [itemLang]
    have hne : s ≠ [] := hit
    split
    · next h =>
      obtain ⟨c, rfl⟩ := escape_len_one hne h.1
      rw [h.2.1, h.2.2, List.append_assoc]
      have h1 := piece_seq (.once _ _ (escape_atom c))
      have h2 := piece_seq (.opt _ _ (escape_atom c))
      have := seq_append h1 h2
      have he : Lang.cat (fun w => w = [c]) (Lang.rep (fun w => w = [c]) 0 1) = Lang.rep (fun w => w = [c]) 1 2 := by
        have := Lang.rep_cat (fun w => w = [c]) (a := 1) (b := 1) (c := 0) (d := 1) (by omega) (by omega)
        rw [Lang.rep_one] at this
        exact this
      rwa [he] at this
    · split
      · exact piece_seq (atom_qualified (.group _ _ (.single _ _ (escape_seq s))) hle hhi)
      · next h =>
        by_cases hq : qualifier lo hi = []
        · obtain ⟨h1, h2⟩ := qualifier_nil hq
          rw [hq, List.append_nil, h1, h2, Lang.rep_one]
          exact escape_seq s
        · have hl : ¬ s.length > 1 := fun h' => h ⟨h', hq⟩
          have : ∃ c, s = [c] := by
            cases s with
            | nil => exact absurd rfl hne
            | cons c s =>
              cases s with
              | nil => exact ⟨c, rfl⟩
              | cons d s => simp at hl
          obtain ⟨c, rfl⟩ := this
          exact piece_seq (atom_qualified (escape_atom c) hle hhi)
  | grp es ts =>
    simp only []
    split
    · next h =>
      left
      simp only [Bool.and_eq_true, List.isEmpty_iff] at h
      obtain ⟨⟨h1, h2⟩, rfl⟩ := h
      obtain ⟨k, hk, hk1⟩ := List.any_eq_true.1 h1
      have hk1 : k.length = 1 := by simpa using hk1
      obtain ⟨c, rfl⟩ := List.length_eq_one_iff.1 hk1
      have hc : charsOf es ≠ [] := fun h => by
        have := mem_charsOf.2 hk
        rw [h] at this
        simp at this
      obtain ⟨s, hs, hd⟩ := charAlt_atom _ hc
      have hstr : es.filter (fun k => k.length != 1) = [] := by
        rw [List.filter_eq_nil_iff]
        intro k hk
        have : k.length = 1 := by simpa using List.all_eq_true.1 h2 k hk
        simp [this]
      have hg : (groupAlts es (List.map Prod.snd (TupleOrder.ord []))).headD [] = s := by
        rw [groupAlts_eq, hs]
        simp
      rw [hg]
      have he : (fun w => ∃ c, w = [c] ∧ c ∈ charsOf es) = itemLang (.grp es []) := by
        apply Lang.ext
        intro w
        simp only [itemLang, mem_charsOf]
        constructor
        · rintro ⟨c, rfl, h⟩; exact Or.inl h
        · rintro (h | ⟨t, ht, _⟩)
          · have hw : w.length = 1 := by simpa using List.all_eq_true.1 h2 w h
            obtain ⟨c, rfl⟩ := List.length_eq_one_iff.1 hw
            exact ⟨c, rfl, h⟩
          · simp at ht
      rw [he] at hd
      exact piece_seq (atom_qualified hd hle hhi)
    · have hd := groupAlts_alt es (TupleOrder.ord ts) (ord_ok hit)
      rw [ord_lang] at hd
      split
      · left
        exact piece_seq (atom_qualified (.group _ _ hd) hle hhi)
      · next h =>
        right
        have hn : ¬ n > 1 := fun h' => h (Or.inl h')
        have hq : qualifier lo hi = [] := Decidable.byContradiction (fun h' => h (Or.inr h'))
        obtain ⟨h1, h2⟩ := qualifier_nil hq
        rw [hq, List.append_nil, h1, h2, Lang.rep_one]
        exact ⟨hn, hd⟩

theorem render_seq (n : Nat) (hn : n > 1) : (xs : List Counted) → (∀ x ∈ xs, CountedOk x) →
    Den .seq (xs.flatMap (renderItem n)) (itemsLang xs)
  | [], _ => .nil
  | x :: xs, h => by
    rw [List.flatMap_cons]
    rcases renderItem_spec n x (h x List.mem_cons_self) with h1 | ⟨h1, _⟩
    · exact seq_append h1 (render_seq n hn xs (fun y hy => h y (List.mem_cons_of_mem _ hy)))
    · exact absurd hn h1

theorem render_spec (xs : List Counted) (h : ∀ x ∈ xs, CountedOk x) : Den .alt (render xs) (itemsLang xs) := by
  unfold render
  match xs, h with
  | [], _ => exact .single _ _ .nil
  | [x], h =>
    have hl : itemsLang [x] = x.lang := by simp only [itemsLang, Lang.cat_nil]
    rw [hl]
    have he : [x].flatMap (renderItem [x].length) = renderItem 1 x := by simp
    rw [he]
    rcases renderItem_spec 1 x (h x List.mem_cons_self) with h1 | ⟨_, h1⟩
    · exact .single _ _ h1
    · exact h1
  | x :: y :: xs, h => exact .single _ _ (render_seq _ (by simp) _ h)

/-! ## The items of a tuple -/

omit [TupleOrder] in
theorem exprsOf_mem {w : Word} : (as : List Alt) → (w ∈ exprsOf as ↔ Alt.str w ∈ as)
  | [] => by simp [exprsOf]
  | .str s :: as => by simp [exprsOf, exprsOf_mem as]
  | .none :: as => by simp [exprsOf, exprsOf_mem as]
  | .tup _ :: as => by simp [exprsOf, exprsOf_mem as]

omit [TupleOrder] in
theorem hasNone_iff : (as : List Alt) → (hasNone as = true ↔ Alt.none ∈ as)
  | [] => by simp [hasNone]
  | .str s :: as => by simp [hasNone, hasNone_iff as]
  | .none :: as => by simp [hasNone]
  | .tup _ :: as => by simp [hasNone, hasNone_iff as]

/-- The tuples with their items. -/
def TupsOk (tups : List (List Part × List Counted)) : Prop :=
  ∀ t ∈ tups, (∀ x ∈ t.2, CountedOk x) ∧ itemsLang t.2 = partsLang t.1 ∧ ¬ partsLang t.1 []

omit [TupleOrder] in
/-- Optional when `lo` is 0. -/
theorem rep_lo (L : Lang) {lo : Nat} (h : lo ≤ 1) : L.rep lo 1 = fun w => (lo = 0 ∧ w = []) ∨ L w := by
  match lo, h with
  | 0, _ => rw [Lang.rep_opt]; exact Lang.ext (fun w => by simp)
  | 1, _ => rw [Lang.rep_one]; exact Lang.ext (fun w => by simp)

theorem setItems_spec (lo : Nat) (hlo : lo ≤ 1) (exprs : List Word) (tups : List (List Part × List Counted))
    (hne : exprs ≠ [] ∨ tups ≠ []) (hex : ∀ e ∈ exprs, e ≠ []) (htups : TupsOk tups) :
    (∀ x ∈ setItems lo exprs tups, CountedOk x) ∧
    itemsLang (setItems lo exprs tups) =
      fun w => (lo = 0 ∧ w = []) ∨ w ∈ exprs ∨ ∃ t ∈ tups, partsLang t.1 w := by
  have hgrp : CountedOk ⟨.grp exprs (tups.map (fun t => (t.1, render t.2))), lo, 1⟩ := by
    refine ⟨hlo, Nat.le_refl _, ?_, ?_, hex⟩
    · rcases hne with h | h
      · exact Or.inl h
      · exact Or.inr (by simpa using h)
    · intro t ht
      obtain ⟨t', ht', rfl⟩ := List.mem_map.1 ht
      simp only
      refine ⟨?_, (htups t' ht').2.2⟩
      rw [← (htups t' ht').2.1]
      exact render_spec _ (htups t' ht').1
  have hlang : itemsLang [⟨.grp exprs (tups.map (fun t => (t.1, render t.2))), lo, 1⟩] =
      fun w => (lo = 0 ∧ w = []) ∨ w ∈ exprs ∨ ∃ t ∈ tups, partsLang t.1 w := by
    simp only [itemsLang, Lang.cat_nil, Counted.lang, rep_lo _ hlo, itemLang]
    apply Lang.ext
    intro w
    simp only [List.mem_map]
    constructor
    · rintro (h | h | ⟨_, ⟨t, ht, rfl⟩, hw⟩)
      · exact Or.inl h
      · exact Or.inr (Or.inl h)
      · exact Or.inr (Or.inr ⟨t, ht, hw⟩)
    · rintro (h | h | ⟨t, ht, hw⟩)
      · exact Or.inl h
      · exact Or.inr (Or.inl h)
      · exact Or.inr (Or.inr ⟨_, ⟨t, ht, rfl⟩, hw⟩)
  have hdef : (∀ x ∈ [(⟨.grp exprs (tups.map (fun t => (t.1, render t.2))), lo, 1⟩ : Counted)], CountedOk x) :=
    fun x hx => by rw [List.mem_singleton.1 hx]; exact hgrp
  unfold setItems
  simp only
  split
  · next e =>
    refine ⟨fun x hx => ?_, ?_⟩
    · rw [List.mem_singleton.1 hx]
      exact ⟨hlo, Nat.le_refl _, hex e List.mem_cons_self⟩
    · simp only [itemsLang, Lang.cat_nil, Counted.lang, rep_lo _ hlo, itemLang]
      exact Lang.ext (fun w => by simp)
  · next t =>
    obtain ⟨h1, h2, _⟩ := htups t List.mem_cons_self
    split
    · next hl =>
      refine ⟨h1, ?_⟩
      rw [h2, hl]
      exact Lang.ext (fun w => by simp)
    · next hl =>
      have hl0 : lo = 0 := by omega
      split
      · next x hx =>
        split
        · next hx1 =>
          have hxo := h1 x (by rw [hx]; exact List.mem_cons_self)
          refine ⟨fun y hy => ?_, ?_⟩
          · rw [List.mem_singleton.1 hy]
            exact ⟨Nat.zero_le _, hxo.hi, hxo.item⟩
          · have h3 : x.lang = partsLang t.1 := by
              rw [← h2, hx]
              simp only [itemsLang, Lang.cat_nil]
            simp only [itemsLang, Lang.cat_nil, Counted.lang]
            rw [← Lang.rep_or_nil _ hx1 hxo.le]
            have : Lang.rep (itemLang x.item) x.lo x.hi = partsLang t.1 := h3
            rw [this, hl0]
            exact Lang.ext (fun w => by simp)
        · exact ⟨hdef, hlang⟩
      · exact ⟨hdef, hlang⟩
  · exact ⟨hdef, hlang⟩

mutual
theorem partItems_spec : (p : Part) → PartOk p → (∀ x ∈ partItems p, CountedOk x) ∧ itemsLang (partItems p) = partLang p
  | .str s, h => by
    simp only [partItems]
    refine ⟨fun x hx => ?_, ?_⟩
    · rw [List.mem_singleton.1 hx]
      exact ⟨Nat.le_refl _, Nat.le_refl _, h⟩
    · simp only [itemsLang, Lang.cat_nil, Counted.lang, Lang.rep_one, itemLang, partLang]
  | .set alts, h => by
    obtain ⟨h1, h2⟩ := tupsOf_spec alts h.2
    simp only [partItems]
    have hok := altsOk_mem.1 h.2
    have hne : exprsOf alts ≠ [] ∨ tupsOf alts ≠ [] := by
      obtain ⟨a, ha, hp⟩ := List.any_eq_true.1 h.1
      cases a with
      | none => simp [Alt.proper] at hp
      | str s => exact Or.inl (List.ne_nil_of_mem ((exprsOf_mem alts).2 ha))
      | tup ps =>
        obtain ⟨t, ht, _⟩ := (h2 ps).1 ha
        exact Or.inr (List.ne_nil_of_mem ht)
    obtain ⟨h3, h4⟩ := setItems_spec (if hasNone alts then 0 else 1) (by split <;> omega) (exprsOf alts) (tupsOf alts) hne
      (fun e he => hok _ ((exprsOf_mem alts).1 he)) h1
    refine ⟨h3, ?_⟩
    rw [h4]
    apply Lang.ext
    intro w
    simp only [partLang]
    rw [altsLang_mem]
    have hn := hasNone_iff alts
    constructor
    · rintro (⟨hl, rfl⟩ | hw | ⟨t, ht, hw⟩)
      · split at hl
        · next hh => exact ⟨.none, hn.1 hh, rfl⟩
        · simp at hl
      · exact ⟨_, (exprsOf_mem alts).1 hw, rfl⟩
      · exact ⟨.tup t.1, (h2 t.1).2 ⟨t, ht, rfl⟩, hw⟩
    · rintro ⟨a, ha, hw⟩
      cases a with
      | none =>
        simp only [altLang] at hw
        exact Or.inl ⟨by rw [if_pos (hn.2 ha)], hw⟩
      | str s =>
        simp only [altLang] at hw
        rw [hw]
        exact Or.inr (Or.inl ((exprsOf_mem alts).2 ha))
      | tup ps =>
        obtain ⟨t, ht, he⟩ := (h2 ps).1 ha
        exact Or.inr (Or.inr ⟨t, ht, by rw [he]; exact hw⟩)
theorem partsItems_spec : (ps : List Part) → PartsOk ps → (∀ x ∈ partsItems ps, CountedOk x) ∧
    itemsLang (partsItems ps) = partsLang ps
  | [], _ => ⟨by simp [partsItems], rfl⟩
  | p :: ps, h => by
    obtain ⟨h1, h2⟩ := partItems_spec p h.1
    obtain ⟨h3, h4⟩ := partsItems_spec ps h.2
    simp only [partsItems]
    refine ⟨fun x hx => ?_, ?_⟩
    · rcases List.mem_append.1 hx with hx | hx
      · exact h1 x hx
      · exact h3 x hx
    · rw [itemsLang_append, h2, h4]
      rfl
theorem tupsOf_spec : (as : List Alt) → AltsOk as → TupsOk (tupsOf as) ∧ ∀ ps, Alt.tup ps ∈ as ↔ ∃ t ∈ tupsOf as, t.1 = ps
  | [], _ => ⟨by simp [TupsOk, tupsOf], by simp [tupsOf]⟩
  | .none :: as, h => by
    obtain ⟨h1, h2⟩ := tupsOf_spec as h.2
    exact ⟨h1, fun ps => by simp only [tupsOf, ← h2]; simp⟩
  | .str s :: as, h => by
    obtain ⟨h1, h2⟩ := tupsOf_spec as h.2
    exact ⟨h1, fun ps => by simp only [tupsOf, ← h2]; simp⟩
  | .tup ps :: as, h => by
    obtain ⟨h1, h2⟩ := tupsOf_spec as h.2
    obtain ⟨h3, h4⟩ := partsItems_spec ps h.1.1
    obtain ⟨h5, h6⟩ := mergeAll_spec _ h3
    refine ⟨?_, fun qs => ?_⟩
    · intro t ht
      simp only [tupsOf] at ht
      rcases List.mem_cons.1 ht with rfl | ht
      · exact ⟨h6, by rw [h5, h4], h.1.2⟩
      · exact h1 t ht
    · simp only [tupsOf, List.mem_cons, Alt.tup.injEq]
      constructor
      · rintro (rfl | h)
        · exact ⟨_, Or.inl rfl, rfl⟩
        · obtain ⟨t, ht, he⟩ := (h2 qs).1 h
          exact ⟨t, Or.inr ht, he⟩
      · rintro ⟨t, rfl | ht, he⟩
        · exact Or.inl he.symm
        · exact Or.inr ((h2 qs).2 ⟨t, ht, he⟩)
end

theorem buildRegexp_spec (r : List Part) (h : PartsOk r) : Den .alt (buildRegexp r) (partsLang r) := by
  obtain ⟨h1, h2⟩ := partsItems_spec r h
  obtain ⟨h3, h4⟩ := mergeAll_spec _ h1
  have := render_spec _ h4
  rwa [h3, h2] at this

theorem words2regexp_spec (ws : List Word) (hne : ws ≠ []) : Den .alt (words2regexp ws) (fun w => w ∈ ws) := by
  unfold words2regexp
  have hs := commonSuffix_spec ws
  have hsne := commonSuffix_ne ws hne
  generalize commonSuffix ws = p at hs hsne
  obtain ⟨ws', suffix⟩ := p
  simp only at hs hsne ⊢
  obtain ⟨h1, _, h2⟩ := makeTrie_spec false ws'
  obtain ⟨h3, h4⟩ := toTuple_spec _ (h2 hsne)
  split
  · next he =>
    subst he
    have := buildRegexp_spec _ h3
    have hl : partsLang (toTuple (makeTrie false ws')) = fun w => w ∈ ws :=
      Lang.ext (fun w => by rw [h4, h1, hs w]; simp)
    rwa [hl] at this
  · next he =>
    have hsuf : PartsOk [.str suffix] := ⟨he, trivial⟩
    have := buildRegexp_spec (toTuple (makeTrie false ws') ++ [.str suffix]) (partsOk_append.2 ⟨h3, hsuf⟩)
    have hl : partsLang (toTuple (makeTrie false ws') ++ [.str suffix]) = fun w => w ∈ ws := by
      apply Lang.ext
      intro w
      rw [partsLang_append, hs w]
      constructor
      · rintro ⟨a, b, rfl, ha, hb⟩
        rw [str_lang] at hb
        subst hb
        exact ⟨a, (h1 a).1 ((h4 a).1 ha), rfl⟩
      · rintro ⟨v, hv, rfl⟩
        exact ⟨v, suffix, rfl, (h4 v).2 ((h1 v).2 hv), (str_lang _ _).2 rfl⟩
    rwa [hl] at this

end Parce.Rx

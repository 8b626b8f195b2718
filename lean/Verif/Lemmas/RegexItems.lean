import Verif.Lemmas.RegexOrder
/-!
# Lemmas for the order in which an expression matches: items
-/
namespace Parce.Rx

/-! ## The readings of the texts -/

theorem escape_atom_reads (c : Char) : Reads .atom (escape [c]) (.chr c) := by
  obtain ⟨a, ha⟩ := den_reads (escape_atom c)
  unfold escape at ha ⊢
  split
  · next h => exact .esc c (special_not_alnum c h)
  · next h => exact .lit c (fun h' => h (meta_special c h'))

theorem piece_seq_reads {s : Word} {a : Pat Char} (h : Reads .piece s a) : Reads .seq s (.cat a .eps) := by
  have := Reads.cons _ _ _ _ h .nil
  rwa [List.append_nil] at this

theorem seq_append_reads {s : Word} {a : Pat Char} (h : Reads .seq s a) : ∀ {t : Word} {b : Pat Char}, Reads .seq t b →
    ∃ c, Reads .seq (s ++ t) c ∧ Same c (.cat a b) := by
  generalize hk : Syn.seq = k at h
  induction h with
  | nil => intro t b hb; exact ⟨b, hb, (same_eps_cat b).symm⟩
  | cons u v a c h1 h2 _ ih =>
    intro t b hb
    obtain ⟨d, h3, h4⟩ := ih rfl hb
    refine ⟨.cat a d, ?_, ((Same.refl a).cat h4).trans (same_assoc _ _ _).symm⟩
    rw [List.append_assoc]
    exact .cons _ _ _ _ h1 h3
  | _ => cases hk

theorem alt_or_reads {s : Word} {a : Pat Char} (h : Reads .alt s a) : ∀ {t : Word} {b : Pat Char}, Reads .alt t b →
    ∃ c, Reads .alt (s ++ '|' :: t) c ∧ Same c (.alt a b) := by
  generalize hk : Syn.alt = k at h
  induction h with
  | single u a h1 _ => intro t b hb; exact ⟨_, .or _ _ _ _ h1 hb, .refl _⟩
  | or u v a c h1 h2 _ ih =>
    intro t b hb
    obtain ⟨d, h3, h4⟩ := ih rfl hb
    refine ⟨.alt a d, ?_, ((Same.refl a).alt h4).trans (same_alt_assoc _ _ _).symm⟩
    rw [List.append_assoc]
    exact .or _ _ _ _ h1 h3
  | _ => cases hk

theorem atom_qualified_reads {s : Word} {a : Pat Char} (h : Reads .atom s a) {lo hi : Nat} (hle : lo ≤ hi) (hhi : 1 ≤ hi) :
    ∃ q, Reads .piece (s ++ qualifier lo hi) q ∧ Same q (rep a lo hi) := by
  unfold qualifier
  split
  · next h1 =>
    rw [h1.1, h1.2, List.append_nil]
    exact ⟨a, .once _ _ h, (rep_one_same a).symm⟩
  · split
    · next h1 => rw [h1.1, h1.2]; exact ⟨_, .opt _ _ h, (rep_opt_same a).symm⟩
    · split
      · next h1 =>
        subst h1
        refine ⟨_, .exact _ _ _ _ h (digits_num _), ?_⟩
        unfold rep
        rw [Nat.sub_self]
        exact (same_cat_eps _).symm
      · have h1 : digitsOr hi = digits hi := by unfold digitsOr; rw [if_neg (by omega)]
        by_cases h0 : lo = 0
        · subst h0
          rw [h1]
          exact ⟨_, .upto _ _ _ _ h (digits_num _), (same_eps_cat _).symm⟩
        · have h2 : digitsOr lo = digits lo := by unfold digitsOr; rw [if_neg h0]
          rw [h1, h2]
          exact ⟨_, .between _ _ _ _ _ _ h (digits_num _) (digits_num _) hle, .refl _⟩

/-! ## Items -/

variable [TupleOrder]

/-- The text of an item. -/
def itemText : Item → Word
  | .str s => escape s
  | .grp es ts => join (groupAlts es ((TupleOrder.ord ts).map Prod.snd))

theorem item_den (x : Item) (h : ItemOk x) : Den .alt (itemText x) (itemLang x) := by
  cases x with
  | str s => exact .single _ _ (escape_seq s)
  | grp es ts =>
    rw [← ord_lang]
    exact groupAlts_alt es (TupleOrder.ord ts) (ord_ok h)

theorem item_sem {x : Item} (h : ItemOk x) {p : Pat Char} (hp : Reads .alt (itemText x) p) : Sem p (itemLang x) :=
  reads_sem hp (item_den x h)

omit [TupleOrder] in
theorem singleton_prefixFree (s : Word) : PrefixFree (fun w => w = s) := fun u v hu hv _ => by rw [hu, hv]

theorem renderItem_reads (n : Nat) (x : Counted) (hx : CountedOk x) (p : Pat Char) (hp : Reads .alt (itemText x.item) p) :
    ∃ q, (Reads .seq (renderItem n x) q ∨ (¬ n > 1 ∧ Reads .alt (renderItem n x) q)) ∧ Same q (rep p x.lo x.hi) := by
  obtain ⟨item, lo, hi⟩ := x
  have hle := hx.le
  have hhi := hx.hi
  have hit := hx.item
  simp only at hle hhi hit hp ⊢
  unfold renderItem
  simp only
  have hsem := item_sem hit hp
  cases item with
  | str s =>
    have hne : s ≠ [] := hit
    have hsame : ∀ {k : Syn} {a : Pat Char}, Reads k (escape s) a → Den k (escape s) (fun w => w = s) → Same a p := fun h1 h2 =>
      const_same (reads_sem h1 h2) hsem (singleton_prefixFree s)
    simp only
    split
    · next h =>
      obtain ⟨c, rfl⟩ := escape_len_one hne h.1
      obtain ⟨_, h2, h3⟩ := h
      subst h2 h3
      have hc := escape_atom_reads c
      have hs := hsame hc (escape_atom c)
      obtain ⟨q, h4, h5⟩ := seq_append_reads (piece_seq_reads (.once _ _ hc)) (piece_seq_reads (.opt _ _ hc))
      refine ⟨q, Or.inl (by rw [List.append_assoc]; exact h4), h5.trans ?_⟩
      refine Same.trans ?_ (rep_congr hs 1 2)
      exact Same.cat (.refl _) ((same_cat_eps _).trans ((same_cat_eps _).symm.alt (.refl _)))
    · split
      · obtain ⟨q, h4, h5⟩ := atom_qualified_reads (.group _ _ hp) hle hhi
        exact ⟨_, Or.inl (piece_seq_reads h4), (same_cat_eps _).trans h5⟩
      · next h =>
        by_cases hq : qualifier lo hi = []
        · obtain ⟨h1, h2⟩ := qualifier_nil hq
          obtain ⟨a, ha⟩ := den_reads (escape_seq s)
          subst h1 h2
          rw [hq, List.append_nil]
          exact ⟨a, Or.inl ha, (hsame ha (escape_seq s)).trans (rep_one_same p).symm⟩
        · have hl : ¬ s.length > 1 := fun h' => h ⟨h', hq⟩
          have : ∃ c, s = [c] := by
            cases s with
            | nil => exact absurd rfl hne
            | cons c s =>
              cases s with
              | nil => exact ⟨c, rfl⟩
              | cons d s => simp at hl
          obtain ⟨c, rfl⟩ := this
          obtain ⟨q, h4, h5⟩ := atom_qualified_reads (escape_atom_reads c) hle hhi
          refine ⟨_, Or.inl (piece_seq_reads h4), (same_cat_eps _).trans (h5.trans ?_)⟩
          exact rep_congr (hsame (escape_atom_reads c) (escape_atom c)) _ _
  | grp es ts =>
    simp only []
    split
    · next h =>
      simp only [Bool.and_eq_true, List.isEmpty_iff] at h
      obtain ⟨⟨h1, h2⟩, rfl⟩ := h
      obtain ⟨k, hk, hk1⟩ := List.any_eq_true.1 h1
      have hk1 : k.length = 1 := by simpa using hk1
      obtain ⟨c, rfl⟩ := List.length_eq_one_iff.1 hk1
      have hc : charsOf es ≠ [] := fun h => by
        have := mem_charsOf.2 hk
        rw [h] at this
        simp at this
      obtain ⟨s, hs, hd⟩ := charAlt_atom _ hc
      have hstr : es.filter (fun k => k.length != 1) = [] := by
        rw [List.filter_eq_nil_iff]
        intro k hk
        have : k.length = 1 := by simpa using List.all_eq_true.1 h2 k hk
        simp [this]
      have hg : groupAlts es (List.map Prod.snd (TupleOrder.ord [])) = [s] := by
        rw [groupAlts_eq, hs, hstr, ord_nil]
        simp [sortWords]
      obtain ⟨a, ha⟩ := den_reads hd
      have hp' : Reads .alt s p := by
        have : itemText (.grp es []) = s := by simp only [itemText, hg, join]
        rwa [this] at hp
      have hpe := reads_unique hp' (.single _ _ (piece_seq_reads (.once _ _ ha)))
      obtain ⟨q, h4, h5⟩ := atom_qualified_reads ha hle hhi
      refine ⟨_, Or.inl ?_, (same_cat_eps q).trans (h5.trans (rep_congr ?_ _ _))⟩
      · rw [hg]
        exact piece_seq_reads h4
      · rw [hpe]; exact (same_cat_eps _).symm
    · split
      · obtain ⟨q, h4, h5⟩ := atom_qualified_reads (.group _ _ hp) hle hhi
        exact ⟨_, Or.inl (piece_seq_reads h4), (same_cat_eps _).trans h5⟩
      · next h =>
        have hn : ¬ n > 1 := fun h' => h (Or.inl h')
        have hq : qualifier lo hi = [] := Decidable.byContradiction (fun h' => h (Or.inr h'))
        obtain ⟨h1, h2⟩ := qualifier_nil hq
        subst h1 h2
        rw [hq, List.append_nil]
        exact ⟨p, Or.inr ⟨hn, hp⟩, (rep_one_same p).symm⟩

/-! ## Lists of items -/

/-- The items one after the other, before they are merged. -/
inductive Impl : List Counted → Pat Char → Prop
  | nil : Impl [] .eps
  | cons (x : Counted) (xs : List Counted) (p q : Pat Char) : Reads .alt (itemText x.item) p → Impl xs q →
      Impl (x :: xs) (.cat (rep p x.lo x.hi) q)

theorem impl_exists : (xs : List Counted) → (∀ x ∈ xs, CountedOk x) → ∃ q, Impl xs q
  | [], _ => ⟨_, .nil⟩
  | x :: xs, h => by
    obtain ⟨p, hp⟩ := den_reads (item_den x.item (h x List.mem_cons_self).item)
    obtain ⟨q, hq⟩ := impl_exists xs (fun y hy => h y (List.mem_cons_of_mem _ hy))
    exact ⟨_, .cons x xs p q hp hq⟩

theorem impl_sem {xs : List Counted} {q : Pat Char} (h : Impl xs q) : (∀ x ∈ xs, CountedOk x) → Sem q (itemsLang xs) := by
  induction h with
  | nil => exact fun _ => sem_eps
  | cons x xs p q hp _ ih =>
    intro h
    have hx := h x List.mem_cons_self
    exact sem_cat (sem_rep (item_sem hx.item hp) hx.le) (ih (fun y hy => h y (List.mem_cons_of_mem _ hy)))

theorem impl_append {xs : List Counted} {a : Pat Char} (h : Impl xs a) {ys : List Counted} {b : Pat Char} (h' : Impl ys b) :
    ∃ c, Impl (xs ++ ys) c ∧ Same c (.cat a b) := by
  induction h with
  | nil => exact ⟨b, h', (same_eps_cat b).symm⟩
  | cons x xs p q hp _ ih =>
    obtain ⟨c, h1, h2⟩ := ih
    exact ⟨_, .cons x _ p c hp h1, ((Same.refl _).cat h2).trans (same_assoc _ _ _).symm⟩

theorem impl_one {x : Counted} {p : Pat Char} (hp : Reads .alt (itemText x.item) p) :
    ∃ q, Impl [x] q ∧ Same q (rep p x.lo x.hi) := ⟨_, .cons x [] p .eps hp .nil, same_cat_eps _⟩

theorem render_seq_reads (n : Nat) (hn : n > 1) {xs : List Counted} {q : Pat Char} (h : Impl xs q) :
    (∀ x ∈ xs, CountedOk x) → ∃ q', Reads .seq (xs.flatMap (renderItem n)) q' ∧ Same q' q := by
  induction h with
  | nil => exact fun _ => ⟨_, .nil, .refl _⟩
  | cons x xs p q hp _ ih =>
    intro hx
    obtain ⟨b, h1, h2⟩ := ih (fun y hy => hx y (List.mem_cons_of_mem _ hy))
    obtain ⟨a, h3, h4⟩ := renderItem_reads n x (hx x List.mem_cons_self) p hp
    rcases h3 with h3 | ⟨h3, _⟩
    · obtain ⟨c, h5, h6⟩ := seq_append_reads h3 h1
      exact ⟨c, by rw [List.flatMap_cons]; exact h5, h6.trans (h4.cat h2)⟩
    · exact absurd hn h3

theorem render_reads {xs : List Counted} {q : Pat Char} (h : Impl xs q) (hx : ∀ x ∈ xs, CountedOk x) :
    ∃ q', Reads .alt (render xs) q' ∧ Same q' q := by
  unfold render
  match xs, h, hx with
  | [], .nil, _ => exact ⟨_, .single _ _ .nil, .refl _⟩
  | [x], .cons _ _ p _ hp .nil, hx =>
    have he : [x].flatMap (renderItem [x].length) = renderItem 1 x := by simp
    rw [he]
    obtain ⟨a, h1, h2⟩ := renderItem_reads 1 x (hx x List.mem_cons_self) p hp
    rcases h1 with h1 | ⟨_, h1⟩
    · exact ⟨a, .single _ _ h1, h2.trans (same_cat_eps _).symm⟩
    · exact ⟨a, h1, h2.trans (same_cat_eps _).symm⟩
  | x :: y :: xs, h, hx =>
    obtain ⟨q', h1, h2⟩ := render_seq_reads (x :: y :: xs).length (by simp) h hx
    exact ⟨q', .single _ _ h1, h2⟩

/-- Neighbours that are the same have no word that starts with another one. -/
def Adj : List Counted → Prop
  | x :: y :: ys => (x.item.eqv y.item = true → PrefixFree (itemLang x.item)) ∧ Adj (y :: ys)
  | _ => True

omit [TupleOrder] in
theorem Adj.tail {x : Counted} {ys : List Counted} (h : Adj (x :: ys)) : Adj ys := by
  cases ys with
  | nil => trivial
  | cons y ys => exact h.2

theorem mergeItems_impl : (ys : List Counted) → (x : Counted) → CountedOk x → (∀ y ∈ ys, CountedOk y) → Adj (x :: ys) →
    (q : Pat Char) → Impl (x :: ys) q → ∃ q', Impl (mergeItems x ys) q' ∧ Same q' q
  | [], x, _, _, _, q, h => ⟨q, h, .refl _⟩
  | y :: ys, x, hx, hys, hadj, q, h => by
    have hy := hys y List.mem_cons_self
    have hys' : ∀ z ∈ ys, CountedOk z := fun z hz => hys z (List.mem_cons_of_mem _ hz)
    simp only [mergeItems]
    split
    · next he =>
      have hpf := hadj.1 he
      cases h with
      | cons _ _ p q hp h =>
        cases h with
        | cons _ _ p2 q hp2 h =>
          have hsx := item_sem hx.item hp
          have hsy := item_sem hy.item hp2
          rw [← item_eqv _ _ he] at hsy
          have hadj' : Adj (⟨x.item, x.lo + y.lo, x.hi + y.hi⟩ :: ys) := by
            cases ys with
            | nil => trivial
            | cons z zs => exact ⟨fun _ => hpf, hadj.2.2⟩
          obtain ⟨q', h1, h2⟩ := mergeItems_impl ys ⟨x.item, x.lo + y.lo, x.hi + y.hi⟩
            ⟨Nat.add_le_add hx.le hy.le, Nat.le_trans hx.hi (Nat.le_add_right _ _), hx.item⟩ hys' hadj' _
            (.cons ⟨x.item, x.lo + y.lo, x.hi + y.hi⟩ ys p q hp h)
          refine ⟨q', h1, h2.trans ?_⟩
          refine Same.trans ?_ (same_assoc _ _ _)
          refine Same.cat ?_ (.refl _)
          refine Same.trans (rep_cat_same (sem_const hsx hpf) hx.le hy.le).symm ?_
          exact (Same.refl _).cat (rep_congr (const_same hsx hsy hpf) _ _)
    · cases h with
      | cons _ _ p q hp h =>
        obtain ⟨q', h1, h2⟩ := mergeItems_impl ys y hy hys' hadj.2 q h
        exact ⟨_, .cons x _ p q' hp h1, (Same.refl _).cat h2⟩

theorem mergeAll_impl (xs : List Counted) (h : ∀ x ∈ xs, CountedOk x) (hadj : Adj xs) (q : Pat Char) (hq : Impl xs q) :
    ∃ q', Impl (mergeAll xs) q' ∧ Same q' q := by
  cases xs with
  | nil => exact ⟨q, hq, .refl _⟩
  | cons x xs => exact mergeItems_impl xs x (h x List.mem_cons_self) (fun y hy => h y (List.mem_cons_of_mem _ hy)) hadj q hq

/-! ## Items of which the words start with different characters -/

omit [TupleOrder] in
theorem isClass_inhabited {s : Word} {P : Char → Prop} (h : IsClass s P) : s ≠ [] → ∃ c, P c := by
  induction h with
  | nil => exact fun h => absurd rfl h
  | char s c _ => exact fun _ => ⟨c, rfl⟩
  | range s t a b _ _ h => exact fun _ => ⟨a, Nat.le_refl _, h⟩
  | append s t P Q _ _ ih1 ih2 =>
    intro h
    by_cases hs : s = []
    · obtain ⟨c, hc⟩ := ih2 (fun ht => h (by rw [hs, ht]; rfl))
      exact ⟨c, Or.inr hc⟩
    · obtain ⟨c, hc⟩ := ih1 hs
      exact ⟨c, Or.inl hc⟩

omit [TupleOrder] in
theorem pow_inhabited {L : Lang} (h : ∃ w, L w) : (n : Nat) → ∃ w, L.pow n w
  | 0 => ⟨[], rfl⟩
  | n + 1 => by
    obtain ⟨u, hu⟩ := h
    obtain ⟨v, hv⟩ := pow_inhabited ⟨u, hu⟩ n
    exact ⟨u ++ v, u, v, rfl, hu, hv⟩

omit [TupleOrder] in
theorem rep_inhabited {L : Lang} (h : ∃ w, L w) {m n : Nat} (hle : m ≤ n) : ∃ w, L.rep m n w := by
  obtain ⟨w, hw⟩ := pow_inhabited h m
  exact ⟨w, m, Nat.le_refl _, hle, hw⟩

omit [TupleOrder] in
theorem den_inhabited {k : Syn} {s : Word} {L : Lang} (h : Den k s L) : ∃ w, L w := by
  induction h with
  | lit c _ => exact ⟨_, rfl⟩
  | esc c _ => exact ⟨_, rfl⟩
  | cls s P h hne => obtain ⟨c, hc⟩ := isClass_inhabited h hne; exact ⟨_, c, rfl, hc⟩
  | group _ _ _ ih => exact ih
  | once _ _ _ ih => exact ih
  | opt _ _ _ ih => exact rep_inhabited ih (by omega)
  | exact _ _ _ _ _ _ ih => exact rep_inhabited ih (Nat.le_refl _)
  | between _ _ _ _ _ _ _ _ _ h ih => exact rep_inhabited ih h
  | upto _ _ _ _ _ _ ih => exact rep_inhabited ih (Nat.zero_le _)
  | nil => exact ⟨_, rfl⟩
  | cons _ _ _ _ _ _ ih1 ih2 =>
    obtain ⟨u, hu⟩ := ih1
    obtain ⟨v, hv⟩ := ih2
    exact ⟨_, u, v, rfl, hu, hv⟩
  | single _ _ _ ih => exact ih
  | or _ _ _ _ _ _ ih1 _ => obtain ⟨u, hu⟩ := ih1; exact ⟨u, Or.inl hu⟩

theorem item_inhabited {x : Item} (h : ItemOk x) : ∃ w, itemLang x w := den_inhabited (item_den x h)

theorem items_inhabited : (xs : List Counted) → (∀ x ∈ xs, CountedOk x) → ∃ w, itemsLang xs w
  | [], _ => ⟨[], rfl⟩
  | x :: xs, h => by
    have hx := h x List.mem_cons_self
    obtain ⟨u, hu⟩ := rep_inhabited (item_inhabited hx.item) hx.le
    obtain ⟨v, hv⟩ := items_inhabited xs (fun y hy => h y (List.mem_cons_of_mem _ hy))
    exact ⟨_, u, v, rfl, hu, hv⟩

omit [TupleOrder] in
theorem item_not_nil {x : Item} (h : ItemOk x) : ¬ itemLang x [] := by
  cases x with
  | str s => intro h'; exact h h'.symm
  | grp es ts =>
    rintro (h' | ⟨t, ht, h'⟩)
    · exact h.2.2 [] h' rfl
    · exact (h.2.1 t ht).2 h'

/-- No empty word, and words that start with the same character are the same. -/
def Heads (L : Lang) : Prop := ¬ L [] ∧ ∀ c u v, L (c :: u) → L (c :: v) → u = v

omit [TupleOrder] in
theorem Heads.prefixFree {L : Lang} (h : Heads L) : PrefixFree L := by
  intro u v hu hv hp
  cases u with
  | nil => exact absurd hu h.1
  | cons c u =>
    obtain ⟨x, rfl⟩ := hp
    exact congrArg (List.cons c) (h.2 c u (u ++ x) hu hv)

theorem heads_items {xs : List Counted} (hok : ∀ x ∈ xs, CountedOk x) (h : Heads (itemsLang xs)) :
    ∀ x ∈ xs, PrefixFree (itemLang x.item) := by
  intro x hx
  obtain ⟨as, bs, rfl⟩ := List.append_of_mem hx
  have hxo := hok x hx
  rw [itemsLang_append] at h
  obtain ⟨a, ha⟩ := items_inhabited as (fun y hy => hok y (List.mem_append_left _ hy))
  obtain ⟨b, hb⟩ := items_inhabited bs (fun y hy => hok y (List.mem_append_right _ (List.mem_cons_of_mem _ hy)))
  obtain ⟨y, hy⟩ := pow_inhabited (item_inhabited hxo.item) (x.hi - 1)
  have hmem : ∀ e, itemLang x.item e → (itemsLang as).cat (itemsLang (x :: bs)) (a ++ (e ++ y ++ b)) := fun e he => by
    refine ⟨a, _, rfl, ha, e ++ y, b, rfl, ⟨x.hi, hxo.le, Nat.le_refl _, ?_⟩, hb⟩
    have : x.hi = (x.hi - 1) + 1 := by have := hxo.hi; omega
    rw [this]
    exact ⟨e, y, rfl, he, hy⟩
  rintro e1 e2 h1 h2 ⟨z, rfl⟩
  have m1 := hmem _ h1
  have m2 := hmem _ h2
  have hlen : e1.length = (e1 ++ z).length := by
    cases a with
    | nil =>
      cases e1 with
      | nil => exact absurd h1 (item_not_nil hxo.item)
      | cons c e1 =>
        have := congrArg List.length (h.2 c (e1 ++ y ++ b) (e1 ++ z ++ y ++ b) m1 m2)
        simp only [List.length_append, List.length_cons] at this ⊢
        omega
    | cons c a =>
      have := congrArg List.length (h.2 c (a ++ (e1 ++ y ++ b)) (a ++ (e1 ++ z ++ y ++ b)) m1 m2)
      simp only [List.length_append] at this ⊢
      omega
  have : z = [] := List.eq_nil_of_length_eq_zero (by simp only [List.length_append] at hlen; omega)
  rw [this, List.append_nil]

end Parce.Rx

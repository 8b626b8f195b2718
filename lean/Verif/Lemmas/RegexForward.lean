import Verif.Lemmas.RegexItems
/-!
# Lemmas for the order in which an expression matches: the tuples
-/
namespace Parce.Rx

/-! ## Alternatives that start with different characters -/

/-- The words of the one and of the other start differently. -/
def HD (L M : Lang) : Prop := ∀ u v, L u → M v → u ≠ [] → v ≠ [] → u.head? ≠ v.head?

theorem HD.symm {L M : Lang} (h : HD L M) : HD M L := fun u v hu hv h1 h2 he => h v u hv hu h2 h1 he.symm

/-- The words of alternatives start differently. -/
def AltHD (a b : Alt) : Prop := HD (altLang a) (altLang b)

theorem pairwise_mem {α : Type} {R : α → α → Prop} (hs : ∀ a b, R a b → R b a) : {l : List α} → l.Pairwise R →
    ∀ {a b : α}, a ∈ l → b ∈ l → a ≠ b → R a b
  | [], _, _, _, h, _, _ => by simp at h
  | x :: l, hp, a, b, ha, hb, hne => by
    rw [List.pairwise_cons] at hp
    rcases List.mem_cons.1 ha with ha | ha <;> rcases List.mem_cons.1 hb with hb | hb
    · exact absurd (ha.trans hb.symm) hne
    · exact ha ▸ hp.1 b hb
    · exact hb ▸ hs _ _ (hp.1 a ha)
    · exact pairwise_mem hs hp.2 ha hb hne

theorem hd_disjoint {a b : Pat Char} {L M : Lang} (ha : Sem a L) (hb : Sem b M) (h : HD L M) (h1 : ¬ L []) (h2 : ¬ M [])
    (r : Word) : rems a r = [] ∨ rems b r = [] := by
  cases hx : rems a r with
  | nil => exact Or.inl rfl
  | cons x l =>
    refine Or.inr (List.eq_nil_iff_forall_not_mem.2 (fun y hy => ?_))
    obtain ⟨u, rfl, hu⟩ := (ha r x).1 (by rw [hx]; exact List.mem_cons_self)
    obtain ⟨v, he, hv⟩ := (hb _ y).1 hy
    have hu0 : u ≠ [] := fun h0 => h1 (h0 ▸ hu)
    have hv0 : v ≠ [] := fun h0 => h2 (h0 ▸ hv)
    refine h u v hu hv hu0 hv0 ?_
    cases u with
    | nil => exact absurd rfl hu0
    | cons c u =>
      cases v with
      | nil => exact absurd rfl hv0
      | cons d v =>
        simp only [List.cons_append, List.cons.injEq] at he
        rw [he.1]; rfl

theorem join_good : (l : List (Word × Lang)) → l ≠ [] → (∀ p ∈ l, ¬ p.2 [] ∧ ∃ a, Reads .alt p.1 a ∧ Good a ∧ Sem a p.2) →
    l.Pairwise (fun p q => HD p.2 q.2) →
    ∃ a, Reads .alt (join (l.map Prod.fst)) a ∧ Good a ∧ Sem a (fun w => ∃ p ∈ l, p.2 w)
  | [], h, _, _ => absurd rfl h
  | [p], _, h, _ => by
    obtain ⟨_, a, h1, h2, h3⟩ := h p List.mem_cons_self
    exact ⟨a, h1, h2, sem_congr h3 (fun w => by simp)⟩
  | p :: q :: l, _, h, hp => by
    rw [List.pairwise_cons] at hp
    have hq : ∀ r ∈ q :: l, _ := fun r hr => h r (List.mem_cons_of_mem _ hr)
    obtain ⟨b, h4, h5, h6⟩ := join_good (q :: l) (by simp) hq hp.2
    obtain ⟨h0, a, h1, h2, h3⟩ := h p List.mem_cons_self
    obtain ⟨c, h7, h8⟩ := alt_or_reads h1 h4
    refine ⟨c, h7, (Good.alt_disjoint h2 h5 (hd_disjoint h3 h6 ?_ h0 ?_)).congr h8.symm, h8.symm.sem ?_⟩
    · rintro u v hu ⟨r, hr, hv⟩
      exact hp.1 r hr u v hu hv
    · rintro ⟨r, hr, hv⟩
      exact (hq r hr).1 hv
    · exact sem_congr (sem_alt h3 h6) (fun w => by simp)

theorem good_den {s : Word} {k : Syn} {L : Lang} (h : Den k s L) (hp : PrefixFree L) : ∃ a, Reads k s a ∧ Good a ∧ Sem a L := by
  obtain ⟨a, ha⟩ := den_reads h
  exact ⟨a, ha, (sem_const (reads_sem ha h) hp).good, reads_sem ha h⟩

/-- A group of alternatives that start differently. -/
theorem groupAlts_good (es : List Word) (ts : List (List Part × Word)) (hok : ItemOk (.grp es ts))
    (hes : es.Pairwise (fun u v => u.head? ≠ v.head?))
    (hts : ts.Pairwise (fun t u => HD (partsLang t.1) (partsLang u.1)))
    (het : ∀ e ∈ es, ∀ t ∈ ts, HD (fun w => w = e) (partsLang t.1))
    (hg : ∀ t ∈ ts, ∃ a, Reads .alt t.2 a ∧ Good a) :
    ∃ a, Reads .alt (join (groupAlts es (ts.map Prod.snd))) a ∧ Good a := by
  obtain ⟨hne, ht, hee⟩ := hok
  let l1 : List (Word × Lang) := (charAlt (charsOf es)).map (fun s => (s, fun w => ∃ c, w = [c] ∧ c ∈ charsOf es))
  let l2 : List (Word × Lang) := (sortWords (es.filter (fun k => k.length != 1))).map (fun s => (escape s, fun w => w = s))
  let l3 : List (Word × Lang) := ts.map (fun t => (t.2, partsLang t.1))
  have hfst : (l1 ++ l2 ++ l3).map Prod.fst = groupAlts es (ts.map Prod.snd) := by
    rw [groupAlts_eq]
    simp [l1, l2, l3, Function.comp_def]
  have hperm := List.mergeSort_perm (es.filter (fun k => k.length != 1)) (fun a b => decide (a ≤ b))
  have hsort : ∀ w, w ∈ sortWords (es.filter (fun k => k.length != 1)) ↔ w ∈ es ∧ w.length ≠ 1 := by
    intro w
    rw [sortWords, hperm.mem_iff, List.mem_filter]
    simp
  have hl1 : l1 = [] ∨ ∃ s, l1 = [(s, fun w => ∃ c, w = [c] ∧ c ∈ charsOf es)] ∧
      Den .atom s (fun w => ∃ c, w = [c] ∧ c ∈ charsOf es) := by
    by_cases hc : charsOf es = []
    · exact Or.inl (by simp [l1, hc, charAlt])
    · obtain ⟨s, hs, hd⟩ := charAlt_atom _ hc
      exact Or.inr ⟨s, by simp [l1, hs], hd⟩
  have hall : ∀ p ∈ l1 ++ l2 ++ l3, ¬ p.2 [] ∧ ∃ a, Reads .alt p.1 a ∧ Good a ∧ Sem a p.2 := by
    intro p hp
    rcases List.mem_append.1 hp with hp | hp
    · rcases List.mem_append.1 hp with hp | hp
      · rcases hl1 with h | ⟨s, h, hd⟩
        · rw [h] at hp; simp at hp
        · rw [h] at hp
          rw [List.mem_singleton.1 hp]
          refine ⟨by rintro ⟨c, hc, _⟩; simp at hc, good_den (.single _ _ (piece_seq (.once _ _ hd))) ?_⟩
          rintro u v ⟨c, rfl, _⟩ ⟨d, rfl, _⟩ ⟨z, hz⟩
          simp only [List.cons_append, List.nil_append, List.cons.injEq] at hz
          rw [hz.1]
      · obtain ⟨s, hs, rfl⟩ := List.mem_map.1 hp
        exact ⟨fun h => hee s ((hsort s).1 hs).1 h.symm,
          good_den (.single _ _ (escape_seq s)) (singleton_prefixFree s)⟩
    · obtain ⟨t, ht', rfl⟩ := List.mem_map.1 hp
      obtain ⟨h1, h2⟩ := ht t ht'
      obtain ⟨a, ha, hag⟩ := hg t ht'
      exact ⟨h2, a, ha, hag, reads_sem ha h1⟩
  have hcs : ∀ c ∈ charsOf es, ∀ s, s ∈ es → s.length ≠ 1 → [c].head? ≠ s.head? := by
    intro c hc s hs hl
    exact pairwise_mem (fun _ _ h he => h he.symm) hes (mem_charsOf.1 hc) hs (by rintro rfl; exact hl rfl)
  have hpair : (l1 ++ l2 ++ l3).Pairwise (fun p q => HD p.2 q.2) := by
    rw [List.pairwise_append, List.pairwise_append]
    refine ⟨⟨?_, ?_, ?_⟩, ?_, ?_⟩
    · rcases hl1 with h | ⟨s, h, _⟩ <;> rw [h] <;> simp
    · rw [List.pairwise_map]
      have h1 : (es.filter (fun k => k.length != 1)).Pairwise (fun u v => u.head? ≠ v.head?) := hes.filter _
      have h2 := (hperm.pairwise_iff (R := fun u v : Word => u.head? ≠ v.head?) (fun {a b} h he => h he.symm)).2 h1
      refine h2.imp ?_
      intro s s' h u v hu hv _ _
      simp only at hu hv
      rw [hu, hv]; exact h
    · intro p hp q hq
      rcases hl1 with h | ⟨s, h, _⟩
      · rw [h] at hp; simp at hp
      · rw [h] at hp
        rw [List.mem_singleton.1 hp]
        obtain ⟨s', hs', rfl⟩ := List.mem_map.1 hq
        rintro u v ⟨c, rfl, hc⟩ hv _ _
        simp only at hv
        rw [hv]
        exact hcs c hc s' ((hsort s').1 hs').1 ((hsort s').1 hs').2
    · rw [List.pairwise_map]
      exact hts
    · intro p hp q hq
      obtain ⟨t, ht', rfl⟩ := List.mem_map.1 hq
      rcases List.mem_append.1 hp with hp | hp
      · rcases hl1 with h | ⟨s, h, _⟩
        · rw [h] at hp; simp at hp
        · rw [h] at hp
          rw [List.mem_singleton.1 hp]
          rintro u v ⟨c, rfl, hc⟩ hv h1 h2
          exact het [c] (mem_charsOf.1 hc) t ht' [c] v rfl hv h1 h2
      · obtain ⟨s', hs', rfl⟩ := List.mem_map.1 hp
        exact het s' ((hsort s').1 hs').1 t ht'
  have hnil : l1 ++ l2 ++ l3 ≠ [] := by
    rcases hne with hne | hne
    · obtain ⟨w, hw⟩ := List.exists_mem_of_ne_nil es hne
      by_cases h1 : w.length = 1
      · obtain ⟨c, rfl⟩ := List.length_eq_one_iff.1 h1
        have hc : c ∈ charsOf es := mem_charsOf.2 hw
        rcases hl1 with h | ⟨s, h, _⟩
        · exfalso
          obtain ⟨s, hs, _⟩ := charAlt_atom (charsOf es) (fun h0 => by rw [h0] at hc; simp at hc)
          simp [l1, hs] at h
        · rw [h]; simp
      · exact List.ne_nil_of_mem (List.mem_append_left _ (List.mem_append_right _ (List.mem_map.2 ⟨w, (hsort w).2 ⟨hw, h1⟩, rfl⟩)))
    · obtain ⟨t, ht'⟩ := List.exists_mem_of_ne_nil ts hne
      exact List.ne_nil_of_mem (List.mem_append_right _ (List.mem_map.2 ⟨t, ht', rfl⟩))
  obtain ⟨a, h1, h2, _⟩ := join_good _ hnil hall hpair
  rw [hfst] at h1
  exact ⟨a, h1, h2⟩

variable [TupleOrder]

theorem group_good (es : List Word) (ts : List (List Part × Word)) (hok : ItemOk (.grp es ts))
    (hes : es.Pairwise (fun u v => u.head? ≠ v.head?))
    (hts : ts.Pairwise (fun t u => HD (partsLang t.1) (partsLang u.1)))
    (het : ∀ e ∈ es, ∀ t ∈ ts, HD (fun w => w = e) (partsLang t.1))
    (hg : ∀ t ∈ ts, ∃ a, Reads .alt t.2 a ∧ Good a) :
    ∃ a, Reads .alt (itemText (.grp es ts)) a ∧ Good a :=
  groupAlts_good es (TupleOrder.ord ts) (ord_ok hok) hes
    (((TupleOrder.perm ts).pairwise_iff (fun {_ _} h => HD.symm h)).2 hts)
    (fun e he t ht => het e he t (ord_mem.1 ht)) (fun t ht => hg t (ord_mem.1 ht))

/-! ## The tuples made of a trie -/

theorem partsItems_append (ps qs : List Part) : partsItems (ps ++ qs) = partsItems ps ++ partsItems qs := by
  induction ps with
  | nil => simp [partsItems]
  | cons p ps ih => simp only [List.cons_append, partsItems, ih, List.append_assoc]

/-- What the tuples look like: parts of which the words start with different characters, and at the
    end at most one set of alternatives that start with different characters. -/
inductive Fwd : List Part → Prop
  | nil : Fwd []
  | app (ps qs : List Part) : PartsOk ps → Heads (partsLang ps) → Fwd qs → Fwd (ps ++ qs)
  | set (alts : List Alt) : PartOk (.set alts) → 2 ≤ alts.length → (∀ ps, Alt.tup ps ∈ alts → Fwd ps) →
      alts.Pairwise AltHD → Fwd [.set alts]

omit [TupleOrder] in
theorem Fwd.ok {ps : List Part} (h : Fwd ps) : PartsOk ps := by
  induction h with
  | nil => trivial
  | app ps qs h1 _ _ ih => exact partsOk_append.2 ⟨h1, ih⟩
  | set alts h1 => exact ⟨h1, trivial⟩

omit [TupleOrder] in
theorem adj_det_append {xs ys : List Counted} (h : ∀ x ∈ xs, PrefixFree (itemLang x.item)) (hy : Adj ys) : Adj (xs ++ ys) := by
  induction xs with
  | nil => exact hy
  | cons x xs ih =>
    have ih := ih (fun y hy => h y (List.mem_cons_of_mem _ hy))
    rw [List.cons_append]
    cases hxs : xs ++ ys with
    | nil => trivial
    | cons z zs =>
      rw [hxs] at ih
      exact ⟨fun _ => h x List.mem_cons_self, ih⟩

omit [TupleOrder] in
theorem adj_append_det {xs : List Counted} (h : Adj xs) {y : Counted} (hy : PrefixFree (itemLang y.item)) : Adj (xs ++ [y]) := by
  induction xs with
  | nil => trivial
  | cons x xs ih =>
    have ih := ih h.tail
    cases xs with
    | nil =>
      refine ⟨fun he => ?_, trivial⟩
      rw [item_eqv _ _ he]; exact hy
    | cons z zs => exact ⟨h.1, ih⟩

theorem tups_length : (as : List Alt) → hasNone as = false → exprsOf as = [] → (tupsOf as).length = as.length
  | [], _, _ => rfl
  | .none :: as, h, _ => by simp [hasNone] at h
  | .str s :: as, _, h => by simp [exprsOf] at h
  | .tup ps :: as, h, h' => by
    simp only [tupsOf, List.length_cons]
    rw [tups_length as (by simpa [hasNone] using h) (by simpa [exprsOf] using h')]

theorem tupsOf_eq {t : List Part × List Counted} : (as : List Alt) → t ∈ tupsOf as →
    Alt.tup t.1 ∈ as ∧ t.2 = mergeAll (partsItems t.1)
  | [], h => by simp [tupsOf] at h
  | .none :: as, h => by
    obtain ⟨h1, h2⟩ := tupsOf_eq as (by simpa [tupsOf] using h)
    exact ⟨List.mem_cons_of_mem _ h1, h2⟩
  | .str s :: as, h => by
    obtain ⟨h1, h2⟩ := tupsOf_eq as (by simpa [tupsOf] using h)
    exact ⟨List.mem_cons_of_mem _ h1, h2⟩
  | .tup ps :: as, h => by
    simp only [tupsOf] at h
    rcases List.mem_cons.1 h with rfl | h
    · exact ⟨List.mem_cons_self, rfl⟩
    · obtain ⟨h1, h2⟩ := tupsOf_eq as h
      exact ⟨List.mem_cons_of_mem _ h1, h2⟩

omit [TupleOrder] in
theorem exprs_pairwise : (as : List Alt) → AltsOk as → as.Pairwise AltHD → (exprsOf as).Pairwise (fun u v => u.head? ≠ v.head?)
  | [], _, _ => by simp [exprsOf]
  | .none :: as, h, hp => exprs_pairwise as h.2 (List.pairwise_cons.1 hp).2
  | .tup _ :: as, h, hp => exprs_pairwise as h.2 (List.pairwise_cons.1 hp).2
  | .str s :: as, h, hp => by
    simp only [exprsOf]
    rw [List.pairwise_cons] at hp ⊢
    refine ⟨fun e he => ?_, exprs_pairwise as h.2 hp.2⟩
    have he' := (exprsOf_mem as).1 he
    have hne : e ≠ [] := altsOk_mem.1 h.2 _ he'
    exact hp.1 _ he' s e rfl rfl h.1 hne

theorem tups_pairwise : (as : List Alt) → as.Pairwise AltHD → (tupsOf as).Pairwise (fun t u => HD (partsLang t.1) (partsLang u.1))
  | [], _ => by simp [tupsOf]
  | .none :: as, hp => tups_pairwise as (List.pairwise_cons.1 hp).2
  | .str _ :: as, hp => tups_pairwise as (List.pairwise_cons.1 hp).2
  | .tup ps :: as, hp => by
    simp only [tupsOf]
    rw [List.pairwise_cons] at hp ⊢
    refine ⟨fun t ht => ?_, tups_pairwise as hp.2⟩
    exact hp.1 _ (tupsOf_eq as ht).1

/-- The items of such a tuple prefer a longer match. -/
theorem Fwd.items {ps : List Part} (h : Fwd ps) : Adj (partsItems ps) ∧ ∃ q, Impl (partsItems ps) q ∧ Good q := by
  induction h with
  | nil => exact ⟨trivial, _, .nil, fun r => goodL_one r⟩
  | app ps qs hok hh hq ih =>
    obtain ⟨h1, b, h2, h3⟩ := ih
    obtain ⟨h4, h5⟩ := partsItems_spec ps hok
    rw [partsItems_append]
    have hheads : Heads (itemsLang (partsItems ps)) := by rw [h5]; exact hh
    refine ⟨adj_det_append (heads_items h4 hheads) h1, ?_⟩
    obtain ⟨a, ha⟩ := impl_exists _ h4
    have hs := impl_sem ha h4
    obtain ⟨c, hc, hcs⟩ := impl_append ha h2
    exact ⟨c, hc, ((sem_const hs hheads.prefixFree).cat_good h3).congr hcs.symm⟩
  | set alts hok hlen _ hpair ih =>
    have hitems : partsItems [.set alts] = setItems (if hasNone alts then 0 else 1) (exprsOf alts) (tupsOf alts) := by
      simp [partsItems, partItems]
    rw [hitems]
    obtain ⟨hto, htm⟩ := tupsOf_spec alts hok.2
    obtain ⟨hall, _⟩ := partsItems_spec [.set alts] ⟨hok, trivial⟩
    rw [hitems] at hall
    have htup : ∀ t ∈ tupsOf alts, ∃ q, Impl t.2 q ∧ Good q := by
      intro t ht
      obtain ⟨h1, h2⟩ := tupsOf_eq alts ht
      obtain ⟨h3, q, h4, h5⟩ := ih t.1 h1
      have hok' : PartsOk t.1 := (altsOk_mem.1 hok.2 _ h1).1
      obtain ⟨q', h6, h7⟩ := mergeAll_impl _ (partsItems_spec _ hok').1 h3 q h4
      rw [h2]
      exact ⟨q', h6, h5.congr h7.symm⟩
    have hne : exprsOf alts ≠ [] ∨ tupsOf alts ≠ [] := by
      obtain ⟨a, ha, hp⟩ := List.any_eq_true.1 hok.1
      cases a with
      | none => simp [Alt.proper] at hp
      | str s => exact Or.inl (List.ne_nil_of_mem ((exprsOf_mem alts).2 ha))
      | tup ps =>
        obtain ⟨t, ht, _⟩ := (htm ps).1 ha
        exact Or.inr (List.ne_nil_of_mem ht)
    -- an item that is optional or not
    have one : ∀ (x : Counted) (p : Pat Char), Reads .alt (itemText x.item) p → Good p →
        x.lo = (if hasNone alts then 0 else 1) → x.hi = 1 → Adj [x] ∧ ∃ q, Impl [x] q ∧ Good q := by
      intro x p hp hg hlo hhi
      obtain ⟨q, h1, h2⟩ := impl_one hp
      refine ⟨trivial, q, h1, ?_⟩
      rw [hhi, hlo] at h2
      split at h2
      · exact hg.opt.congr ((rep_opt_same p).symm.trans h2.symm)
      · exact hg.congr ((rep_one_same p).symm.trans h2.symm)
    have hgrp : ∀ x, x = (⟨.grp (exprsOf alts) ((tupsOf alts).map (fun t => (t.1, render t.2))), if hasNone alts then 0 else 1, 1⟩ : Counted) →
        Adj [x] ∧ ∃ q, Impl [x] q ∧ Good q := by
      rintro x rfl
      obtain ⟨a, ha, hag⟩ := group_good (exprsOf alts) ((tupsOf alts).map (fun t => (t.1, render t.2))) (by
          refine ⟨?_, ?_, fun e he => altsOk_mem.1 hok.2 _ ((exprsOf_mem alts).1 he)⟩
          · rcases hne with h | h
            · exact Or.inl h
            · exact Or.inr (by simpa using h)
          · intro t ht
            obtain ⟨t', ht', rfl⟩ := List.mem_map.1 ht
            simp only
            refine ⟨?_, (hto t' ht').2.2⟩
            rw [← (hto t' ht').2.1]
            exact render_spec _ (hto t' ht').1)
        (exprs_pairwise alts hok.2 hpair)
        (by rw [List.pairwise_map]; exact tups_pairwise alts hpair)
        (by
          intro e he t ht
          obtain ⟨t', ht', rfl⟩ := List.mem_map.1 ht
          have h1 := (exprsOf_mem alts).1 he
          have h2 := (tupsOf_eq alts ht').1
          exact pairwise_mem (fun _ _ h => HD.symm h) hpair h1 h2 (by simp))
        (by
          intro t ht
          obtain ⟨t', ht', rfl⟩ := List.mem_map.1 ht
          obtain ⟨q, h1, h2⟩ := htup t' ht'
          obtain ⟨q', h3, h4⟩ := render_reads h1 (hto t' ht').1
          exact ⟨q', h3, h2.congr h4.symm⟩)
      exact one _ a ha hag rfl rfl
    have hn : hasNone alts = false → exprsOf alts = [] → 2 ≤ (tupsOf alts).length := fun h1 h2 => by
      rw [tups_length alts h1 h2]; exact hlen
    generalize hasNone alts = n at hgrp one hn
    clear hall hitems
    generalize exprsOf alts = es at hgrp hn
    generalize hts : tupsOf alts = ts at hgrp hn
    have htup' : ∀ t ∈ ts, ∃ q, Impl t.2 q ∧ Good q := hts ▸ htup
    have hto' : TupsOk ts := hts ▸ hto
    have hstr : ∀ e : Word, Adj [⟨.str e, if n then 0 else 1, 1⟩] ∧ ∃ q, Impl [⟨.str e, if n then 0 else 1, 1⟩] q ∧ Good q := by
      intro e
      obtain ⟨a, ha, hag, _⟩ := good_den (.single _ _ (escape_seq e)) (singleton_prefixFree e)
      exact one ⟨.str e, _, 1⟩ a ha hag rfl rfl
    match es, ts, hgrp, htup', hto', hn with
    | [], [t], hgrp, htup', hto', hn =>
      cases n with
      | false =>
        have := hn rfl rfl
        simp at this
      | true =>
        have hg := hgrp _ rfl
        unfold setItems
        simp only [if_true]
        rw [if_neg (by omega)]
        split
        · next x hx =>
          split
          · next hx1 =>
            refine ⟨trivial, ?_⟩
            obtain ⟨q, h1, h2⟩ := htup' t List.mem_cons_self
            have hxo := (hto' t List.mem_cons_self).1 x (by rw [hx]; exact List.mem_cons_self)
            rw [hx] at h1
            cases h1 with
            | cons _ _ p _ hp h1 =>
              cases h1
              obtain ⟨q', h3, h4⟩ := impl_one (x := ⟨x.item, 0, x.hi⟩) hp
              refine ⟨q', h3, ?_⟩
              have h5 := (h2.congr (same_cat_eps _)).opt
              exact h5.congr ((rep_or_eps p hx1 hxo.le hxo.hi).trans h4.symm)
          · exact hg
        · exact hg
    | [e], [], hgrp, _, _, _ => exact hstr e
    | [], [], hgrp, _, _, _ => exact hgrp _ rfl
    | [], _ :: _ :: _, hgrp, _, _, _ => exact hgrp _ rfl
    | [e], _ :: _, hgrp, _, _, _ => exact hgrp _ rfl
    | _ :: _ :: _, _, hgrp, _, _, _ => exact hgrp _ rfl

/-- And so does the expression, also with a word added. -/
theorem Fwd.good {ps : List Part} (h : Fwd ps) (s : Word) : ∃ q, Reads .alt (buildRegexp (if s = [] then ps else ps ++ [.str s])) q ∧ Good q := by
  obtain ⟨h1, q, h2, h3⟩ := h.items
  obtain ⟨h4, _⟩ := partsItems_spec ps h.ok
  have fin : ∀ xs : List Counted, (∀ x ∈ xs, CountedOk x) → Adj xs → (∃ q, Impl xs q ∧ Good q) →
      ∃ q, Reads .alt (render (mergeAll xs)) q ∧ Good q := by
    rintro xs hx ha ⟨q, hq, hg⟩
    obtain ⟨q', h5, h6⟩ := mergeAll_impl xs hx ha q hq
    obtain ⟨q'', h7, h8⟩ := render_reads h5 (mergeAll_spec xs hx).2
    exact ⟨q'', h7, (hg.congr h6.symm).congr h8.symm⟩
  unfold buildRegexp
  split
  · exact fin _ h4 h1 ⟨q, h2, h3⟩
  · next hs =>
    have happ : partsItems (ps ++ [.str s]) = partsItems ps ++ [⟨.str s, 1, 1⟩] := by
      rw [partsItems_append]; rfl
    rw [happ]
    have hso : CountedOk ⟨.str s, 1, 1⟩ := ⟨Nat.le_refl _, Nat.le_refl _, hs⟩
    refine fin _ ?_ (adj_append_det h1 (singleton_prefixFree s)) ?_
    · intro x hx
      rcases List.mem_append.1 hx with hx | hx
      · exact h4 x hx
      · rw [List.mem_singleton.1 hx]; exact hso
    · obtain ⟨b, hb⟩ := impl_exists [⟨.str s, 1, 1⟩] (fun x hx => by rw [List.mem_singleton.1 hx]; exact hso)
      have hbs := impl_sem hb (fun x hx => by rw [List.mem_singleton.1 hx]; exact hso)
      obtain ⟨c, hc, hcs⟩ := impl_append h2 hb
      refine ⟨c, hc, (h3.cat_word (s := s) ?_).congr hcs.symm⟩
      refine sem_congr hbs (fun w => ?_)
      simp only [itemsLang, Lang.cat_nil, Counted.lang, Lang.rep_one, itemLang]

end Parce.Rx

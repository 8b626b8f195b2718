import Verif.Lemmas.Regex
/-!
# Lemmas for regular expressions: the tuples made of a trie
-/
namespace Parce.Rx

mutual
/-- The words of a part. -/
def partLang : Part → Lang
  | .str s => fun w => w = s
  | .set alts => altsLang alts
def altLang : Alt → Lang
  | .none => fun w => w = []
  | .str s => fun w => w = s
  | .tup ps => partsLang ps
def partsLang : List Part → Lang
  | [] => fun w => w = []
  | p :: ps => (partLang p).cat (partsLang ps)
def altsLang : List Alt → Lang
  | [] => fun _ => False
  | a :: as => fun w => altLang a w ∨ altsLang as w
end

def Alt.proper : Alt → Bool
  | .none => false
  | _ => true

mutual
/-- Strings are not empty, sets have a string or tuple, and the tuples in them do not match the
    empty word. -/
def PartOk : Part → Prop
  | .str s => s ≠ []
  | .set alts => alts.any Alt.proper = true ∧ AltsOk alts
def AltOk : Alt → Prop
  | .none => True
  | .str s => s ≠ []
  | .tup ps => PartsOk ps ∧ ¬ partsLang ps []
def PartsOk : List Part → Prop
  | [] => True
  | p :: ps => PartOk p ∧ PartsOk ps
def AltsOk : List Alt → Prop
  | [] => True
  | a :: as => AltOk a ∧ AltsOk as
end

theorem partsLang_append (ps qs : List Part) : partsLang (ps ++ qs) = (partsLang ps).cat (partsLang qs) := by
  induction ps with
  | nil => simp only [List.nil_append, partsLang, Lang.nil_cat]
  | cons p ps ih => simp only [List.cons_append, partsLang, ih, Lang.cat_assoc]

theorem altsLang_mem {as : List Alt} {w : Word} : altsLang as w ↔ ∃ a ∈ as, altLang a w := by
  induction as with
  | nil => simp [altsLang]
  | cons a as ih => simp [altsLang, ih]

theorem altsOk_mem {as : List Alt} : AltsOk as ↔ ∀ a ∈ as, AltOk a := by
  induction as with
  | nil => simp [AltsOk]
  | cons a as ih => simp [AltsOk, ih]

theorem partsOk_append {ps qs : List Part} : PartsOk (ps ++ qs) ↔ PartsOk ps ∧ PartsOk qs := by
  induction ps with
  | nil => simp [PartsOk]
  | cons p ps ih => simp [PartsOk, ih, and_assoc]

mutual
theorem part_eqv : (p q : Part) → p.eqv q = true → ∀ w, partLang p w ↔ partLang q w
  | .str s, .str t, h, w => by
    simp only [Part.eqv, beq_iff_eq] at h
    rw [h]
  | .set a, .set b, h, w => by
    simp only [Part.eqv, Bool.and_eq_true] at h
    simp only [partLang]
    constructor
    · exact allIn_lang a b h.1 w
    · intro hw
      obtain ⟨y, hy, hyw⟩ := altsLang_mem.1 hw
      exact anyEq_lang a y (List.all_eq_true.1 h.2 y hy) w hyw
  | .str _, .set _, h, _ => by simp [Part.eqv] at h
  | .set _, .str _, h, _ => by simp [Part.eqv] at h
theorem alt_eqv : (p q : Alt) → p.eqv q = true → ∀ w, altLang p w ↔ altLang q w
  | .none, .none, _, _ => Iff.rfl
  | .str s, .str t, h, w => by
    simp only [Alt.eqv, beq_iff_eq] at h
    rw [h]
  | .tup ps, .tup qs, h, w => by
    simp only [altLang]
    exact parts_eqv ps qs (by simpa only [Alt.eqv] using h) w
  | .none, .str _, h, _ => by simp [Alt.eqv] at h
  | .none, .tup _, h, _ => by simp [Alt.eqv] at h
  | .str _, .none, h, _ => by simp [Alt.eqv] at h
  | .str _, .tup _, h, _ => by simp [Alt.eqv] at h
  | .tup _, .none, h, _ => by simp [Alt.eqv] at h
  | .tup _, .str _, h, _ => by simp [Alt.eqv] at h
theorem parts_eqv : (ps qs : List Part) → partsEqv ps qs = true → ∀ w, partsLang ps w ↔ partsLang qs w
  | [], [], _, _ => Iff.rfl
  | p :: ps, q :: qs, h, w => by
    simp only [partsEqv, Bool.and_eq_true] at h
    simp only [partsLang, Lang.cat]
    constructor
    · rintro ⟨a, b, rfl, ha, hb⟩
      exact ⟨a, b, rfl, (part_eqv p q h.1 a).1 ha, (parts_eqv ps qs h.2 b).1 hb⟩
    · rintro ⟨a, b, rfl, ha, hb⟩
      exact ⟨a, b, rfl, (part_eqv p q h.1 a).2 ha, (parts_eqv ps qs h.2 b).2 hb⟩
  | [], _ :: _, h, _ => by simp [partsEqv] at h
  | _ :: _, [], h, _ => by simp [partsEqv] at h
theorem allIn_lang : (as bs : List Alt) → allIn as bs = true → ∀ w, altsLang as w → altsLang bs w
  | [], _, _, _, h => h.elim
  | a :: as, bs, hin, w, h => by
    simp only [allIn, Bool.and_eq_true] at hin
    rcases h with h | h
    · obtain ⟨y, hy, hye⟩ := List.any_eq_true.1 hin.1
      exact altsLang_mem.2 ⟨y, hy, (alt_eqv a y hye w).1 h⟩
    · exact allIn_lang as bs hin.2 w h
theorem anyEq_lang : (as : List Alt) → (y : Alt) → anyEq as y = true → ∀ w, altLang y w → altsLang as w
  | [], _, h, _, _ => by simp [anyEq] at h
  | a :: as, y, h, w, hw => by
    simp only [anyEq, Bool.or_eq_true] at h
    rcases h with h | h
    · exact Or.inl ((alt_eqv a y h w).2 hw)
    · exact Or.inr (anyEq_lang as y h w hw)
end

theorem alt_eqv_proper : (p q : Alt) → p.eqv q = true → p.proper = q.proper
  | .none, .none, _ => rfl
  | .str s, .str t, _ => rfl
  | .tup ps, .tup qs, _ => rfl
  | .none, .str _, h => by simp [Alt.eqv] at h
  | .none, .tup _, h => by simp [Alt.eqv] at h
  | .str _, .none, h => by simp [Alt.eqv] at h
  | .str _, .tup _, _ => rfl
  | .tup _, .none, h => by simp [Alt.eqv] at h
  | .tup _, .str _, _ => rfl

theorem anyEq_proper : (as : List Alt) → (y : Alt) → anyEq as y = true → y.proper = true → as.any Alt.proper = true
  | [], _, h, _ => by simp [anyEq] at h
  | a :: as, y, h, hy => by
    simp only [anyEq, Bool.or_eq_true] at h
    simp only [List.any_cons, Bool.or_eq_true]
    rcases h with h | h
    · exact Or.inl (by rw [alt_eqv_proper a y h]; exact hy)
    · exact Or.inr (anyEq_proper as y h hy)

/-- What is kept when alternatives are added. -/
structure Added (gs gs' : List Alt) (L : Lang) : Prop where
  lang : ∀ w, altsLang gs' w ↔ altsLang gs w ∨ L w
  ok : AltsOk gs → AltsOk gs'
  proper : gs'.any Alt.proper = true
  len : gs.length ≤ gs'.length

theorem addAlt_spec (gs : List Alt) (x : Alt) (hx : AltOk x) (hp : x.proper = true) : Added gs (addAlt gs x) (altLang x) := by
  unfold addAlt
  split
  · next h =>
    refine ⟨fun w => ?_, id, anyEq_proper gs x h hp, Nat.le_refl _⟩
    constructor
    · exact Or.inl
    · rintro (h' | h')
      · exact h'
      · exact anyEq_lang gs x h w h'
  · refine ⟨fun w => ?_, fun h => ?_, by simp [hp], by simp⟩
    · simp only [altsLang_mem, List.mem_append, List.mem_singleton]
      constructor
      · rintro ⟨a, ha | rfl, hw⟩
        · exact Or.inl ⟨a, ha, hw⟩
        · exact Or.inr hw
      · rintro (⟨a, ha, hw⟩ | hw)
        · exact ⟨a, Or.inl ha, hw⟩
        · exact ⟨x, Or.inr rfl, hw⟩
    · rw [altsOk_mem] at h ⊢
      intro a ha
      rcases List.mem_append.1 ha with ha | ha
      · exact h a ha
      · rw [List.mem_singleton.1 ha]; exact hx

theorem Added.trans {a b c : List Alt} {L M : Lang} (h1 : Added a b L) (h2 : Added b c M) :
    Added a c (fun w => L w ∨ M w) :=
  ⟨fun w => by rw [h2.lang, h1.lang, or_assoc], fun h => h2.ok (h1.ok h), h2.proper, Nat.le_trans h1.len h2.len⟩

theorem Added.congr {a b : List Alt} {L M : Lang} (h : Added a b L) (he : ∀ w, L w ↔ M w) : Added a b M :=
  ⟨fun w => by rw [h.lang, he], h.ok, h.proper, h.len⟩

theorem addKeys_spec : (keys : List Word) → keys ≠ [] → (∀ k ∈ keys, k ≠ []) → (gs : List Alt) →
    Added gs ((keys.map Alt.str).foldl addAlt gs) (fun w => w ∈ keys)
  | [], h, _, _ => absurd rfl h
  | [k], _, hk, gs => by
    have := addAlt_spec gs (.str k) (hk k List.mem_cons_self) rfl
    exact this.congr (fun w => by simp [altLang])
  | k :: l :: keys, _, hk, gs => by
    have h1 := addAlt_spec gs (.str k) (hk k List.mem_cons_self) rfl
    have h2 := addKeys_spec (l :: keys) (by simp) (fun k hk' => hk k (List.mem_cons_of_mem _ hk')) (addAlt gs (.str k))
    exact (h1.trans h2).congr (fun w => by simp [altLang])

/-- A group: keys, and the right tuple for the node. -/
structure GroupOk (rev : Bool) (g : Group) : Prop where
  ne : g.keys ≠ []
  keys : ∀ k ∈ g.keys, k ≠ []
  live : g.node.Live
  ok : PartsOk g.r
  lang : ∀ w, partsLang g.r w ↔ g.node.lang rev w

def Group.lang (rev : Bool) (g : Group) : Lang := fun w => ∃ k ∈ g.keys, ∃ v, w = addKey rev k v ∧ g.node.lang rev v

theorem leaf_lang {rev : Bool} {t : Trie} (h : t.Live) (hk : t.kids.isEmpty = true) (w : Word) : t.lang rev w ↔ w = [] := by
  cases t with
  | node f ks =>
    simp only [Trie.kids, List.isEmpty_iff] at hk
    subst hk
    rcases h.1 with h | h
    · simp only [Trie.fin] at h
      subst h
      simp [Trie.lang, kidsLang]
    · exact absurd rfl h

theorem combine_lang (rev : Bool) (ps qs : List Part) (w : Word) :
    partsLang (combine rev ps qs) w ↔ ∃ a b, w = addKey rev a b ∧ partsLang ps a ∧ partsLang qs b := by
  unfold combine addKey
  cases rev with
  | false =>
    simp only [Bool.false_eq_true, if_false, partsLang_append]
    exact Iff.rfl
  | true =>
    simp only [if_true, partsLang_append]
    constructor
    · rintro ⟨a, b, rfl, ha, hb⟩; exact ⟨b, a, rfl, hb, ha⟩
    · rintro ⟨a, b, rfl, ha, hb⟩; exact ⟨b, a, rfl, hb, ha⟩

theorem combine_ok (rev : Bool) {ps qs : List Part} (h1 : PartsOk ps) (h2 : PartsOk qs) : PartsOk (combine rev ps qs) := by
  unfold combine
  split
  · exact partsOk_append.2 ⟨h2, h1⟩
  · exact partsOk_append.2 ⟨h1, h2⟩

theorem combine_ne (rev : Bool) {ps qs : List Part} (h : ¬ partsLang ps []) : ¬ partsLang (combine rev ps qs) [] := by
  rw [combine_lang]
  rintro ⟨a, b, he, ha, hb⟩
  cases rev with
  | false => simp only [addKey, Bool.false_eq_true, if_false] at he; rw [(List.append_eq_nil_iff.1 he.symm).1] at ha; exact h ha
  | true => simp only [addKey, if_true] at he; rw [(List.append_eq_nil_iff.1 he.symm).2] at ha; exact h ha

theorem addKey_nil (rev : Bool) (k : Word) : addKey rev k [] = k := by cases rev <;> simp [addKey]

theorem str_lang (k w : Word) : partsLang [.str k] w ↔ w = k := by
  simp only [partsLang, partLang, Lang.cat_nil]

theorem set_lang (as : List Alt) (w : Word) : partsLang [.set as] w ↔ altsLang as w := by
  simp only [partsLang, partLang, Lang.cat_nil]

theorem keys_lang (keys : List Word) (w : Word) : altsLang (keys.map Alt.str) w ↔ w ∈ keys := by
  rw [altsLang_mem]
  simp only [List.mem_map]
  constructor
  · rintro ⟨_, ⟨k, hk, rfl⟩, h⟩
    simp only [altLang] at h
    rw [h]; exact hk
  · intro h
    exact ⟨_, ⟨w, h, rfl⟩, rfl⟩

/-- One string followed by the tuple of the node. -/
theorem single_spec (rev : Bool) (gs : List Alt) (k : Word) (n : Trie) (r : List Part) (hg : GroupOk rev ⟨[k], n, r⟩) :
    Added gs (if n.kids.isEmpty then addAlt gs (.str k) else addAlt gs (.tup (combine rev [.str k] r)))
      (Group.lang rev ⟨[k], n, r⟩) := by
  have hk : k ≠ [] := hg.keys k List.mem_cons_self
  split
  · next he =>
    refine (addAlt_spec gs (.str k) hk rfl).congr (fun w => ?_)
    simp only [altLang, Group.lang, List.mem_singleton]
    constructor
    · rintro rfl
      exact ⟨w, rfl, [], by rw [addKey_nil], (leaf_lang hg.live he []).2 rfl⟩
    · rintro ⟨_, rfl, v, rfl, hv⟩
      rw [(leaf_lang hg.live he v).1 hv, addKey_nil]
  · refine (addAlt_spec gs (.tup _) ⟨combine_ok rev (ps := [.str k]) ⟨hk, trivial⟩ hg.ok,
      combine_ne rev (fun h => hk ((str_lang k []).1 h).symm)⟩ rfl).congr (fun w => ?_)
    simp only [altLang, Group.lang, List.mem_singleton, combine_lang, str_lang]
    constructor
    · rintro ⟨a, b, rfl, rfl, hb⟩
      exact ⟨a, rfl, b, rfl, (hg.lang b).1 hb⟩
    · rintro ⟨_, rfl, v, rfl, hv⟩
      exact ⟨_, v, rfl, rfl, (hg.lang v).2 hv⟩

theorem leafKeys_spec (rev : Bool) (gs : List Alt) (g : Group) (hg : GroupOk rev g) (he : g.node.kids.isEmpty = true) :
    Added gs ((g.keys.map Alt.str).foldl addAlt gs) (g.lang rev) := by
  refine (addKeys_spec g.keys hg.ne hg.keys gs).congr (fun w => ?_)
  simp only [Group.lang]
  constructor
  · intro h
    exact ⟨w, h, [], by rw [addKey_nil], (leaf_lang hg.live he []).2 rfl⟩
  · rintro ⟨k, hk, v, rfl, hv⟩
    rw [(leaf_lang hg.live he v).1 hv, addKey_nil]
    exact hk

theorem combined_spec (rev : Bool) (gs : List Alt) (g : Group) (hg : GroupOk rev g) (r : List Part) (hr : PartsOk r)
    (hl : ∀ w, partsLang r w ↔ w ∈ g.keys) : Added gs (addAlt gs (.tup (combine rev r g.r))) (g.lang rev) := by
  refine (addAlt_spec gs (.tup _) ⟨combine_ok rev hr hg.ok,
    combine_ne rev (fun h => hg.keys [] ((hl []).1 h) rfl)⟩ rfl).congr (fun w => ?_)
  simp only [altLang, Group.lang, combine_lang, hl]
  constructor
  · rintro ⟨a, b, rfl, ha, hb⟩
    exact ⟨a, ha, b, rfl, (hg.lang b).1 hb⟩
  · rintro ⟨a, ha, v, rfl, hv⟩
    exact ⟨a, v, rfl, ha, (hg.lang v).2 hv⟩

theorem keysSet_ok {keys : List Word} (hne : keys ≠ []) (hk : ∀ k ∈ keys, k ≠ []) : PartsOk [.set (keys.map Alt.str)] := by
  refine ⟨⟨?_, ?_⟩, trivial⟩
  · cases keys with
    | nil => exact absurd rfl hne
    | cons k ks => simp [Alt.proper]
  · rw [altsOk_mem]
    intro a ha
    obtain ⟨k, hk', rfl⟩ := List.mem_map.1 ha
    exact hk k hk'

theorem addGroupR_spec (gs : List Alt) (g : Group) (hg : GroupOk true g) : Added gs (addGroupR gs g) (g.lang true) := by
  obtain ⟨keys, n, r⟩ := g
  unfold addGroupR
  simp only
  split
  · exact single_spec true gs _ n r hg
  · split
    · next he => exact leafKeys_spec true gs _ hg he
    · exact combined_spec true gs _ hg _ (keysSet_ok hg.ne hg.keys) (fun w => by rw [set_lang, keys_lang])

/-- The groups for keys and nodes. -/
theorem addKid_spec (rev : Bool) : (gs : List Group) → (∀ g ∈ gs, GroupOk rev g) → (k : Word) → (n : Trie) → (r : List Part) →
    GroupOk rev ⟨[k], n, r⟩ → (∀ g ∈ addKid gs (k, n, r), GroupOk rev g) ∧ (addKid gs (k, n, r)) ≠ [] ∧
    ∀ w, (∃ g ∈ addKid gs (k, n, r), g.lang rev w) ↔ (∃ g ∈ gs, g.lang rev w) ∨ ∃ v, w = addKey rev k v ∧ n.lang rev v
  | [], _, k, n, r, hg => by
    simp only [addKid]
    refine ⟨fun g h => by rw [List.mem_singleton.1 h]; exact hg, by simp, fun w => ?_⟩
    simp [Group.lang]
  | g :: gs, h, k, n, r, hg => by
    simp only [addKid]
    have hg0 := h g List.mem_cons_self
    split
    · next he =>
      refine ⟨?_, by simp, fun w => ?_⟩
      · intro g' hg'
        rcases List.mem_cons.1 hg' with rfl | hg'
        · refine ⟨by simp, ?_, hg0.live, hg0.ok, hg0.lang⟩
          intro k' hk'
          rcases List.mem_append.1 hk' with hk' | hk'
          · exact hg0.keys k' hk'
          · rw [List.mem_singleton.1 hk']; exact hg.keys k List.mem_cons_self
        · exact h g' (List.mem_cons_of_mem _ hg')
      · simp only [List.mem_cons, Group.lang]
        constructor
        · rintro ⟨g', rfl | hg', k', hk', v, rfl, hv⟩
          · rcases List.mem_append.1 hk' with hk' | hk'
            · exact Or.inl ⟨g, Or.inl rfl, k', hk', v, rfl, hv⟩
            · rw [List.mem_singleton.1 hk']
              exact Or.inr ⟨v, rfl, (trie_eqv rev g.node n he v).1 hv⟩
          · exact Or.inl ⟨g', Or.inr hg', k', hk', v, rfl, hv⟩
        · rintro (⟨g', rfl | hg', k', hk', v, rfl, hv⟩ | ⟨v, rfl, hv⟩)
          · exact ⟨_, Or.inl rfl, k', List.mem_append_left _ hk', v, rfl, hv⟩
          · exact ⟨g', Or.inr hg', k', hk', v, rfl, hv⟩
          · exact ⟨_, Or.inl rfl, k, List.mem_append_right _ (List.mem_singleton.2 rfl), v, rfl, (trie_eqv rev g.node n he v).2 hv⟩
    · obtain ⟨h1, h2, h3⟩ := addKid_spec rev gs (fun g hg => h g (List.mem_cons_of_mem _ hg)) k n r hg
      refine ⟨?_, by simp, fun w => ?_⟩
      · intro g' hg'
        rcases List.mem_cons.1 hg' with rfl | hg'
        · exact hg0
        · exact h1 g' hg'
      · have := h3 w
        constructor
        · rintro ⟨g', hg', hw⟩
          rcases List.mem_cons.1 hg' with rfl | hg'
          · exact Or.inl ⟨g', List.mem_cons_self, hw⟩
          · rcases this.1 ⟨g', hg', hw⟩ with ⟨g'', hg'', hw'⟩ | h'
            · exact Or.inl ⟨g'', List.mem_cons_of_mem _ hg'', hw'⟩
            · exact Or.inr h'
        · rintro (⟨g', hg', hw⟩ | h')
          · rcases List.mem_cons.1 hg' with rfl | hg'
            · exact ⟨g', List.mem_cons_self, hw⟩
            · obtain ⟨g'', hg'', hw'⟩ := this.2 (Or.inl ⟨g', hg', hw⟩)
              exact ⟨g'', List.mem_cons_of_mem _ hg'', hw'⟩
          · obtain ⟨g'', hg'', hw'⟩ := this.2 (Or.inr h')
            exact ⟨g'', List.mem_cons_of_mem _ hg'', hw'⟩

/-- Key, node and tuple. -/
def TripOk (rev : Bool) (p : Word × Trie × List Part) : Prop := GroupOk rev ⟨[p.1], p.2.1, p.2.2⟩

def tripsLang (rev : Bool) (ks : List (Word × Trie × List Part)) : Lang :=
  fun w => ∃ p ∈ ks, ∃ v, w = addKey rev p.1 v ∧ p.2.1.lang rev v

theorem foldKids_spec (rev : Bool) : (ks : List (Word × Trie × List Part)) → (∀ p ∈ ks, TripOk rev p) → (gs : List Group) →
    (∀ g ∈ gs, GroupOk rev g) → (∀ g ∈ ks.foldl addKid gs, GroupOk rev g) ∧ (ks ≠ [] ∨ gs ≠ [] → ks.foldl addKid gs ≠ []) ∧
    ∀ w, (∃ g ∈ ks.foldl addKid gs, g.lang rev w) ↔ (∃ g ∈ gs, g.lang rev w) ∨ tripsLang rev ks w
  | [], _, gs, h => ⟨h, fun h => by simpa using h, fun w => by simp [tripsLang]⟩
  | (k, n, r) :: ks, hk, gs, h => by
    obtain ⟨h1, h2, h3⟩ := addKid_spec rev gs h k n r (hk _ List.mem_cons_self)
    obtain ⟨h4, h5, h6⟩ := foldKids_spec rev ks (fun p hp => hk p (List.mem_cons_of_mem _ hp)) _ h1
    refine ⟨h4, fun _ => h5 (Or.inr h2), fun w => ?_⟩
    rw [List.foldl_cons, h6, h3]
    simp [tripsLang, or_assoc]

theorem foldGroups_spec (rev : Bool) (add : List Alt → Group → List Alt)
    (hadd : ∀ gs g, GroupOk rev g → Added gs (add gs g) (g.lang rev)) : (l : List Group) → l ≠ [] → (∀ g ∈ l, GroupOk rev g) →
    (gs : List Alt) → Added gs (l.foldl add gs) (fun w => ∃ g ∈ l, g.lang rev w)
  | [], h, _, _ => absurd rfl h
  | [g], _, h, gs => (hadd gs g (h g List.mem_cons_self)).congr (fun w => by simp)
  | g :: g' :: l, _, h, gs => by
    have h1 := hadd gs g (h g List.mem_cons_self)
    have h2 := foldGroups_spec rev add hadd (g' :: l) (by simp) (fun g hg => h g (List.mem_cons_of_mem _ hg)) (add gs g)
    exact (h1.trans h2).congr (fun w => by simp)

theorem popGroups_spec (gs : List Alt) (hp : gs.any Alt.proper = true) (hok : AltsOk gs) :
    PartsOk (popGroups gs) ∧ ∀ w, partsLang (popGroups gs) w ↔ altsLang gs w := by
  unfold popGroups
  split
  · exact ⟨hok.1.1, fun w => by simp [altsLang, altLang]⟩
  · exact ⟨⟨hok.1, trivial⟩, fun w => by rw [str_lang]; simp [altsLang, altLang]⟩
  · exact ⟨⟨⟨hp, hok⟩, trivial⟩, fun w => set_lang gs w⟩

theorem tupleOf_spec (rev : Bool) (add : List Alt → Group → List Alt)
    (hadd : ∀ gs g, GroupOk rev g → Added gs (add gs g) (g.lang rev)) (fin : Bool) (ks : List (Word × Trie × List Part))
    (hl : fin = true ∨ ks ≠ []) (hk : ∀ p ∈ ks, TripOk rev p) :
    PartsOk (tupleOf rev add fin ks) ∧
    ∀ w, partsLang (tupleOf rev add fin ks) w ↔ (fin = true ∧ w = []) ∨ tripsLang rev ks w := by
  have hgroup : ks ≠ [] → PartsOk (groupTuple add fin ks) ∧
      ∀ w, partsLang (groupTuple add fin ks) w ↔ (fin = true ∧ w = []) ∨ tripsLang rev ks w := by
    intro hne
    obtain ⟨h1, h2, h3⟩ := foldKids_spec rev ks hk [] (by simp)
    have h4 := foldGroups_spec rev add hadd _ (h2 (Or.inl hne)) h1 (if fin then [.none] else [])
    have hok : AltsOk (if fin = true then [Alt.none] else []) := by
      split <;> simp [AltsOk, AltOk]
    obtain ⟨h5, h6⟩ := popGroups_spec _ h4.proper (h4.ok hok)
    unfold groupTuple
    refine ⟨h5, fun w => ?_⟩
    rw [h6, h4.lang, h3]
    cases fin <;> simp [altsLang, altLang]
  unfold tupleOf
  split
  · next k n r =>
    have h := hk _ List.mem_cons_self
    have h' : GroupOk rev ⟨[k], n, r⟩ := h
    refine ⟨combine_ok rev ⟨h'.keys k List.mem_cons_self, trivial⟩ h'.ok, fun w => ?_⟩
    rw [combine_lang]
    simp only [str_lang, tripsLang, List.mem_singleton, Bool.false_eq_true, false_and, false_or]
    constructor
    · rintro ⟨a, b, rfl, rfl, hb⟩
      exact ⟨_, rfl, b, rfl, (h'.lang b).1 hb⟩
    · rintro ⟨_, rfl, v, rfl, hv⟩
      exact ⟨_, v, rfl, rfl, (h'.lang v).2 hv⟩
  · exact ⟨trivial, fun w => by simp [partsLang, tripsLang]⟩
  · next h1 h2 =>
    apply hgroup
    rcases hl with hl | hl
    · intro he
      exact h2 hl he
    · exact hl

mutual
theorem toTupleR_spec : (t : Trie) → t.Live → PartsOk (toTupleR t) ∧ ∀ w, partsLang (toTupleR t) w ↔ t.lang true w
  | .node fin ks, h => by
    obtain ⟨h1, h2, h3⟩ := tuplesR_spec ks h.2
    have := tupleOf_spec true addGroupR addGroupR_spec fin (tuplesR ks)
      (by rcases h.1 with h | h
          · exact Or.inl h
          · exact Or.inr (fun he => h (h3 he))) h1
    refine ⟨this.1, fun w => ?_⟩
    rw [toTupleR, this.2 w, h2]
    simp only [Trie.lang]
theorem tuplesR_spec : (ks : List (Word × Trie)) → KidsLive ks → (∀ p ∈ tuplesR ks, TripOk true p) ∧
    (∀ w, tripsLang true (tuplesR ks) w ↔ kidsLang true ks w) ∧ (tuplesR ks = [] → ks = [])
  | [], _ => ⟨by simp [tuplesR], fun w => by simp [tuplesR, tripsLang, kidsLang], fun _ => rfl⟩
  | (k, t) :: ks, h => by
    obtain ⟨h1, h2, h3⟩ := tuplesR_spec ks h.2.2.2
    obtain ⟨h4, h5⟩ := toTupleR_spec t ⟨h.2.1, h.2.2.1⟩
    refine ⟨?_, fun w => ?_, fun he => by simp [tuplesR] at he⟩
    · intro p hp
      simp only [tuplesR] at hp
      rcases List.mem_cons.1 hp with rfl | hp
      · exact ⟨by simp, fun k' hk' => by rw [List.mem_singleton.1 hk']; exact h.1, ⟨h.2.1, h.2.2.1⟩, h4, h5⟩
      · exact h1 p hp
    · have := h2 w
      simp only [tripsLang] at this
      simp only [tuplesR, tripsLang, List.mem_cons, kidsLang]
      rw [← this]
      simp
end

theorem addGroup_spec (gs : List Alt) (g : Group) (hg : GroupOk false g) : Added gs (addGroup gs g) (g.lang false) := by
  obtain ⟨keys, n, r⟩ := g
  unfold addGroup
  simp only
  split
  · exact single_spec false gs _ n r hg
  · split
    · next he =>
      simp only [Bool.and_eq_true] at he
      exact leafKeys_spec false gs _ hg he.2
    · obtain ⟨h1, _, h2⟩ := makeTrie_spec true keys
      obtain ⟨h3, h4⟩ := toTupleR_spec _ (h2 hg.ne)
      exact combined_spec false gs _ hg _ h3 (fun w => by rw [h4, h1])

mutual
theorem toTuple_spec : (t : Trie) → t.Live → PartsOk (toTuple t) ∧ ∀ w, partsLang (toTuple t) w ↔ t.lang false w
  | .node fin ks, h => by
    obtain ⟨h1, h2, h3⟩ := tuples_spec ks h.2
    have := tupleOf_spec false addGroup addGroup_spec fin (tuples ks)
      (by rcases h.1 with h | h
          · exact Or.inl h
          · exact Or.inr (fun he => h (h3 he))) h1
    refine ⟨this.1, fun w => ?_⟩
    rw [toTuple, this.2 w, h2]
    simp only [Trie.lang]
theorem tuples_spec : (ks : List (Word × Trie)) → KidsLive ks → (∀ p ∈ tuples ks, TripOk false p) ∧
    (∀ w, tripsLang false (tuples ks) w ↔ kidsLang false ks w) ∧ (tuples ks = [] → ks = [])
  | [], _ => ⟨by simp [tuples], fun w => by simp [tuples, tripsLang, kidsLang], fun _ => rfl⟩
  | (k, t) :: ks, h => by
    obtain ⟨h1, h2, h3⟩ := tuples_spec ks h.2.2.2
    obtain ⟨h4, h5⟩ := toTuple_spec t ⟨h.2.1, h.2.2.1⟩
    refine ⟨?_, fun w => ?_, fun he => by simp [tuples] at he⟩
    · intro p hp
      simp only [tuples] at hp
      rcases List.mem_cons.1 hp with rfl | hp
      · exact ⟨by simp, fun k' hk' => by rw [List.mem_singleton.1 hk']; exact h.1, ⟨h.2.1, h.2.2.1⟩, h4, h5⟩
      · exact h1 p hp
    · have := h2 w
      simp only [tripsLang] at this
      simp only [tuples, tripsLang, List.mem_cons, kidsLang]
      rw [← this]
      simp
end

end Parce.Rx

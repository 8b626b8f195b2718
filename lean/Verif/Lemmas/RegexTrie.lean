import Verif.Lemmas.RegexForward
/-!
# Lemmas for the order in which an expression matches: the trie
-/
namespace Parce.Rx

/-! ## The keys in a trie start with different characters -/

mutual
/-- Before merging: every key is one character, and the keys of a node are different. -/
def Trie.Fresh : Trie → Prop
  | .node _ ks => KidsFresh ks
def KidsFresh : List (Word × Trie) → Prop
  | [] => True
  | (k, t) :: ks => (∃ c, k = [c]) ∧ (∀ p ∈ ks, p.1 ≠ k) ∧ t.Fresh ∧ KidsFresh ks
end

mutual
/-- The keys of a node start with different characters. -/
def Trie.Dist : Trie → Prop
  | .node _ ks => KidsDist ks
def KidsDist : List (Word × Trie) → Prop
  | [] => True
  | (k, t) :: ks => (∀ p ∈ ks, p.1.head? ≠ k.head?) ∧ t.Dist ∧ KidsDist ks
end

theorem insertKid_keys (f : Trie → Trie) (c : Char) : (ks : List (Word × Trie)) → ∀ p ∈ insertKid f c ks,
    p.1 = [c] ∨ ∃ q ∈ ks, q.1 = p.1
  | [], p, hp => by
    simp only [insertKid, List.mem_singleton] at hp
    exact Or.inl (by rw [hp])
  | (k, t) :: ks, p, hp => by
    simp only [insertKid] at hp
    split at hp
    · rcases List.mem_cons.1 hp with rfl | hp
      · exact Or.inr ⟨_, List.mem_cons_self, rfl⟩
      · exact Or.inr ⟨p, List.mem_cons_of_mem _ hp, rfl⟩
    · rcases List.mem_cons.1 hp with rfl | hp
      · exact Or.inr ⟨_, List.mem_cons_self, rfl⟩
      · rcases insertKid_keys f c ks p hp with h | ⟨q, hq, h⟩
        · exact Or.inl h
        · exact Or.inr ⟨q, List.mem_cons_of_mem _ hq, h⟩

theorem insertKid_fresh (f : Trie → Trie) (c : Char) (hf : ∀ t, t.Fresh → (f t).Fresh) :
    (ks : List (Word × Trie)) → KidsFresh ks → KidsFresh (insertKid f c ks)
  | [], _ => ⟨⟨c, rfl⟩, by simp, hf _ trivial, trivial⟩
  | (k, t) :: ks, h => by
    simp only [insertKid]
    split
    · exact ⟨h.1, h.2.1, hf t h.2.2.1, h.2.2.2⟩
    · next hk =>
      refine ⟨h.1, ?_, h.2.2.1, insertKid_fresh f c hf ks h.2.2.2⟩
      intro p hp
      rcases insertKid_keys f c ks p hp with he | ⟨q, hq, he⟩
      · rw [he]; exact fun h' => hk h'.symm
      · rw [← he]; exact h.2.1 q hq

theorem insertWord_fresh : (u : Word) → ∀ t, Trie.Fresh t → (insertWord u t).Fresh
  | [], .node _ _, h => h
  | c :: u, .node _ ks, h => insertKid_fresh _ c (insertWord_fresh u) ks h

theorem foldl_fresh (f : Word → Word) : (ws : List Word) → (t : Trie) → t.Fresh → (ws.foldl (fun t w => insertWord (f w) t) t).Fresh
  | [], _, h => h
  | w :: ws, t, h => foldl_fresh f ws _ (insertWord_fresh (f w) t h)

mutual
theorem mergeKid_dist : (key : Word) → (t : Trie) → key ≠ [] → t.Fresh →
    (mergeKid false key t).1.head? = key.head? ∧ (mergeKid false key t).2.Dist
  | key, .node false [(k, n)], hk, ht => by
    have h := mergeKid_dist (addKey false key k) n (addKey_ne false hk) ht.2.2.1
    simp only [mergeKid]
    refine ⟨?_, h.2⟩
    rw [h.1]
    cases key with
    | nil => exact absurd rfl hk
    | cons c key => rfl
  | key, .node true [], hk, ht => by
    simp only [mergeKid]
    exact ⟨trivial, trivial⟩
  | key, .node false [], hk, ht => by
    simp only [mergeKid, mergeKids]
    exact ⟨trivial, trivial⟩
  | key, .node true ((k, t) :: ks), hk, ht => by
    have := mergeKids_dist ((k, t) :: ks) ht
    simp only [mergeKid]
    exact ⟨trivial, this.1⟩
  | key, .node false ((k, t) :: p :: ks), hk, ht => by
    have := mergeKids_dist ((k, t) :: p :: ks) ht
    simp only [mergeKid]
    exact ⟨trivial, this.1⟩
theorem mergeKids_dist : (ks : List (Word × Trie)) → KidsFresh ks → KidsDist (mergeKids false ks) ∧
    ∀ p ∈ mergeKids false ks, ∃ q ∈ ks, p.1.head? = q.1.head? ∧ ∃ c, q.1 = [c]
  | [], _ => ⟨trivial, by simp [mergeKids]⟩
  | (k, t) :: ks, h => by
    obtain ⟨h1, h2⟩ := mergeKids_dist ks h.2.2.2
    obtain ⟨⟨c, rfl⟩, h3, h4, _⟩ := h
    obtain ⟨h5, h6⟩ := mergeKid_dist [c] t (by simp) h4
    simp only [mergeKids]
    refine ⟨⟨?_, h6, h1⟩, ?_⟩
    · intro p hp
      obtain ⟨q, hq, he, d, hd⟩ := h2 p hp
      rw [h5, he, hd]
      have := h3 q hq
      rw [hd] at this
      simpa using this
    · intro p hp
      rcases List.mem_cons.1 hp with rfl | hp
      · exact ⟨_, List.mem_cons_self, h5, c, rfl⟩
      · obtain ⟨q, hq, h'⟩ := h2 p hp
        exact ⟨q, List.mem_cons_of_mem _ hq, h'⟩
end

theorem makeTrie_dist (ws : List Word) : (makeTrie false ws).Dist := by
  have h := foldl_fresh (fun w => if false = true then w.reverse else w) ws (.node false []) trivial
  unfold makeTrie
  generalize ws.foldl _ _ = t at h
  cases t with
  | node fin ks => exact (mergeKids_dist ks h).1

/-! ## The tuples -/

/-- The tuples in the alternatives are right, and the alternatives start differently. -/
def AltsF (gs : List Alt) : Prop := (∀ ps, Alt.tup ps ∈ gs → Fwd ps) ∧ gs.Pairwise AltHD

theorem addAlt_fwd {gs : List Alt} (h : AltsF gs) {x : Alt} (hx : ∀ ps, x = .tup ps → Fwd ps)
    (hd : HD (altsLang gs) (altLang x)) : AltsF (addAlt gs x) := by
  unfold addAlt
  split
  · exact h
  · refine ⟨fun ps hps => ?_, ?_⟩
    · rcases List.mem_append.1 hps with hps | hps
      · exact h.1 ps hps
      · exact hx ps (List.mem_singleton.1 hps).symm
    · rw [List.pairwise_append]
      refine ⟨h.2, by simp, ?_⟩
      intro a ha b hb
      rw [List.mem_singleton.1 hb]
      intro u v hu hv
      exact hd u v (altsLang_mem.2 ⟨a, ha, hu⟩) hv

/-- The words start like these keys. -/
def StartsIn (gs : List Alt) (ks : List Word) : Prop := ∀ w, altsLang gs w → w ≠ [] → ∃ k ∈ ks, w.head? = k.head?

theorem StartsIn.hd {gs : List Alt} {ks : List Word} (h : StartsIn gs ks) {L : Lang} {ls : List Word}
    (hL : ∀ w, L w → ∃ k ∈ ls, w.head? = k.head?) (hd : ∀ a ∈ ks, ∀ b ∈ ls, a.head? ≠ b.head?) : HD (altsLang gs) L := by
  intro u v hu hv h1 _
  obtain ⟨k, hk, he⟩ := h u hu h1
  obtain ⟨l, hl, he'⟩ := hL v hv
  rw [he, he']
  exact hd k hk l hl

theorem keysFold_fwd : (keys : List Word) → keys.Pairwise (fun u v => u.head? ≠ v.head?) → (∀ k ∈ keys, k ≠ []) →
    (gs : List Alt) → (ks : List Word) → AltsF gs → StartsIn gs ks → (∀ a ∈ ks, ∀ b ∈ keys, a.head? ≠ b.head?) →
    AltsF ((keys.map Alt.str).foldl addAlt gs)
  | [], _, _, gs, _, h, _, _ => h
  | k :: keys, hp, hk, gs, ks, h, hs, hd => by
    rw [List.pairwise_cons] at hp
    simp only [List.map_cons, List.foldl_cons]
    refine keysFold_fwd keys hp.2 (fun l hl => hk l (List.mem_cons_of_mem _ hl)) _ (ks ++ [k]) ?_ ?_ ?_
    · refine addAlt_fwd h (by simp) (hs.hd (ls := [k]) ?_ ?_)
      · intro w hw
        exact ⟨k, List.mem_cons_self, by simp only [altLang] at hw; rw [hw]⟩
      · intro a ha b hb
        rw [List.mem_singleton.1 hb]
        exact hd a ha k List.mem_cons_self
    · intro w hw hne
      rw [(addAlt_spec gs (.str k) (hk k List.mem_cons_self) rfl).lang] at hw
      rcases hw with hw | hw
      · obtain ⟨l, hl, he⟩ := hs w hw hne
        exact ⟨l, List.mem_append_left _ hl, he⟩
      · exact ⟨k, by simp, by simp only [altLang] at hw; rw [hw]⟩
    · intro a ha b hb
      rcases List.mem_append.1 ha with ha | ha
      · exact hd a ha b (List.mem_cons_of_mem _ hb)
      · rw [List.mem_singleton.1 ha]; exact hp.1 b hb

theorem group_starts {g : Group} (hg : GroupOk false g) {w : Word} (hw : g.lang false w) : ∃ k ∈ g.keys, w.head? = k.head? := by
  obtain ⟨k, hk, v, rfl, _⟩ := hw
  refine ⟨k, hk, ?_⟩
  have := hg.keys k hk
  cases k with
  | nil => exact absurd rfl this
  | cons c k => rfl

theorem heads_keys {keys : List Word} (hp : keys.Pairwise (fun u v => u.head? ≠ v.head?)) (hk : ∀ k ∈ keys, k ≠ []) {L : Lang}
    (hL : ∀ w, L w ↔ w ∈ keys) : Heads L := by
  refine ⟨fun h => hk [] ((hL []).1 h) rfl, fun c u v hu hv => ?_⟩
  rw [hL] at hu hv
  refine Classical.byContradiction (fun hne => ?_)
  exact pairwise_mem (fun _ _ h he => h he.symm) hp hu hv (fun he => hne (List.cons.inj he).2) rfl

theorem str_fwd {k : Word} (hk : k ≠ []) {r : List Part} (hr : Fwd r) : Fwd ([.str k] ++ r) := by
  refine .app [.str k] r ⟨hk, trivial⟩ ⟨?_, ?_⟩ hr
  · rw [str_lang]; exact fun h => hk h.symm
  · intro c u v hu hv
    rw [str_lang] at hu hv
    rw [← hv] at hu
    exact (List.cons.inj hu).2

theorem addGroup_fwd (gs : List Alt) (g : Group) (hg : GroupOk false g) (hr : Fwd g.r)
    (hp : g.keys.Pairwise (fun u v => u.head? ≠ v.head?)) (ks : List Word) (h : AltsF gs) (hs : StartsIn gs ks)
    (hd : ∀ a ∈ ks, ∀ b ∈ g.keys, a.head? ≠ b.head?) : AltsF (addGroup gs g) := by
  obtain ⟨keys, n, r⟩ := g
  simp only at hr hp hd
  unfold addGroup
  simp only
  split
  · next k =>
    have hk : k ≠ [] := hg.keys k List.mem_cons_self
    split
    · refine addAlt_fwd h (by simp) (hs.hd (ls := [k]) ?_ hd)
      intro w hw
      exact ⟨k, List.mem_cons_self, by simp only [altLang] at hw; rw [hw]⟩
    · refine addAlt_fwd h (fun ps hps => ?_) (hs.hd (ls := [k]) ?_ hd)
      · rw [← (Alt.tup.inj hps)]
        exact str_fwd hk hr
      · intro w hw
        simp only [altLang] at hw
        rw [combine_lang] at hw
        obtain ⟨a, b, rfl, ha, hb⟩ := hw
        exact group_starts hg ⟨k, List.mem_cons_self, b, by rw [(str_lang k a).1 ha], (hg.lang b).1 hb⟩
  · split
    · exact keysFold_fwd keys hp hg.keys gs ks h hs hd
    · obtain ⟨h1, _, h2⟩ := makeTrie_spec true keys
      obtain ⟨h3, h4⟩ := toTupleR_spec _ (h2 hg.ne)
      refine addAlt_fwd h (fun ps hps => ?_) (hs.hd (ls := keys) ?_ hd)
      · rw [← (Alt.tup.inj hps)]
        exact .app _ _ h3 (heads_keys hp hg.keys (fun w => by rw [h4, h1])) hr
      · intro w hw
        simp only [altLang] at hw
        rw [combine_lang] at hw
        obtain ⟨a, b, rfl, ha, hb⟩ := hw
        exact group_starts hg ⟨a, (h1 a).1 ((h4 a).1 ha), b, rfl, (hg.lang b).1 hb⟩

theorem foldGroups_fwd : (l : List Group) → (∀ g ∈ l, GroupOk false g ∧ Fwd g.r) → (gs : List Alt) → (ks : List Word) →
    (ks ++ l.flatMap Group.keys).Pairwise (fun u v => u.head? ≠ v.head?) → AltsF gs → StartsIn gs ks → AltsF (l.foldl addGroup gs)
  | [], _, _, _, _, h, _ => h
  | g :: l, hl, gs, ks, hp, h, hs => by
    obtain ⟨hg, hr⟩ := hl g List.mem_cons_self
    rw [List.flatMap_cons, ← List.append_assoc] at hp
    have hp' := List.pairwise_append.1 (List.pairwise_append.1 hp).1
    rw [List.foldl_cons]
    refine foldGroups_fwd l (fun g hg => hl g (List.mem_cons_of_mem _ hg)) _ (ks ++ g.keys) hp
      (addGroup_fwd gs g hg hr hp'.2.1 ks h hs hp'.2.2) ?_
    intro w hw hne
    rw [(addGroup_spec gs g hg).lang] at hw
    rcases hw with hw | hw
    · obtain ⟨k, hk, he⟩ := hs w hw hne
      exact ⟨k, List.mem_append_left _ hk, he⟩
    · obtain ⟨k, hk, he⟩ := group_starts hg hw
      exact ⟨k, List.mem_append_right _ hk, he⟩

theorem addKid_keys (p : Word × Trie × List Part) : (gs : List Group) →
    ((addKid gs p).flatMap Group.keys).Perm (gs.flatMap Group.keys ++ [p.1])
  | [] => by obtain ⟨k, n, r⟩ := p; simp [addKid]
  | g :: gs => by
    have ih := addKid_keys p gs
    obtain ⟨k, n, r⟩ := p
    simp only [addKid]
    split
    · simp only [List.flatMap_cons, List.append_assoc]
      exact (List.perm_append_comm).append_left _
    · simp only [List.flatMap_cons, List.append_assoc]
      exact ih.append_left _

theorem addKid_fwd {k : Word} {n : Trie} {r : List Part} (hr : Fwd r) : (gs : List Group) → (∀ g ∈ gs, Fwd g.r) →
    ∀ g ∈ addKid gs (k, n, r), Fwd g.r
  | [], _, g, hg => by
    simp only [addKid, List.mem_singleton] at hg
    rw [hg]; exact hr
  | g0 :: gs, h, g, hg => by
    simp only [addKid] at hg
    split at hg
    · rcases List.mem_cons.1 hg with rfl | hg
      · exact h g0 List.mem_cons_self
      · exact h g (List.mem_cons_of_mem _ hg)
    · rcases List.mem_cons.1 hg with rfl | hg
      · exact h g List.mem_cons_self
      · exact addKid_fwd hr gs (fun g hg => h g (List.mem_cons_of_mem _ hg)) g hg

theorem foldKids_fwd : (ks : List (Word × Trie × List Part)) → (∀ p ∈ ks, Fwd p.2.2) → (gs : List Group) → (∀ g ∈ gs, Fwd g.r) →
    (∀ g ∈ ks.foldl addKid gs, Fwd g.r) ∧ ((ks.foldl addKid gs).flatMap Group.keys).Perm (gs.flatMap Group.keys ++ ks.map Prod.fst)
  | [], _, gs, h => ⟨h, by simp⟩
  | (k, n, r) :: ks, hk, gs, h => by
    obtain ⟨h1, h2⟩ := foldKids_fwd ks (fun p hp => hk p (List.mem_cons_of_mem _ hp)) _
      (addKid_fwd (k := k) (n := n) (hk _ List.mem_cons_self) gs h)
    refine ⟨h1, h2.trans ?_⟩
    have := (addKid_keys (k, n, r) gs).append_right (ks.map Prod.fst)
    simpa [List.append_assoc] using this

theorem popGroups_fwd {gs : List Alt} (h : AltsF gs) (hp : gs.any Alt.proper = true) (hok : AltsOk gs) : Fwd (popGroups gs) := by
  unfold popGroups
  split
  · next t => exact h.1 t List.mem_cons_self
  · next s => exact str_fwd (r := []) hok.1 .nil
  · next h1 h2 =>
    refine .set gs ⟨hp, hok⟩ ?_ h.1 h.2
    match gs, hp, h1, h2 with
    | [.none], hp, _, _ => simp [Alt.proper] at hp
    | [.tup t], _, h1, _ => exact absurd rfl (h1 t)
    | [.str s], _, _, h2 => exact absurd rfl (h2 s)
    | _ :: _ :: _, _, _, _ => simp

theorem tupleOf_fwd (fin : Bool) (ks : List (Word × Trie × List Part)) (hl : fin = true ∨ ks ≠ []) (hk : ∀ p ∈ ks, TripOk false p)
    (hf : ∀ p ∈ ks, Fwd p.2.2) (hp : (ks.map Prod.fst).Pairwise (fun u v => u.head? ≠ v.head?)) :
    Fwd (tupleOf false addGroup fin ks) := by
  have hgroup : ks ≠ [] → Fwd (groupTuple addGroup fin ks) := by
    intro hne
    obtain ⟨h1, h2, h3⟩ := foldKids_spec false ks hk [] (by simp)
    have h4 := foldGroups_spec false addGroup addGroup_spec _ (h2 (Or.inl hne)) h1 (if fin then [.none] else [])
    have hok : AltsOk (if fin = true then [Alt.none] else []) := by
      split <;> simp [AltsOk, AltOk]
    obtain ⟨h5, h6⟩ := foldKids_fwd ks hf [] (by simp)
    unfold groupTuple
    refine popGroups_fwd ?_ h4.proper (h4.ok hok)
    refine foldGroups_fwd _ (fun g hg => ⟨h1 g hg, h5 g hg⟩) _ [] ?_ ?_ ?_
    · exact (h6.pairwise_iff (fun {a b} h he => h he.symm)).2 (by simpa using hp)
    · cases fin <;> simp [AltsF]
    · intro w hw hne
      cases fin
      · simp [altsLang] at hw
      · simp [altsLang, altLang] at hw
        exact absurd hw hne
  unfold tupleOf
  split
  · next k n r =>
    have h : GroupOk false ⟨[k], n, r⟩ := hk _ List.mem_cons_self
    exact str_fwd (h.keys k List.mem_cons_self) (hf _ List.mem_cons_self)
  · exact .nil
  · next h1 h2 =>
    apply hgroup
    rcases hl with hl | hl
    · intro he
      exact h2 hl he
    · exact hl

theorem dist_pairwise : (ks : List (Word × Trie)) → KidsDist ks → (ks.map Prod.fst).Pairwise (fun u v => u.head? ≠ v.head?)
  | [], _ => by simp
  | (k, t) :: ks, h => by
    rw [List.map_cons, List.pairwise_cons]
    refine ⟨fun l hl => ?_, dist_pairwise ks h.2.2⟩
    obtain ⟨p, hp, rfl⟩ := List.mem_map.1 hl
    exact fun he => h.1 p hp he.symm

theorem tuples_keys : (ks : List (Word × Trie)) → (tuples ks).map Prod.fst = ks.map Prod.fst
  | [] => rfl
  | (k, t) :: ks => by simp only [tuples, List.map_cons, tuples_keys ks]

mutual
theorem toTuple_fwd : (t : Trie) → t.Live → t.Dist → Fwd (toTuple t)
  | .node fin ks, h, hd => by
    obtain ⟨h1, h2, h3⟩ := tuples_spec ks h.2
    refine tupleOf_fwd fin (tuples ks) ?_ h1 (tuples_fwd ks h.2 hd) ?_
    · rcases h.1 with h | h
      · exact Or.inl h
      · exact Or.inr (fun he => h (h3 he))
    · rw [tuples_keys]; exact dist_pairwise ks hd
theorem tuples_fwd : (ks : List (Word × Trie)) → KidsLive ks → KidsDist ks → ∀ p ∈ tuples ks, Fwd p.2.2
  | [], _, _, p, hp => by simp [tuples] at hp
  | (k, t) :: ks, h, hd, p, hp => by
    simp only [tuples] at hp
    rcases List.mem_cons.1 hp with rfl | hp
    · exact toTuple_fwd t ⟨h.2.1, h.2.2.1⟩ hd.2.1
    · exact tuples_fwd ks h.2.2.2 hd.2.2 p hp
end

variable [TupleOrder]

/-- The expression for words prefers longer words. -/
theorem words2regexp_good (ws : List Word) (hne : ws ≠ []) : ∃ q, Reads .alt (words2regexp ws) q ∧ Good q := by
  unfold words2regexp
  have hsne := commonSuffix_ne ws hne
  generalize commonSuffix ws = p at hsne
  obtain ⟨ws', suffix⟩ := p
  simp only at hsne ⊢
  obtain ⟨_, _, h2⟩ := makeTrie_spec false ws'
  exact (toTuple_fwd _ (h2 hsne) (makeTrie_dist ws')).good suffix

end Parce.Rx

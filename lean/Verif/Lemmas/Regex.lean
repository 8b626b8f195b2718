import Verif.Spec.Regex
/-!
# Lemmas for regular expressions: languages, character classes, suffixes and tries
-/
namespace Parce.Rx

/-! ## Languages -/

theorem Lang.ext {L M : Lang} (h : ∀ w, L w ↔ M w) : L = M := funext (fun w => propext (h w))

theorem Lang.cat_nil (L : Lang) : L.cat (fun w => w = []) = L := by
  apply Lang.ext
  intro w
  constructor
  · rintro ⟨a, b, rfl, ha, rfl⟩
    simpa using ha
  · intro h
    exact ⟨w, [], by simp, h, rfl⟩

theorem Lang.nil_cat (L : Lang) : Lang.cat (fun w => w = []) L = L := by
  apply Lang.ext
  intro w
  constructor
  · rintro ⟨a, b, rfl, rfl, hb⟩
    simpa using hb
  · intro h
    exact ⟨[], w, by simp, rfl, h⟩

theorem Lang.cat_assoc (L M N : Lang) : (L.cat M).cat N = L.cat (M.cat N) := by
  apply Lang.ext
  intro w
  constructor
  · rintro ⟨_, c, rfl, ⟨a, b, rfl, ha, hb⟩, hc⟩
    exact ⟨a, b ++ c, by simp, ha, b, c, rfl, hb, hc⟩
  · rintro ⟨a, _, rfl, ha, b, c, rfl, hb, hc⟩
    exact ⟨a ++ b, c, by simp, ⟨a, b, rfl, ha, hb⟩, hc⟩

theorem Lang.pow_one (L : Lang) : L.pow 1 = L := by
  simp only [Lang.pow]
  exact Lang.cat_nil L

theorem Lang.pow_add (L : Lang) (m n : Nat) : L.pow (m + n) = (L.pow m).cat (L.pow n) := by
  induction m with
  | zero => simp only [Nat.zero_add, Lang.pow, Lang.nil_cat]
  | succ m ih => rw [Nat.succ_add]; simp only [Lang.pow, ih, Lang.cat_assoc]

theorem Lang.rep_one (L : Lang) : L.rep 1 1 = L := by
  apply Lang.ext
  intro w
  constructor
  · rintro ⟨n, h1, h2, h⟩
    have : n = 1 := by omega
    subst this
    rwa [Lang.pow_one] at h
  · intro h
    exact ⟨1, Nat.le_refl _, Nat.le_refl _, by rwa [Lang.pow_one]⟩

theorem Lang.rep_opt (L : Lang) : L.rep 0 1 = fun w => w = [] ∨ L w := by
  apply Lang.ext
  intro w
  constructor
  · rintro ⟨n, h1, h2, h⟩
    match n, h2, h with
    | 0, _, h => exact Or.inl h
    | 1, _, h => rw [Lang.pow_one] at h; exact Or.inr h
  · rintro (h | h)
    · exact ⟨0, Nat.le_refl _, by omega, h⟩
    · exact ⟨1, by omega, Nat.le_refl _, by rwa [Lang.pow_one]⟩

theorem Lang.rep_cat (L : Lang) {a b c d : Nat} (h1 : a ≤ b) (h2 : c ≤ d) :
    (L.rep a b).cat (L.rep c d) = L.rep (a + c) (b + d) := by
  apply Lang.ext
  intro w
  constructor
  · rintro ⟨x, y, rfl, ⟨m, hm1, hm2, hm⟩, n, hn1, hn2, hn⟩
    exact ⟨m + n, by omega, by omega, by rw [Lang.pow_add]; exact ⟨x, y, rfl, hm, hn⟩⟩
  · rintro ⟨k, hk1, hk2, hk⟩
    obtain ⟨m, n, rfl, hm1, hm2, hn1, hn2⟩ : ∃ m n, k = m + n ∧ a ≤ m ∧ m ≤ b ∧ c ≤ n ∧ n ≤ d := by
      by_cases h : k ≤ b + c
      · exact ⟨k - c, c, by omega, by omega, by omega, by omega, by omega⟩
      · exact ⟨b, k - b, by omega, by omega, by omega, by omega, by omega⟩
    rw [Lang.pow_add] at hk
    obtain ⟨x, y, rfl, hx, hy⟩ := hk
    exact ⟨x, y, rfl, ⟨m, hm1, hm2, hx⟩, n, hn1, hn2, hy⟩

/-- An optional group that already may be there zero or one times. -/
theorem Lang.rep_or_nil (L : Lang) {a b : Nat} (h : a ≤ 1) (hb : a ≤ b) : (fun w => w = [] ∨ L.rep a b w) = L.rep 0 b := by
  apply Lang.ext
  intro w
  constructor
  · rintro (h | ⟨n, h1, h2, h3⟩)
    · exact ⟨0, Nat.le_refl _, Nat.zero_le _, h⟩
    · exact ⟨n, Nat.zero_le _, h2, h3⟩
  · rintro ⟨n, h1, h2, h3⟩
    cases n with
    | zero => exact Or.inl h3
    | succ n => exact Or.inr ⟨n + 1, by omega, h2, h3⟩

/-! ## Escaped text -/

theorem special_not_alnum : ∀ c ∈ specials, ¬ c.isAlphanum = true := by decide

theorem meta_special : ∀ c ∈ metaChars, c ∈ specials := by decide

theorem classMeta_special : ∀ c ∈ classMeta, c ∈ specials := by decide

theorem escape_atom (c : Char) : Den .atom (escape [c]) (fun w => w = [c]) := by
  simp only [escape]
  split
  · next h => exact .esc c (special_not_alnum c h)
  · next h => exact .lit c (fun hm => h (meta_special c hm))

theorem escape_classChar (c : Char) : IsClassChar (escape [c]) c := by
  simp only [escape]
  split
  · next h => exact .esc c (special_not_alnum c h)
  · next h => exact .lit c (fun hm => h (classMeta_special c hm))

theorem escape_cons (c : Char) (w : Word) : escape (c :: w) = escape [c] ++ escape w := by
  simp only [escape]
  split <;> simp

theorem escape_seq : (w : Word) → Den .seq (escape w) (fun v => v = w)
  | [] => .nil
  | c :: w => by
    rw [escape_cons]
    have := Den.cons _ _ _ _ (.once _ _ (escape_atom c)) (escape_seq w)
    have he : Lang.cat (fun v => v = [c]) (fun v => v = w) = fun v => v = c :: w := by
      apply Lang.ext
      intro v
      constructor
      · rintro ⟨a, b, rfl, rfl, rfl⟩; rfl
      · rintro rfl; exact ⟨[c], w, rfl, rfl, rfl⟩
    rwa [he] at this

theorem seq_append {s : Word} {L : Lang} (h : Den .seq s L) {t : Word} {M : Lang} (h' : Den .seq t M) :
    Den .seq (s ++ t) (L.cat M) := by
  generalize hk : Syn.seq = k at h
  induction h with
  | nil => rw [Lang.nil_cat]; exact h'
  | cons s1 t1 L1 M1 hp _ _ ih =>
    rw [List.append_assoc, Lang.cat_assoc]
    exact .cons _ _ _ _ hp (ih rfl)
  | _ => cases hk

theorem alt_or {s : Word} {L : Lang} (h : Den .alt s L) {t : Word} {M : Lang} (h' : Den .alt t M) :
    Den .alt (s ++ '|' :: t) (fun w => L w ∨ M w) := by
  generalize hk : Syn.alt = k at h
  induction h with
  | single s L h _ => exact .or _ _ _ _ h h'
  | or s1 t1 L1 M1 h1 _ _ ih =>
    have := Den.or _ _ _ _ h1 (ih rfl)
    have he : (fun w => L1 w ∨ (M1 w ∨ M w)) = fun w => (L1 w ∨ M1 w) ∨ M w :=
      Lang.ext (fun w => by rw [or_assoc])
    rw [he] at this
    simpa using this
  | _ => cases hk

/-! ## Character classes -/

theorem runText_class (a b : Char) (h : a.toNat ≤ b.toNat) :
    IsClass (runText (a, b)) (fun d => a.toNat ≤ d.toNat ∧ d.toNat ≤ b.toNat) := by
  unfold runText
  simp only
  have hext : ∀ P Q : Char → Prop, (∀ c, P c ↔ Q c) → P = Q := fun P Q h => funext (fun c => propext (h c))
  split
  · next hab =>
    subst hab
    have := IsClass.char _ _ (escape_classChar a)
    rwa [hext (fun d => d = a) (fun d => a.toNat ≤ d.toNat ∧ d.toNat ≤ a.toNat) (fun d => ?_)] at this
    constructor
    · rintro rfl; exact ⟨Nat.le_refl _, Nat.le_refl _⟩
    · rintro ⟨h1, h2⟩
      exact Char.toNat_inj.1 (by omega)
  · split
    · next hab =>
      have := IsClass.append _ _ _ _ (IsClass.char _ _ (escape_classChar a)) (IsClass.char _ _ (escape_classChar b))
      rw [← escape_cons] at this
      rwa [hext (fun d => d = a ∨ d = b) (fun d => a.toNat ≤ d.toNat ∧ d.toNat ≤ b.toNat) (fun d => ?_)] at this
      constructor
      · rintro (rfl | rfl)
        · exact ⟨Nat.le_refl _, by omega⟩
        · exact ⟨by omega, Nat.le_refl _⟩
      · rintro ⟨h1, h2⟩
        by_cases hd : d.toNat = a.toNat
        · exact Or.inl (Char.toNat_inj.1 hd)
        · exact Or.inr (Char.toNat_inj.1 (by omega))
    · exact .range _ _ _ _ (escape_classChar a) (escape_classChar b) h

/-- In ascending order, `a` up to `b` are all in the set. -/
theorem runs_class : (cs : List Char) → (a b : Char) → a.toNat ≤ b.toNat → (b :: cs).Pairwise (fun x y => x.toNat < y.toNat) →
    ∃ P, IsClass ((runs a b cs).flatMap runText) P ∧
      ∀ d, P d ↔ (a.toNat ≤ d.toNat ∧ d.toNat ≤ b.toNat) ∨ d ∈ cs
  | [], a, b, hab, _ => ⟨_, by simpa [runs] using runText_class a b hab, fun d => by simp⟩
  | c :: cs, a, b, hab, hp => by
    have hbc : b.toNat < c.toNat := (List.pairwise_cons.1 hp).1 c List.mem_cons_self
    have hp' := (List.pairwise_cons.1 hp).2
    simp only [runs]
    split
    · next h =>
      obtain ⟨P, hP, hd⟩ := runs_class cs a c (by omega) hp'
      refine ⟨P, hP, fun d => ?_⟩
      rw [hd, List.mem_cons]
      constructor
      · rintro (⟨h1, h2⟩ | h1)
        · by_cases hdc : d.toNat = c.toNat
          · exact Or.inr (Or.inl (Char.toNat_inj.1 hdc))
          · exact Or.inl ⟨h1, by omega⟩
        · exact Or.inr (Or.inr h1)
      · rintro (⟨h1, h2⟩ | rfl | h1)
        · exact Or.inl ⟨h1, by omega⟩
        · exact Or.inl ⟨by omega, Nat.le_refl _⟩
        · exact Or.inr h1
    · obtain ⟨P, hP, hd⟩ := runs_class cs c c (Nat.le_refl _) hp'
      refine ⟨_, by simpa using IsClass.append _ _ _ _ (runText_class a b hab) hP, fun d => ?_⟩
      rw [hd, List.mem_cons]
      constructor
      · rintro (h1 | ⟨h1, h2⟩ | h1)
        · exact Or.inl h1
        · exact Or.inr (Or.inl (Char.toNat_inj.1 (by omega)))
        · exact Or.inr (Or.inr h1)
      · rintro (h1 | rfl | h1)
        · exact Or.inl h1
        · exact Or.inr (Or.inl ⟨Nat.le_refl _, Nat.le_refl _⟩)
        · exact Or.inr (Or.inr h1)

theorem nodup_eraseDups (l : List Char) : l.eraseDups.Nodup := by
  generalize hn : l.length = n
  induction n using Nat.strongRecOn generalizing l with
  | ind n ih =>
    cases l with
    | nil => simp
    | cons a as =>
      rw [List.eraseDups_cons, List.nodup_cons]
      refine ⟨?_, ?_⟩
      · rw [List.mem_eraseDups, List.mem_filter]
        simp
      · refine ih _ ?_ _ rfl
        have := List.length_filter_le (fun b => !b == a) as
        simp at hn
        omega

theorem sorted_chars (chars : List Char) :
    ((chars.eraseDups.mergeSort (fun a b => decide (a.toNat ≤ b.toNat))).Pairwise (fun x y => x.toNat < y.toNat)) ∧
    ∀ c, c ∈ chars.eraseDups.mergeSort (fun a b => decide (a.toNat ≤ b.toNat)) ↔ c ∈ chars := by
  have hperm := List.mergeSort_perm chars.eraseDups (fun a b => decide (a.toNat ≤ b.toNat))
  have hnd : (chars.eraseDups.mergeSort (fun a b => decide (a.toNat ≤ b.toNat))).Nodup :=
    hperm.nodup_iff.2 (nodup_eraseDups _)
  have hs := List.pairwise_mergeSort (le := fun a b : Char => decide (a.toNat ≤ b.toNat))
    (by intro a b c; simp; omega) (by intro a b; simp; omega) chars.eraseDups
  refine ⟨?_, fun c => by rw [hperm.mem_iff, List.mem_eraseDups]⟩
  have := List.Pairwise.and hs hnd
  refine this.imp ?_
  rintro a b ⟨h1, h2⟩
  have h1 : a.toNat ≤ b.toNat := by simpa using h1
  rcases Nat.lt_or_eq_of_le h1 with h | h
  · exact h
  · exact absurd (Char.toNat_inj.1 h) h2

theorem charclass_spec (chars : List Char) :
    ∃ P, IsClass (makeCharclass chars) P ∧ ∀ c, P c ↔ c ∈ chars := by
  obtain ⟨hs, hm⟩ := sorted_chars chars
  unfold makeCharclass
  cases h : chars.eraseDups.mergeSort (fun a b => decide (a.toNat ≤ b.toNat)) with
  | nil =>
    refine ⟨_, .nil, fun c => ?_⟩
    rw [← hm c, h]
    simp
  | cons c cs =>
    rw [h] at hs
    obtain ⟨P, hP, hd⟩ := runs_class cs c c (Nat.le_refl _) hs
    refine ⟨P, hP, fun d => ?_⟩
    rw [hd, ← hm d, h, List.mem_cons]
    constructor
    · rintro (⟨h1, h2⟩ | h1)
      · exact Or.inl (Char.toNat_inj.1 (by omega))
      · exact Or.inr h1
    · rintro (rfl | h1)
      · exact Or.inl ⟨Nat.le_refl _, Nat.le_refl _⟩
      · exact Or.inr h1

/-! ## The common suffix -/

theorem commonPre_spec : (w : Word) → (ws : List Word) → ∀ v ∈ w :: ws, ∃ r, v = commonPre w ws ++ r
  | [], ws, v, _ => ⟨v, rfl⟩
  | c :: w, ws, v, hv => by
    simp only [commonPre]
    split
    · next h =>
      rcases List.mem_cons.1 hv with rfl | hv'
      · obtain ⟨r, hr⟩ := commonPre_spec w (ws.map List.tail) w List.mem_cons_self
        exact ⟨r, by rw [List.cons_append, ← hr]⟩
      · have hh := List.all_eq_true.1 h v hv'
        cases v with
        | nil => simp at hh
        | cons d v =>
          simp at hh
          subst hh
          obtain ⟨r, hr⟩ := commonPre_spec w (ws.map List.tail) v (List.mem_cons_of_mem _ (List.mem_map.2 ⟨d :: v, hv', rfl⟩))
          exact ⟨r, by rw [List.cons_append, ← hr]⟩
    · exact ⟨v, rfl⟩

theorem commonSuffix_spec (ws : List Word) :
    ∀ w, w ∈ ws ↔ ∃ v ∈ (commonSuffix ws).1, w = v ++ (commonSuffix ws).2 := by
  intro w
  unfold commonSuffix
  cases ws with
  | nil => simp
  | cons u us =>
    simp only
    split
    · simp
    · next hne =>
      have hsuf : ∀ x ∈ u :: us, ∃ r, x = r ++ (commonPre u.reverse (us.map List.reverse)).reverse := by
        intro x hx
        have hx' : x.reverse ∈ u.reverse :: us.map List.reverse := by
          rcases List.mem_cons.1 hx with rfl | hx
          · exact List.mem_cons_self
          · exact List.mem_cons_of_mem _ (List.mem_map.2 ⟨_, hx, rfl⟩)
        obtain ⟨r, hr⟩ := commonPre_spec u.reverse (us.map List.reverse) _ hx'
        refine ⟨r.reverse, ?_⟩
        rw [← List.reverse_append, ← hr, List.reverse_reverse]
      generalize (commonPre u.reverse (us.map List.reverse)).reverse = suf at hsuf
      simp only [List.mem_map]
      constructor
      · intro hw
        obtain ⟨r, rfl⟩ := hsuf w hw
        exact ⟨r, ⟨_, hw, by simp⟩, rfl⟩
      · rintro ⟨_, ⟨x, hx, rfl⟩, rfl⟩
        obtain ⟨r, hr⟩ := hsuf x hx
        have : x.take (x.length - suf.length) ++ suf = x := by
          rw [hr]; simp
        rw [this]
        exact hx

theorem commonSuffix_ne (ws : List Word) (h : ws ≠ []) : (commonSuffix ws).1 ≠ [] := by
  unfold commonSuffix
  cases ws with
  | nil => exact absurd rfl h
  | cons u us =>
    simp only
    split <;> simp

/-! ## Tries -/

mutual
/-- The words in a trie. -/
def Trie.lang (rev : Bool) : Trie → Lang
  | .node f ks => fun w => (f = true ∧ w = []) ∨ kidsLang rev ks w
def kidsLang (rev : Bool) : List (Word × Trie) → Lang
  | [] => fun _ => False
  | (k, t) :: ks => fun w => (∃ v, w = addKey rev k v ∧ t.lang rev v) ∨ kidsLang rev ks w
end

mutual
/-- No key is empty, no node below is empty. -/
def Trie.Below : Trie → Prop
  | .node _ ks => KidsLive ks
def KidsLive : List (Word × Trie) → Prop
  | [] => True
  | (k, t) :: ks => k ≠ [] ∧ (t.fin = true ∨ t.kids ≠ []) ∧ t.Below ∧ KidsLive ks
end

/-- And the node itself neither. -/
def Trie.Live (t : Trie) : Prop := (t.fin = true ∨ t.kids ≠ []) ∧ t.Below

theorem addKey_assoc (rev : Bool) (a b c : Word) : addKey rev (addKey rev a b) c = addKey rev a (addKey rev b c) := by
  cases rev <;> simp [addKey]

theorem addKey_ne (rev : Bool) {a b : Word} (h : a ≠ []) : addKey rev a b ≠ [] := by
  cases rev <;> simp [addKey, h]

theorem insertKid_lang (rev : Bool) (f : Trie → Trie) (c : Char) (u : Word)
    (hf : ∀ t w, (f t).lang rev w ↔ t.lang rev w ∨ w = u) :
    (ks : List (Word × Trie)) → ∀ w, kidsLang rev (insertKid f c ks) w ↔ kidsLang rev ks w ∨ w = addKey rev [c] u
  | [], w => by
    simp only [insertKid, kidsLang, hf, Trie.lang]
    constructor
    · rintro (⟨v, rfl, h⟩ | h)
      · rcases h with (⟨h, _⟩ | h) | rfl
        · simp at h
        · exact h.elim
        · exact Or.inr rfl
      · exact h.elim
    · rintro (h | rfl)
      · exact h.elim
      · exact Or.inl ⟨u, rfl, Or.inr rfl⟩
  | (k, t) :: ks, w => by
    simp only [insertKid]
    split
    · next hk =>
      subst hk
      simp only [kidsLang, hf]
      constructor
      · rintro (⟨v, rfl, h | rfl⟩ | h)
        · exact Or.inl (Or.inl ⟨v, rfl, h⟩)
        · exact Or.inr rfl
        · exact Or.inl (Or.inr h)
      · rintro ((⟨v, rfl, h⟩ | h) | rfl)
        · exact Or.inl ⟨v, rfl, Or.inl h⟩
        · exact Or.inr h
        · exact Or.inl ⟨u, rfl, Or.inr rfl⟩
    · simp only [kidsLang, insertKid_lang rev f c u hf ks w, or_assoc]

/-- The word for characters in the order of insertion. -/
def asWord (rev : Bool) (w : Word) : Word := if rev then w.reverse else w

theorem asWord_cons (rev : Bool) (c : Char) (w : Word) : asWord rev (c :: w) = addKey rev [c] (asWord rev w) := by
  cases rev <;> simp [asWord, addKey]

theorem insertWord_lang (rev : Bool) : (u : Word) → ∀ t w, (insertWord u t).lang rev w ↔ t.lang rev w ∨ w = asWord rev u
  | [], .node f ks, w => by
    have : asWord rev [] = [] := by cases rev <;> rfl
    simp only [insertWord, Trie.lang, Trie.kids, this]
    constructor
    · rintro (⟨_, h⟩ | h)
      · exact Or.inr h
      · exact Or.inl (Or.inr h)
    · rintro ((⟨_, h⟩ | h) | h)
      · exact Or.inl ⟨trivial, h⟩
      · exact Or.inr h
      · exact Or.inl ⟨trivial, h⟩
  | c :: u, .node f ks, w => by
    simp only [insertWord, Trie.lang, Trie.kids, Trie.fin, asWord_cons,
      insertKid_lang rev (insertWord u) c (asWord rev u) (insertWord_lang rev u) ks w, or_assoc]

theorem insertKid_live (f : Trie → Trie) (c : Char) (hf : ∀ t, t.Below → (f t).Live) :
    (ks : List (Word × Trie)) → KidsLive ks → KidsLive (insertKid f c ks)
  | [], _ => by
    have := hf (.node false []) trivial
    exact ⟨by simp, this.1, this.2, trivial⟩
  | (k, t) :: ks, h => by
    simp only [insertKid]
    split
    · have := hf t h.2.2.1
      exact ⟨h.1, this.1, this.2, h.2.2.2⟩
    · exact ⟨h.1, h.2.1, h.2.2.1, insertKid_live f c hf ks h.2.2.2⟩

theorem insertKid_ne (f : Trie → Trie) (c : Char) (ks : List (Word × Trie)) : insertKid f c ks ≠ [] := by
  cases ks with
  | nil => simp [insertKid]
  | cons p ks => simp only [insertKid]; split <;> simp

theorem insertWord_live : (u : Word) → ∀ t, Trie.Below t → (insertWord u t).Live
  | [], .node f ks, h => ⟨Or.inl rfl, h⟩
  | c :: u, .node f ks, h => ⟨Or.inr (insertKid_ne _ _ _), insertKid_live _ c (insertWord_live u) ks h⟩

theorem foldl_insert (rev : Bool) : (ws : List Word) → (t : Trie) → t.Below →
    (∀ w, (ws.foldl (fun t w => insertWord (asWord rev w) t) t).lang rev w ↔ t.lang rev w ∨ w ∈ ws) ∧
    (ws.foldl (fun t w => insertWord (asWord rev w) t) t).Below ∧
    (ws ≠ [] ∨ t.Live → (ws.foldl (fun t w => insertWord (asWord rev w) t) t).Live)
  | [], t, h => ⟨fun w => by simp, h, fun h' => by simpa using h'⟩
  | u :: ws, t, h => by
    have hl := insertWord_live (asWord rev u) t h
    obtain ⟨h1, h2, h3⟩ := foldl_insert rev ws (insertWord (asWord rev u) t) hl.2
    refine ⟨fun w => ?_, h2, fun _ => h3 (Or.inr hl)⟩
    rw [List.foldl_cons, h1, insertWord_lang]
    have : asWord rev (asWord rev u) = u := by cases rev <;> simp [asWord]
    rw [this, List.mem_cons, or_assoc]

mutual
theorem mergeKid_spec (rev : Bool) : (key : Word) → (t : Trie) → key ≠ [] → t.Live →
    (∀ w, (∃ v, w = addKey rev (mergeKid rev key t).1 v ∧ (mergeKid rev key t).2.lang rev v) ↔
      ∃ v, w = addKey rev key v ∧ t.lang rev v) ∧
    (mergeKid rev key t).1 ≠ [] ∧ (mergeKid rev key t).2.Live
  | key, .node false [(k, n)], hk, ht => by
    have hn : n.Live := ⟨ht.2.2.1, ht.2.2.2.1⟩
    obtain ⟨h1, h2, h3⟩ := mergeKid_spec rev (addKey rev key k) n (addKey_ne rev hk) hn
    simp only [mergeKid]
    refine ⟨fun w => ?_, h2, h3⟩
    rw [h1]
    simp only [Trie.lang, kidsLang, addKey_assoc]
    constructor
    · rintro ⟨v, rfl, hv⟩
      exact ⟨_, rfl, Or.inr (Or.inl ⟨v, rfl, hv⟩)⟩
    · rintro ⟨v, rfl, ⟨h, _⟩ | ⟨u, rfl, hu⟩ | h⟩
      · simp at h
      · exact ⟨u, rfl, hu⟩
      · exact h.elim
  | key, .node true [], hk, ht => by
    simp only [mergeKid]
    exact ⟨fun w => by trivial, hk, ht⟩
  | key, .node false [], hk, ht => by
    rcases ht.1 with h | h
    · simp [Trie.fin] at h
    · exact absurd rfl h
  | key, .node true ((k, t) :: ks), hk, ht => by
    obtain ⟨h1, h2⟩ := mergeKids_spec rev ((k, t) :: ks) ht.2
    simp only [mergeKid]
    refine ⟨fun w => ?_, hk, Or.inl rfl, h2⟩
    simp only [Trie.lang, h1]
  | key, .node false ((k, t) :: p :: ks), hk, ht => by
    obtain ⟨h1, h2⟩ := mergeKids_spec rev ((k, t) :: p :: ks) ht.2
    simp only [mergeKid]
    refine ⟨fun w => ?_, hk, Or.inr (by simp [Trie.kids, mergeKids]), h2⟩
    simp only [Trie.lang, h1]
theorem mergeKids_spec (rev : Bool) : (ks : List (Word × Trie)) → KidsLive ks →
    (∀ w, kidsLang rev (mergeKids rev ks) w ↔ kidsLang rev ks w) ∧ KidsLive (mergeKids rev ks)
  | [], _ => ⟨fun w => Iff.rfl, trivial⟩
  | (k, t) :: ks, h => by
    obtain ⟨h1, h2, h3⟩ := mergeKid_spec rev k t h.1 ⟨h.2.1, h.2.2.1⟩
    obtain ⟨h4, h5⟩ := mergeKids_spec rev ks h.2.2.2
    simp only [mergeKids]
    refine ⟨fun w => ?_, h2, h3.1, h3.2, h5⟩
    simp only [kidsLang, h1, h4]
end

theorem makeTrie_spec (rev : Bool) (ws : List Word) :
    (∀ w, (makeTrie rev ws).lang rev w ↔ w ∈ ws) ∧ (makeTrie rev ws).Below ∧ (ws ≠ [] → (makeTrie rev ws).Live) := by
  have h := foldl_insert rev ws (.node false []) trivial
  have he : makeTrie rev ws = (match ws.foldl (fun t w => insertWord (asWord rev w) t) (Trie.node false []) with
    | .node fin ks => .node fin (mergeKids rev ks)) := rfl
  rw [he]
  generalize ws.foldl (fun t w => insertWord (asWord rev w) t) (Trie.node false []) = t at h
  cases t with
  | node fin ks =>
    obtain ⟨h1, h2, h3⟩ := h
    obtain ⟨h4, h5⟩ := mergeKids_spec rev ks h2
    refine ⟨fun w => ?_, h5, fun hne => ?_⟩
    · have := h1 w
      simp only [Trie.lang, kidsLang] at this
      simp only [Trie.lang, h4]
      rw [this]
      simp
    · rcases (h3 (Or.inl hne)).1 with h | h
      · exact ⟨Or.inl h, h5⟩
      · refine ⟨Or.inr ?_, h5⟩
        cases ks with
        | nil => exact absurd rfl h
        | cons p ks => simp [Trie.kids, mergeKids]

mutual
theorem trie_eqv (rev : Bool) : (t u : Trie) → t.eqv u = true → ∀ w, t.lang rev w ↔ u.lang rev w
  | .node f ks, .node f' ks', h, w => by
    simp only [Trie.eqv, Bool.and_eq_true, beq_iff_eq] at h
    obtain ⟨⟨rfl, h1⟩, h2⟩ := h
    simp only [Trie.lang]
    constructor
    · rintro (h | h)
      · exact Or.inl h
      · exact Or.inr (kidsIn_lang rev ks ks' h1 w h)
    · rintro (h | h)
      · exact Or.inl h
      · refine Or.inr ?_
        have key : ∀ (l : List (Word × Trie)), (∀ p ∈ l, kidsAny ks p = true) → kidsLang rev l w → kidsLang rev ks w := by
          intro l
          induction l with
          | nil => intro _ h; exact h.elim
          | cons p l ih =>
            intro hl h
            rcases h with ⟨v, rfl, hv⟩ | h
            · exact kidsAny_lang rev ks p (hl p List.mem_cons_self) v hv
            · exact ih (fun q hq => hl q (List.mem_cons_of_mem _ hq)) h
        exact key ks' (fun p hp => List.all_eq_true.1 h2 p hp) h
theorem kidsIn_lang (rev : Bool) : (ks ks' : List (Word × Trie)) → kidsIn ks ks' = true → ∀ w, kidsLang rev ks w → kidsLang rev ks' w
  | [], _, _, _, h => h.elim
  | (k, t) :: ks, ks', hin, w, h => by
    simp only [kidsIn, Bool.and_eq_true] at hin
    rcases h with ⟨v, rfl, hv⟩ | h
    · obtain ⟨p, hp, hpe⟩ := List.any_eq_true.1 hin.1
      simp only [Bool.and_eq_true, beq_iff_eq] at hpe
      have hv' := (trie_eqv rev t p.2 hpe.2 v).1 hv
      have key : ∀ (l : List (Word × Trie)), p ∈ l → kidsLang rev l (addKey rev k v) := by
        intro l
        induction l with
        | nil => intro h; simp at h
        | cons q l ih =>
          intro h
          rcases List.mem_cons.1 h with rfl | h
          · exact Or.inl ⟨v, by rw [hpe.1], hv'⟩
          · exact Or.inr (ih h)
      exact key ks' hp
    · exact kidsIn_lang rev ks ks' hin.2 w h
theorem kidsAny_lang (rev : Bool) : (ks : List (Word × Trie)) → (p : Word × Trie) → kidsAny ks p = true →
    ∀ v, p.2.lang rev v → kidsLang rev ks (addKey rev p.1 v)
  | [], _, h, _, _ => by simp [kidsAny] at h
  | (k, t) :: ks, p, h, v, hv => by
    simp only [kidsAny, Bool.or_eq_true, Bool.and_eq_true, beq_iff_eq] at h
    rcases h with ⟨h1, h2⟩ | h
    · exact Or.inl ⟨v, by rw [h1], (trie_eqv rev t p.2 h2 v).2 hv⟩
    · exact Or.inr (kidsAny_lang rev ks p h v hv)
end

end Parce.Rx

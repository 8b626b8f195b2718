import Verif.Spec.InlineCss
import Verif.Lemmas.Quote

/-! Lemmas about inline CSS. -/

namespace Parce.IC

theorem insert_perm (p : List Nat × List Nat) : ∀ qs, (insertProp p qs).Perm (p :: qs)
  | [] => .refl _
  | q :: qs => by
    unfold insertProp
    split
    · exact .refl _
    · exact ((insert_perm p qs).cons q).trans (.swap p q qs)

/-- The sorted properties are the same properties. -/
theorem sort_perm : ∀ ps, (sortProps ps).Perm ps
  | [] => .refl _
  | p :: ps => (insert_perm p _).trans ((sort_perm ps).cons p)

theorem strLe_total : ∀ a b : List Nat, strLe a b = false → strLe b a = true
  | [], _, h => by simp [strLe] at h
  | _ :: _, [], _ => rfl
  | a :: s, b :: t, h => by
    simp only [strLe, Bool.or_eq_false_iff, Bool.and_eq_false_iff, decide_eq_false_iff_not, beq_eq_false_iff_ne] at h
    simp only [strLe, Bool.or_eq_true, Bool.and_eq_true, decide_eq_true_eq, beq_iff_eq]
    by_cases hab : a = b
    · subst hab
      exact .inr ⟨rfl, strLe_total s t (h.2.resolve_left (fun hn => hn rfl))⟩
    · exact .inl (by omega)

theorem strLe_trans : ∀ a b c : List Nat, strLe a b = true → strLe b c = true → strLe a c = true
  | [], _, _, _, _ => rfl
  | _ :: _, [], _, h, _ => by simp [strLe] at h
  | _ :: _, _ :: _, [], _, h => by simp [strLe] at h
  | a :: s, b :: t, c :: u, h1, h2 => by
    simp only [strLe, Bool.or_eq_true, Bool.and_eq_true, decide_eq_true_eq, beq_iff_eq] at h1 h2 ⊢
    rcases h1 with h1 | ⟨rfl, h1⟩
    · rcases h2 with h2 | ⟨rfl, h2⟩
      · exact .inl (by omega)
      · exact .inl h1
    · rcases h2 with h2 | ⟨rfl, h2⟩
      · exact .inl h2
      · exact .inr ⟨rfl, strLe_trans s t u h1 h2⟩

theorem insert_sorted (p : List Nat × List Nat) : ∀ qs : List (List Nat × List Nat),
    qs.Pairwise (fun a b => strLe a.1 b.1 = true) → (insertProp p qs).Pairwise (fun a b => strLe a.1 b.1 = true)
  | [], _ => by simp [insertProp]
  | q :: qs, h => by
    unfold insertProp
    split
    · rename_i hp
      rw [List.pairwise_cons]
      refine ⟨?_, h⟩
      intro r hr
      rcases List.mem_cons.1 hr with rfl | hr
      · exact hp
      · exact strLe_trans _ _ _ hp ((List.pairwise_cons.1 h).1 r hr)
    · rename_i hp
      rw [List.pairwise_cons] at h ⊢
      refine ⟨?_, insert_sorted p qs h.2⟩
      intro r hr
      rcases List.mem_cons.1 ((insert_perm p qs).mem_iff.1 hr) with rfl | hr
      · exact strLe_total _ _ (by simpa using hp)
      · exact h.1 r hr

theorem sort_sorted : ∀ ps, (sortProps ps).Pairwise (fun a b => strLe a.1 b.1 = true)
  | [] => .nil
  | p :: ps => insert_sorted p _ (sort_sorted ps)

/-! ## Reading -/

theorem scan_append : ∀ (a b : List Nat) (s : Sc), scan s (a ++ b) = (scan s a).bind (fun t => scan t b)
  | [], _, _ => rfl
  | c :: a, b, s => by
    simp only [List.cons_append, scan]
    split
    · rfl
    · exact scan_append a b _

theorem split_scan : ∀ (v cur r : List Nat) (s t : Sc), scan s v = some t →
    splitDecls s cur (v ++ r) = splitDecls t (cur ++ v) r
  | [], cur, r, s, t, h => by cases h; simp
  | c :: v, cur, r, s, t, h => by
    simp only [List.cons_append, scan, splitDecls] at h ⊢
    split at h
    · cases h
    · rename_i hc
      rw [if_neg hc, split_scan v (cur ++ [c]) r _ t h]
      simp

theorem scan_name : ∀ n : List Nat, NameOk n → scan .out n = some .out
  | [], _ => rfl
  | c :: n, h => by
    have hc := h c (by simp)
    have ih := scan_name n (fun d hd => h d (by simp [hd]))
    simp only [scan, Sc.next]
    rw [if_neg (by omega), if_neg (by omega), ih]

theorem trim_ok (v : List Nat) (h1 : v.head?.map blank ≠ some true) (h2 : v.getLast?.map blank ≠ some true) :
    trim v = v := by
  have hd : ∀ s : List Nat, s.head?.map blank ≠ some true → s.dropWhile blank = s := by
    intro s h
    cases s with
    | nil => rfl
    | cons c s => simp at h; simp [h]
  unfold trim
  rw [hd v h1, hd v.reverse (by simpa using h2), List.reverse_reverse]

theorem trim_blank (v : List Nat) : trim (32 :: v) = trim v := by
  unfold trim; rw [List.dropWhile_cons]; simp [blank]

theorem parse_decl (pre n v : List Nat) (hpre : pre = [] ∨ pre = [32]) (hn : NameOk n) (hv : ValueOk v) :
    parseDecl (pre ++ (n ++ [58, 32] ++ v)) = (n, v) := by
  have h58 : ∀ c ∈ pre ++ n, c ≠ 58 := by
    intro c hc
    rcases List.mem_append.1 hc with hc | hc
    · rcases hpre with rfl | rfl
      · cases hc
      · simp at hc; omega
    · exact (hn c hc).1
  have ht : (pre ++ (n ++ [58, 32] ++ v)).takeWhile (· ≠ 58) = pre ++ n := by
    rw [show pre ++ (n ++ [58, 32] ++ v) = (pre ++ n) ++ 58 :: 32 :: v by simp]
    rw [List.takeWhile_append_of_pos (by intro c hc; simpa using h58 c hc)]
    simp
  have hd : (pre ++ (n ++ [58, 32] ++ v)).dropWhile (· ≠ 58) = 58 :: 32 :: v := by
    rw [show pre ++ (n ++ [58, 32] ++ v) = (pre ++ n) ++ 58 :: 32 :: v by simp]
    rw [List.dropWhile_append_of_pos (by intro c hc; simpa using h58 c hc)]
    simp
  have hnt : trim n = n := by
    refine trim_ok n ?_ ?_
    · cases hh : n.head? with
      | none => simp
      | some c =>
        have := hn c (List.mem_of_mem_head? hh)
        simp [blank, this.2.2.2.2]
    · cases hh : n.getLast? with
      | none => simp
      | some c =>
        have := hn c (List.mem_of_getLast? hh)
        simp [blank, this.2.2.2.2]
  unfold parseDecl
  rw [ht, hd]
  congr 1
  · rcases hpre with rfl | rfl
    · exact hnt
    · rw [show [32] ++ n = 32 :: n from rfl, trim_blank, hnt]
  · rw [List.tail_cons, trim_blank, trim_ok v hv.first hv.last]

theorem split_decl (pre n v r : List Nat) (hpre : pre = [] ∨ pre = [32]) (hn : NameOk n) (hv : ValueOk v) :
    splitDecls .out [] (pre ++ (declText (n, v) ++ r)) = (pre ++ (n ++ [58, 32] ++ v)) :: splitDecls .out [] r := by
  have hs : scan .out (pre ++ (n ++ [58, 32] ++ v)) = some .out := by
    have hp : scan .out pre = some .out := by rcases hpre with rfl | rfl <;> rfl
    rw [scan_append, hp, Option.bind_some, scan_append, scan_append, scan_name n hn]
    exact hv.scan
  have := split_scan _ [] (59 :: r) .out .out hs
  rw [show pre ++ (declText (n, v) ++ r) = pre ++ (n ++ [58, 32] ++ v) ++ 59 :: r by simp [declText]]
  rw [this]
  simp [splitDecls]

theorem read_join : ∀ (ps : List (List Nat × List Nat)) (pre : List Nat), (pre = [] ∨ pre = [32]) →
    (∀ p ∈ ps, NameOk p.1 ∧ ValueOk p.2) → ps ≠ [] →
    (splitDecls .out [] (pre ++ joinWith [32] (ps.map declText))).map parseDecl = ps
  | [], _, _, _, h => absurd rfl h
  | [p], pre, hpre, hp, _ => by
    have h := hp p (by simp)
    have := split_decl pre p.1 p.2 [] hpre h.1 h.2
    simp only [List.map_cons, List.map_nil, joinWith]
    rw [show declText p = declText (p.1, p.2) ++ [] by simp, this]
    simp only [List.map_cons, parse_decl pre p.1 p.2 hpre h.1 h.2, splitDecls]
    rfl
  | p :: q :: ps, pre, hpre, hp, _ => by
    have h := hp p (by simp)
    have ih := read_join (q :: ps) [32] (.inr rfl) (fun x hx => hp x (by simp [hx])) (by simp)
    have := split_decl pre p.1 p.2 ([32] ++ joinWith [32] ((q :: ps).map declText)) hpre h.1 h.2
    rw [show joinWith [32] ((p :: q :: ps).map declText) =
      declText (p.1, p.2) ++ ([32] ++ joinWith [32] ((q :: ps).map declText)) by simp [joinWith]]
    rw [this, List.map_cons, parse_decl pre p.1 p.2 hpre h.1 h.2, ih]

/-! ## Names of fonts -/

theorem scan_plain : ∀ (s : List Nat), (∀ c ∈ s, c ≠ 59 ∧ c ≠ 34 ∧ c ≠ 39) → scan .out s = some .out
  | [], _ => rfl
  | c :: s, h => by
    have hc := h c (by simp)
    simp only [scan, Sc.next]
    rw [if_neg (by omega), if_neg (by omega), scan_plain s (fun d hd => h d (by simp [hd]))]

theorem scan_str : ∀ (s : List Nat), (∀ c ∈ s, c ≠ 92 ∧ c ≠ 34) → scan (.str 34) s = some (.str 34)
  | [], _ => rfl
  | c :: s, h => by
    have hc := h c (by simp)
    simp only [scan, Sc.next]
    rw [if_neg (by simp), if_neg hc.2, if_neg hc.1, scan_str s (fun d hd => h d (by simp [hd]))]

theorem toHex_chars (n : Nat) : ∀ c ∈ Quo.toHex n, c ≠ 92 ∧ c ≠ 34 := by
  have hx : ∀ n, n < 16 → Quo.hexChar n ≠ 92 ∧ Quo.hexChar n ≠ 34 := by
    intro n h; unfold Quo.hexChar; split <;> omega
  fun_induction Quo.toHex n with
  | case1 n h => intro c hc; simp at hc; rw [hc]; exact hx n h
  | case2 n h ih =>
    intro c hc
    rcases List.mem_append.1 hc with hc | hc
    · exact ih c hc
    · simp at hc; rw [hc]; exact hx _ (by omega)

theorem toHex_cons (n : Nat) : ∃ c r, Quo.toHex n = c :: r := by
  cases h : Quo.toHex n with
  | nil => exact absurd h (Quo.toHex_ne_nil n)
  | cons c r => exact ⟨c, r, rfl⟩

theorem scan_sub : ∀ (s : List Nat), scan (.str 34) (Quo.subQuotes s) = some (.str 34)
  | [] => rfl
  | c :: s => by
    have ih := scan_sub s
    have he : Quo.subQuotes (c :: s) =
        (if c = 92 ∨ c = 34 then Quo.escape [c] else [c]) ++ Quo.subQuotes s := by simp [Quo.subQuotes]
    rw [he, scan_append]
    have h1 : scan (.str 34) (if c = 92 ∨ c = 34 then Quo.escape [c] else [c]) = some (.str 34) := by
      split
      · obtain ⟨d, r, hd⟩ := toHex_cons c
        have hr : ∀ x ∈ r ++ [32], x ≠ 92 ∧ x ≠ 34 := by
          intro x hx
          rcases List.mem_append.1 hx with hx | hx
          · exact toHex_chars c x (by rw [hd]; simp [hx])
          · simp at hx; omega
        rw [show Quo.escape [c] = 92 :: d :: (r ++ [32]) by simp [Quo.escape, Quo.escape1, hd]]
        have h2 : scan (.str 34) (92 :: d :: (r ++ [32])) = scan (.str 34) (r ++ [32]) := by
          simp [scan, Sc.next]
        rw [h2]
        exact scan_str _ hr
      · rename_i h
        exact scan_str [c] (by intro x hx; simp at hx; subst hx; omega)
    rw [h1, Option.bind_some, ih]

/-- A name in quotes or without them can be read. -/
theorem quote_ok (word : Nat → Bool) (hw : ∀ c, word c = true → c ≠ 59 ∧ c ≠ 34 ∧ c ≠ 39 ∧ c ≠ 32) (s : List Nat) :
    ValueOk (Quo.quoteIfNeeded word s) ∧ Quo.quoteIfNeeded word s ≠ [] := by
  unfold Quo.quoteIfNeeded
  split
  · rename_i hp
    simp only [Quo.plain, Bool.and_eq_true, List.all_eq_true, Bool.or_eq_true, beq_iff_eq] at hp
    have hc : ∀ c ∈ s, c ≠ 59 ∧ c ≠ 34 ∧ c ≠ 39 ∧ c ≠ 32 := by
      intro c hc
      rcases hp.2 c hc with h | h
      · exact hw c h
      · subst h; decide
    refine ⟨⟨scan_plain s (fun c h => ⟨(hc c h).1, (hc c h).2.1, (hc c h).2.2.1⟩), ?_, ?_⟩, ?_⟩
    · cases hh : s.head? with
      | none => simp
      | some c => have := hc c (List.mem_of_mem_head? hh); simp [blank, this.2.2.2]
    · cases hh : s.getLast? with
      | none => simp
      | some c => have := hc c (List.mem_of_getLast? hh); simp [blank, this.2.2.2]
    · rintro rfl; simp at hp
  · refine ⟨⟨?_, by simp [blank], ?_⟩, by simp⟩
    · simp only [scan, Sc.next]
      rw [if_neg (by simp), if_pos (by simp), scan_append, scan_sub]
      rfl
    · rw [show 34 :: (Quo.subQuotes s ++ [34]) = (34 :: Quo.subQuotes s) ++ [34] by simp, List.getLast?_concat]
      simp [blank]

theorem join_ok : ∀ (ts : List (List Nat)), (∀ t ∈ ts, ValueOk t ∧ t ≠ []) → ts ≠ [] →
    ValueOk (joinWith [44, 32] ts) ∧ joinWith [44, 32] ts ≠ []
  | [], _, h => absurd rfl h
  | [t], h, _ => h t (by simp)
  | t :: u :: ts, h, _ => by
    have ht := h t (by simp)
    have ih := join_ok (u :: ts) (fun x hx => h x (by simp [hx])) (by simp)
    have he : joinWith [44, 32] (t :: u :: ts) = t ++ [44, 32] ++ joinWith [44, 32] (u :: ts) := rfl
    rw [he]
    refine ⟨⟨?_, ?_, ?_⟩, by simp⟩
    · rw [scan_append, scan_append, ht.1.scan]
      exact ih.1.scan
    · cases t with
      | nil => exact absurd rfl ht.2
      | cons c t => exact ht.1.first
    · rw [List.getLast?_append]
      cases hl : (joinWith [44, 32] (u :: ts)).getLast? with
      | none => rw [List.getLast?_eq_none_iff] at hl; exact absurd hl ih.2
      | some c => have := ih.1.last; rw [hl] at this; exact this

end Parce.IC

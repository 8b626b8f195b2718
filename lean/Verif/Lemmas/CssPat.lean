import Verif.Lemmas.CssBlank
/-!
# What the expressions for words, numbers and colours take
-/
namespace Parce.CssL
open Parce.Json (Uni str)
variable {u : Uni} {k : Words}

/-! ### Expressions -/

theorem PBest.cat {a b : Pat Nat} {v w post : List Nat} (h1 : PBest a v (w ++ post)) (h2 : PBest b w post) : PBest (.cat a b) (v ++ w) post := by
  intro t p ht
  rw [List.append_assoc] at ht
  have := (h1 t p ht).cat (h2 t (p + v.length) (drop_add ht))
  rwa [List.length_append, ← Nat.add_assoc]

theorem PBest.opt {a : Pat Nat} {w post : List Nat} (h : PBest a w post) : PBest a.opt w post := fun t p ht => (h t p ht).opt

theorem pbest_none {a : Pat Nat} {post : List Nat} (h : PFail a post) : PBest a.opt [] post := fun t p ht => best_opt_none (h t p ht)

theorem PBest.alt {a b : Pat Nat} {w post : List Nat} (h : PBest a w post) : PBest (.alt a b) w post := fun t p ht => (h t p ht).alt

theorem PBest.alt' {a b : Pat Nat} {w post : List Nat} (h1 : PFail a (w ++ post)) (h2 : PBest b w post) : PBest (.alt a b) w post :=
  fun t p ht => (h2 t p ht).alt' (h1 t p ht)

theorem pbest_set {g : Nat → Bool} {c : Nat} {post : List Nat} (h : g c = true) : PBest (.set g) [c] post := fun _ _ ht => best_set (drop_get ht) h

theorem pbest_star {g : Nat → Bool} {w post : List Nat} (h1 : ∀ c ∈ w, g c = true) (h2 : ∀ c, post.head? = some c → g c = false) :
    PBest (.star (.set g)) w post := fun _ _ ht => best_star w ht h1 h2

theorem pbest_plus {g : Nat → Bool} {w post : List Nat} (hw : w ≠ []) (h1 : ∀ c ∈ w, g c = true) (h2 : ∀ c, post.head? = some c → g c = false) :
    PBest (.plus (.set g)) w post := fun _ _ ht => best_plus ht hw h1 h2

theorem pfail_set {g : Nat → Bool} {rest : List Nat} (h : ∀ c, rest.head? = some c → g c = false) : PFail (.set g) rest := by
  refine pfail_can ?_
  cases hr : rest.head? with
  | none => rfl
  | some c => simp [Pat.can, h c hr]

theorem pfail_cat {a b : Pat Nat} {rest : List Nat} (h : PFail a rest) : PFail (.cat a b) rest := by
  rintro t p ht q ⟨r, h1, _⟩
  exact h t p ht r h1

theorem pfail_cat_set {g : Nat → Bool} {b : Pat Nat} {c : Nat} {rest : List Nat} (h : PFail b rest) : PFail (.cat (.set g) b) (c :: rest) := by
  rintro t p ht q ⟨r, ⟨rfl, _⟩, h2⟩
  exact h t (p + 1) (by rw [← List.drop_drop, ht]; rfl) q h2

theorem pfail_alt {a b : Pat Nat} {rest : List Nat} (h1 : PFail a rest) (h2 : PFail b rest) : PFail (.alt a b) rest := by
  rintro t p ht q (h | h)
  · exact h1 t p ht q h
  · exact h2 t p ht q h

theorem pfail_opt_cat {g : Nat → Bool} {b : Pat Nat} {c : Nat} {rest : List Nat} (h1 : PFail b (c :: rest)) (h2 : PFail b rest) :
    PFail (.cat (.opt (.set g)) b) (c :: rest) := by
  rintro t p ht q ⟨r, h3 | h3, h4⟩
  · obtain ⟨rfl, _⟩ := h3
    exact h2 t (p + 1) (by rw [← List.drop_drop, ht]; rfl) q h4
  · simp only [Pat.mat] at h3
    subst h3
    exact h1 t p ht q h4

theorem pfail_str {w rest : List Nat} (h : ∀ post, rest ≠ w ++ post) : PFail (Pat.str w) rest := by
  intro t p ht q hq
  obtain ⟨_, post, h2⟩ := str_mat _ hq
  exact h post (ht.symm.trans h2)

theorem pfail_chr {c : Nat} {w rest : List Nat} (h : rest.head? ≠ some c) : PFail (Pat.str (c :: w)) rest :=
  pfail_str (fun post he => h (by rw [he]; rfl))

theorem misses_of {l : CL} {rest : List Nat} (h : ∀ r ∈ rules u k l, PFail r.pat rest) : Misses u k l rest := by
  rintro t p ht ⟨a, ha, q, hq⟩
  obtain ⟨r, hr, rfl⟩ := List.mem_map.1 ha
  exact h r hr t p ht q hq

/-! ### Words -/

theorem nameChar_iff {c : Nat} : nameChar u c = true ↔ IsName u c := by
  simp [nameChar, IsName]

theorem Stops.not_name {rest : List Nat} (h : Stops u rest) (c : Nat) (hc : rest.head? = some c) : nameChar u c = false := by
  have := (h c hc).1
  rw [← nameChar_iff] at this
  simpa using this

theorem Ident.ne {w : List Nat} (h : Ident u w) : w ≠ [] := by
  obtain ⟨c, r, rfl, _⟩ := h.start
  simp

/-- How an identifier starts. -/
def startChar (c : Nat) : Bool := (65 ≤ c && c ≤ 90) || (97 ≤ c && c ≤ 122) || c == 95 || c == 45

theorem Ident.first {w : List Nat} (h : Ident u w) : ∃ c r, w = c :: r ∧ c < 128 ∧ startChar c = true := by
  obtain ⟨c, r, rfl, h1⟩ := h.start
  refine ⟨c, r, rfl, ?_⟩
  unfold IsLetter at h1
  simp only [startChar, Bool.or_eq_true, Bool.and_eq_true, decide_eq_true_eq, beq_iff_eq]
  omega

theorem pbest_name {w post : List Nat} (hw : Ident u w) (hs : Stops u post) : PBest (namePat u) w post :=
  pbest_plus hw.ne (fun c hc => nameChar_iff.2 (hw.all c hc)) hs.not_name

theorem pfail_name {rest : List Nat} (h : Stops u rest) : PFail (namePat u) rest := pfail_cat (pfail_set h.not_name)

theorem pfail_escape {rest : List Nat} (h : rest.head? ≠ some 92) : PFail escapePat rest := pfail_cat (pfail_chr h)

theorem Stops.not_escape {rest : List Nat} (h : Stops u rest) : rest.head? ≠ some 92 := fun he => (h 92 he).2 rfl

/-- A word. -/
theorem hits_name (hu : u.Ascii) (i : Nat) (ex : List Nat) {l : CL} {a : List Nat → CA} {tg : Option (Target CL)} {w post : List Nat} (hw : Ident u w) (hs : Stops u post)
    (hr : (rules u k l)[i]? = some (ruleOf (namePat u) a tg)) (hl : ∀ c < 128, startChar c = true → onlyAt l i ex c = true)
    (hx : ∀ j ∈ ex, ∀ r, (rules u k l)[j]? = some r → PFail r.pat (w ++ post)) : Hits u k l w post (a w) tg := by
  obtain ⟨c, r, rfl, h1, h2⟩ := hw.first
  exact hits hu i ex hr (fun _ => rfl) h1 (hl c h1 h2) hx (pbest_name hw hs)

/-! ### Numbers -/

/-- The number without its sign. -/
def numTail (u : Uni) : Pat Nat := .cat (.opt (.cat (.star (.set u.digit)) (chr "."))) (.cat (.plus (.set u.digit))
    (.opt (.cat (.set fun c => c == 69 || c == 101) (.cat (.set sign) (.plus (.set u.digit))))))

def expPat (u : Uni) : Pat Nat := .cat (.set fun c => c == 69 || c == 101) (.cat (.set sign) (.plus (.set u.digit)))

theorem numTail_fails (hu : u.Ascii) {rest : List Nat} (h : ∀ c, rest.head? = some c → c < 128 ∧ ¬ IsDigit c ∧ c ≠ 46) : PFail (numTail u) rest := by
  refine pfail_can ?_
  cases hr : rest.head? with
  | none => simp [numTail, Pat.can, Pat.opt, Pat.plus, Pat.nul]
  | some c =>
    obtain ⟨h1, h2, h3⟩ := h c hr
    have hd : u.digit c = false := by
      rw [hu.digit c h1]
      unfold IsDigit at h2
      simp only [Bool.and_eq_false_iff, decide_eq_false_iff_not]
      omega
    simp [numTail, Pat.can, Pat.opt, Pat.plus, Pat.nul, Pat.fst, hd, chr, Pat.str, Pat.chr, str, h3]

theorem number_fails (hu : u.Ascii) {w post : List Nat} (hw : Ident u w) : PFail (numberPat u) (w ++ post) := by
  obtain ⟨c, r, rfl, h⟩ := hw.start
  have key : ∀ d, (IsLetter d ∨ d = 95 ∨ d = 45) → d < 128 ∧ ¬ IsDigit d ∧ d ≠ 46 := by
    intro d hd
    unfold IsLetter at hd
    unfold IsDigit
    omega
  rcases h with h | h | ⟨rfl, d, r', rfl, h⟩
  · refine pfail_can ?_
    obtain ⟨h1, h2, h3⟩ := key c (Or.inl h)
    have hs : sign c = false := by unfold IsLetter at h; simp only [sign, Bool.or_eq_false_iff, beq_eq_false_iff_ne]; omega
    have hd : u.digit c = false := by
      rw [hu.digit c h1]
      unfold IsDigit at h2
      simp only [Bool.and_eq_false_iff, decide_eq_false_iff_not]
      omega
    simp [numberPat, Pat.can, Pat.opt, Pat.plus, Pat.nul, Pat.fst, hd, hs, chr, Pat.str, Pat.chr, str, h3]
  · subst h
    refine pfail_can ?_
    have hd : u.digit 95 = false := by rw [hu.digit 95 (by decide)]; rfl
    simp [numberPat, Pat.can, Pat.opt, Pat.plus, Pat.nul, Pat.fst, hd, sign, chr, Pat.str, Pat.chr, str]
  · refine pfail_opt_cat (b := numTail u) (numTail_fails hu ?_) (numTail_fails hu ?_)
    · intro c hc
      obtain rfl : 45 = c := Option.some.inj hc
      unfold IsDigit
      omega
    · intro c hc
      obtain rfl : d = c := Option.some.inj hc
      exact key d h

theorem digit_iff (hu : u.Ascii) {c : Nat} (h : IsDigit c) : u.digit c = true := by
  unfold IsDigit at h
  rw [hu.digit c (by omega)]
  simp only [Bool.and_eq_true, decide_eq_true_eq]
  exact h

/-- A number ends here. -/
structure NumEnd (u : Uni) (post : List Nat) : Prop where
  digit : ∀ c, post.head? = some c → u.digit c = false
  dot : post.head? ≠ some 46
  exp : PFail (expPat u) post

theorem pfail_dot (hu : u.Ascii) {i post : List Nat} (hi : ∀ c ∈ i, u.digit c = true) (h1 : ∀ c, post.head? = some c → u.digit c = false)
    (h2 : post.head? ≠ some 46) : PFail (.cat (.star (.set u.digit)) (chr ".")) (i ++ post) := by
  rintro t p ht q ⟨r, h3, h4⟩
  have h5 := Ini.rtg_avoids (P := fun j => ∃ c, t[j]? = some c ∧ u.digit c = true) (R := (Pat.set u.digit).mat t) (by
    rintro a b ⟨rfl, x, hx, hx'⟩ j hj1 hj2
    have : j = a := by omega
    subst this
    exact ⟨x, hx, hx'⟩) h3
  have hr : t[r]? = some 46 := by
    obtain ⟨_, x, hx, hx'⟩ := h4
    simp only [beq_iff_eq] at hx'
    rw [hx, hx']; rfl
  have h46 : u.digit 46 = false := by rw [hu.digit 46 (by decide)]; rfl
  have hpr : p ≤ r := (mat_bounds t _ _ _ h3).1
  have hget : ∀ j, t[p + j]? = (i ++ post)[j]? := fun j => by rw [← ht, List.getElem?_drop]
  have hhead : post.head? = post[0]? := by cases post <;> rfl
  by_cases hlt : r < p + i.length
  · rw [show r = p + (r - p) by omega, hget, List.getElem?_append_left (by omega)] at hr
    have := hi 46 (List.mem_of_getElem? hr)
    rw [h46] at this
    cases this
  · have h6 : t[p + i.length]? = post.head? := by
      rw [hget, List.getElem?_append_right (by omega), Nat.sub_self, hhead]
    by_cases heq : r = p + i.length
    · rw [heq, h6] at hr
      exact h2 hr
    · obtain ⟨c, hc, hc'⟩ := h5 (p + i.length) (by omega) (by omega)
      rw [h6] at hc
      rw [h1 c hc] at hc'
      cases hc'

theorem pbest_number (hu : u.Ascii) {w post : List Nat} (hw : NumText w) (hp : NumEnd u post) : PBest (numberPat u) w post := by
  obtain ⟨s, i, g, e, rfl, hs, hi, hg, he⟩ := hw
  have hi' : ∀ c ∈ i, u.digit c = true := fun c hc => digit_iff hu (hi c hc)
  -- the exponent
  have h1 : PBest (.opt (expPat u)) e post := by
    rcases he with rfl | ⟨x, g', d, rfl, hx, hg', hd, hd'⟩
    · exact pbest_none hp.exp
    · refine PBest.opt ?_
      rw [List.append_assoc]
      refine PBest.cat ?_ (PBest.cat ?_ (pbest_plus hd (fun c hc => digit_iff hu (hd' c hc)) hp.digit))
      · rcases hx with rfl | rfl <;> exact pbest_set rfl
      · rcases hg' with rfl | rfl <;> exact pbest_set rfl
  have h2 : ∀ c, (e ++ post).head? = some c → u.digit c = false ∧ c ≠ 46 := by
    intro c hc
    rcases he with rfl | ⟨x, g', d, rfl, hx, hg', hd, hd'⟩
    · exact ⟨hp.digit c hc, fun h => hp.dot (by rw [← h]; exact hc)⟩
    · rcases hx with rfl | rfl
      · obtain rfl : 101 = c := Option.some.inj hc
        exact ⟨by rw [hu.digit _ (by decide)]; rfl, by decide⟩
      · obtain rfl : 69 = c := Option.some.inj hc
        exact ⟨by rw [hu.digit _ (by decide)]; rfl, by decide⟩
  have h3 : PBest (numTail u) (i ++ g ++ e) post := by
    rcases hg with ⟨rfl, hne⟩ | ⟨d, rfl, hd, hd'⟩
    · rw [List.append_nil]
      have hf : PFail (.cat (.star (.set u.digit)) (chr ".")) (i ++ (e ++ post)) :=
        pfail_dot hu hi' (fun c hc => (h2 c hc).1) (fun hc => (h2 46 hc).2 rfl)
      exact PBest.cat (v := []) (pbest_none (by show PFail _ (i ++ e ++ post); rw [List.append_assoc]; exact hf))
        (PBest.cat (pbest_plus hne hi' (fun c hc => (h2 c hc).1)) h1)
    · have : i ++ (str "." ++ d) ++ e = (i ++ str ".") ++ (d ++ e) := by simp
      rw [this]
      refine PBest.cat (PBest.opt (PBest.cat (pbest_star hi' ?_) (pbest_str (str ".") _)))
        (PBest.cat (pbest_plus hd (fun c hc => digit_iff hu (hd' c hc)) (fun c hc => (h2 c hc).1)) h1)
      intro c hc
      obtain rfl : 46 = c := Option.some.inj hc
      rw [hu.digit _ (by decide)]; rfl
  have h4 : ∀ c, (i ++ g ++ e ++ post).head? = some c → sign c = false := by
    intro c hc
    cases i with
    | cons x i =>
      obtain rfl : x = c := Option.some.inj hc
      have := hi x (by simp)
      unfold IsDigit at this
      simp only [sign, Bool.or_eq_false_iff, beq_eq_false_iff_ne]
      omega
    | nil =>
      rcases hg with ⟨rfl, hne⟩ | ⟨d, rfl, hd, hd'⟩
      · exact absurd rfl hne
      · obtain rfl : 46 = c := Option.some.inj hc
        rfl
  have : s ++ i ++ g ++ e = s ++ (i ++ g ++ e) := by simp
  rw [this]
  rcases hs with rfl | rfl | rfl
  · exact PBest.cat (pbest_none (pfail_set h4)) h3
  · exact PBest.cat (PBest.opt (pbest_set rfl)) h3
  · exact PBest.cat (PBest.opt (pbest_set rfl)) h3

/-- How a number starts. -/
theorem NumText.first {w : List Nat} (h : NumText w) : ∃ c r, w = c :: r ∧ c < 128 ∧ (IsDigit c ∨ c = 43 ∨ c = 45 ∨ c = 46) := by
  obtain ⟨s, i, g, e, rfl, hs, hi, hg, he⟩ := h
  rcases hs with rfl | rfl | rfl
  · cases i with
    | cons x i =>
      have := hi x (by simp)
      refine ⟨x, i ++ g ++ e, rfl, ?_, Or.inl this⟩
      unfold IsDigit at this
      omega
    | nil =>
      rcases hg with ⟨rfl, hne⟩ | ⟨d, rfl, hd, hd'⟩
      · exact absurd rfl hne
      · exact ⟨46, d ++ e, rfl, by decide, by simp⟩
  · exact ⟨43, _, rfl, by decide, by simp⟩
  · exact ⟨45, _, rfl, by decide, by simp⟩

/-! ### Colours -/

theorem pbest_times {g : Nat → Bool} : ∀ (w : List Nat) {post : List Nat}, (∀ c ∈ w, g c = true) → PBest ((Pat.set g).times w.length) w post := by
  intro w
  induction w with
  | nil => intro post _ t p _; exact best_eps p
  | cons c w ih =>
    intro post h
    exact PBest.cat (v := [c]) (pbest_set (h c (by simp))) (ih (fun x hx => h x (by simp [hx])))

theorem pfail_times {g : Nat → Bool} (n : Nat) : ∀ (w : List Nat) {post : List Nat}, w.length < n → (∀ c, post.head? = some c → g c = false) →
    PFail ((Pat.set g).times n) (w ++ post) := by
  induction n with
  | zero => intro w post h; omega
  | succ n ih =>
    intro w post h hp
    cases w with
    | nil => exact pfail_cat (pfail_set hp)
    | cons c w => exact pfail_cat_set (ih w (by simpa using h) hp)

theorem hex_iff {c : Nat} : isHex c = true ↔ IsHexDigit c := by
  simp only [isHex, IsHexDigit, IsDigit, Bool.or_eq_true, Bool.and_eq_true, decide_eq_true_eq]
  omega

theorem pbest_color {w post : List Nat} (hw : ∀ c ∈ w, IsHexDigit c) (hl : w.length = 3 ∨ w.length = 4 ∨ w.length = 6 ∨ w.length = 8)
    (hp : ∀ c, post.head? = some c → isHex c = false) : PBest colorPat (str "#" ++ w) post := by
  have hw' : ∀ c ∈ w, isHex c = true := fun c hc => hex_iff.2 (hw c hc)
  refine PBest.cat (pbest_str (str "#") _) ?_
  have key : ∀ a b : List Nat, w = a ++ b → a.length = 3 → PBest (.alt ((Pat.set isHex).times 5) (.alt ((Pat.set isHex).times 3) (.opt (.set isHex)))) b post →
      PBest (.cat ((Pat.set isHex).times 3) (.alt ((Pat.set isHex).times 5) (.alt ((Pat.set isHex).times 3) (.opt (.set isHex))))) w post := by
    rintro a b rfl ha hb
    refine PBest.cat ?_ hb
    rw [← ha]
    exact pbest_times a (fun c hc => hw' c (by simp [hc]))
  refine key (w.take 3) (w.drop 3) (List.take_append_drop 3 w).symm (by simp; omega) ?_
  have hd : ∀ c ∈ w.drop 3, isHex c = true := fun c hc => hw' c (List.mem_of_mem_drop hc)
  generalize hb : w.drop 3 = b at *
  have hbl : b.length = w.length - 3 := by rw [← hb, List.length_drop]
  rcases hl with hl | hl | hl | hl <;> rw [hl] at hbl
  · have : b = [] := List.length_eq_zero_iff.1 (by omega)
    subst this
    exact .alt' (pfail_times 5 [] (by simp) hp) (.alt' (pfail_times 3 [] (by simp) hp) (pbest_none (pfail_set hp)))
  · obtain ⟨c, rfl⟩ := List.length_eq_one_iff.1 (by omega : b.length = 1)
    exact .alt' (pfail_times 5 [c] (by simp) hp) (.alt' (pfail_times 3 [c] (by simp) hp) (PBest.opt (pbest_set (hd c (by simp)))))
  · refine .alt' (pfail_times 5 b (by omega) hp) (.alt ?_)
    rw [show (3 : Nat) = b.length by omega]
    exact pbest_times b hd
  · refine .alt ?_
    rw [show (5 : Nat) = b.length by omega]
    exact pbest_times b hd

end Parce.CssL

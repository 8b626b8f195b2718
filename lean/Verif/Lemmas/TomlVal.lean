import Verif.Lemmas.TomlNum
/-!
# Values in TOML texts
-/
namespace Parce.Toml
open Parce.Json (Uni str)
open Parce.CssL (PBest PFail)
open Parce.Xml (PC shift rel_shift)
variable {u : Uni} {t : List Nat} {l : TL}

/-! ### Steps -/

/-- Text that no rule takes, in a lexicon that skips it, whatever is after it. -/
theorem s_gap' {w post : List Nat} {is : List V} {fs : List Fr} {n : Nat} {o : Bool} (hd : dflt l = .skip)
    (hn : ∀ i < w.length, Misses u t l (w.drop i ++ post)) :
    ∃ o', Go u t ⟨w ++ post, (l, is) :: fs, n, o⟩ ⟨post, (l, is) :: fs, n, o'⟩ := by
  induction w generalizing o with
  | nil => exact ⟨o, Go.refl _⟩
  | cons c w ih =>
    obtain ⟨o', g⟩ := ih (o := true) (fun i hi => by simpa using hn (i + 1) (by simpa using hi))
    refine ⟨o', Go.trans ?_ g⟩
    intro p ht hp
    simp only at ht
    have hlt : p < t.length := by
      have := congrArg List.length ht
      simp only [List.length_drop, List.length_cons, List.cons_append] at this
      omega
    refine ⟨p + 1, by rw [← List.drop_drop, ht]; rfl, hlt, i_gap (lang := lang u) ?_ (Nat.lt_succ_self _)⟩
    have hm : rxMatch (pats u l) t p = none := (rxMatch_none (by omega)).2 (hn 0 (by simp) p ht)
    have hs : rxSearch (pats u l) t p false = rxSearch (pats u l) t (p + 1) false := by
      unfold rxSearch
      simp only [Bool.false_eq_true, if_false]
      rw [show t.length + 1 - p = (t.length + 1 - (p + 1)) + 1 by omega, rxScan, hm]
    have hld : (lang u).ld l = .regex (rxSearch (pats u l)) (rxMatch (pats u l)) (ruleOut .none (rules u l)) .skip := by
      show compile .none (rules u l) (dflt l) = _
      rw [compile_cons _ _ _ (rules_ne l), hd]
      rfl
    show parseNext _ ((lang u).ld l) _ _ = parseNext _ ((lang u).ld l) _ _
    rw [hld]
    simp only [parseNext, hs]

/-- The lexicons with values. -/
def VL (l : TL) : Prop := l = .value ∨ l = .array ∨ l = .inlineValue

theorem VL.skip (h : VL l) : dflt l = .skip := by rcases h with rfl | rfl | rfl <;> rfl

/-- Where the rules for values start. -/
def off (l : TL) : Nat := if l = .inlineValue then 3 else 2

theorem vl_rule (h : VL l) (j : Nat) : (rules u l)[off l + j]? = (values u)[j]? := by
  rcases h with rfl | rfl | rfl <;> rw [Nat.add_comm] <;> rfl

/-- The rules that are not excluded by the first character. -/
def exl (l : TL) (ex : List Nat) : List Nat := if l = .inlineValue then ex.map (3 + ·) else 1 :: ex.map (2 + ·)

def only2 (j : Nat) (ex : List Nat) (c : Nat) : Bool :=
  onlyAt .value (2 + j) (1 :: ex.map (2 + ·)) c && onlyAt .array (2 + j) (1 :: ex.map (2 + ·)) c && onlyAt .inlineValue (3 + j) (ex.map (3 + ·)) c

theorem vl_ex (h : VL l) {ex : List Nat} {c : Nat} {rest : List Nat} (h1 : c ≠ 10) (h2 : c ≠ 44)
    (hx : ∀ i ∈ ex, ∀ r, (values u)[i]? = some r → PFail r.pat (c :: rest)) (i : Nat) (hi : i ∈ exl l ex) (r : TRule) (hr : (rules u l)[i]? = some r) :
    PFail r.pat (c :: rest) := by
  rcases h with rfl | rfl | rfl
  · rcases List.mem_cons.1 hi with rfl | hi
    · obtain rfl := Option.some.inj hr
      exact pfail_dollar h1
    · obtain ⟨i', hi', rfl⟩ := List.mem_map.1 hi
      exact hx i' hi' r ((vl_rule (.inl rfl) i').symm.trans hr)
  · rcases List.mem_cons.1 hi with rfl | hi
    · obtain rfl := Option.some.inj hr
      exact CssL.pfail_chr (c := 44) (w := []) (by simpa using h2)
    · obtain ⟨i', hi', rfl⟩ := List.mem_map.1 hi
      exact hx i' hi' r ((vl_rule (.inr (.inl rfl)) i').symm.trans hr)
  · obtain ⟨i', hi', rfl⟩ := List.mem_map.1 hi
    exact hx i' hi' r ((vl_rule (.inr (.inr rfl)) i').symm.trans hr)

theorem hits_val' (hu : u.Ascii) (h : VL l) (j : Nat) (ex : List Nat) {c : Nat} {w post : List Nat} {r : TRule} {a : TA} {tg : Option (Target TL)}
    (hw : w.head? = some c) (hr : (values u)[j]? = some r) (hout : r.out w [] = (a, tg)) (hc : c < 128) (h1 : c ≠ 10) (h2 : c ≠ 44)
    (hl : only2 j ex c = true) (hx : ∀ i ∈ ex, ∀ r, (values u)[i]? = some r → PFail r.pat (w ++ post))
    (hb : ∀ p, t.drop p = w ++ post → Best t r.pat p (p + w.length)) :
    Hits u t l w post a tg [] := by
  obtain ⟨w, rfl⟩ : ∃ w', w = c :: w' := by
    cases w with
    | nil => cases hw
    | cons d w => exact ⟨w, by rw [Option.some.inj hw]⟩
  refine ⟨by simp, fun p ht => ⟨off l + j, r, ?_, (vl_rule h j).trans hr, hout⟩⟩
  have hg : t[p]? = some c := drop_get ht
  have hp := (List.getElem?_eq_some_iff.1 hg).1
  have := match_rule (g := []) ((vl_rule h j).trans hr) (leads_fail' (exl l ex) ?_ ?_) (hb p ht) (by omega)
  · exact this
  · rw [hg, leads_ascii hu hc]
    simp only [only2, Bool.and_eq_true] at hl
    rcases h with rfl | rfl | rfl
    · exact hl.1.1
    · exact hl.1.2
    · exact hl.2
  · intro i hi r' hr'
    exact vl_ex (rest := w ++ post) h h1 h2 hx i hi r' hr' t p ht

theorem hits_val (hu : u.Ascii) (h : VL l) (j : Nat) (ex : List Nat) {c : Nat} {w post : List Nat} {r : TRule} {a : TA} {tg : Option (Target TL)}
    (hw : w.head? = some c) (hr : (values u)[j]? = some r) (hout : r.out w [] = (a, tg)) (hc : c < 128) (h1 : c ≠ 10) (h2 : c ≠ 44)
    (hl : only2 j ex c = true) (hx : ∀ i ∈ ex, ∀ r, (values u)[i]? = some r → PFail r.pat (w ++ post)) (hb : PBest r.pat w post) :
    Hits u t l w post a tg [] :=
  hits_val' hu h j ex hw hr hout hc h1 h2 hl hx (fun p ht => hb t p ht)

/-! ### Numbers -/

theorem digit_only : ∀ c < 128, 48 ≤ c ∧ c ≤ 57 → only2 13 [7, 8, 9, 10, 11, 12] c = true ∧ only2 7 [] c = true ∧ only2 8 [7] c = true ∧ only2 9 [7, 8] c = true := by
  decide +kernel

/-- What may come after digits. -/
def Tail (c : Nat) : Prop := c = 95 ∨ c = 46 ∨ c = 101 ∨ c = 69 ∨ c = 32 ∨ c = 9 ∨ c = 10 ∨ c = 44 ∨ c = 93 ∨ c = 125 ∨ c = 35

theorem hits_dec (hu : u.Ascii) (h : VL l) {w post : List Nat} (hw : Dec w) (hp : End post) : Hits u t l w post .number none [] := by
  have hb := pbest_dec hu hw hp
  obtain ⟨s, i, f, e, rfl, hs, hi, hf, he⟩ := hw
  rcases sign_cases hs with rfl | ⟨c, rfl, hc⟩
  · obtain ⟨run, w', rfl, hr, hd, hw'⟩ := grouped_span hi
    obtain ⟨c, run, rfl⟩ := List.exists_cons_of_ne_nil hr
    have hc := hd c (by simp)
    have hc' : c < 128 ∧ c ≠ 10 ∧ c ≠ 44 := by unfold IsDigit at hc; omega
    have ht : ∀ x, (w' ++ (f ++ (e ++ post))).head? = some x → Tail x := by
      intro x hx
      rcases hw' with rfl | ⟨_, rfl⟩
      · rcases hf with rfl | ⟨_, rfl, _⟩
        · rcases he with rfl | ⟨y, _, _, rfl, hy, _⟩
          · have := hp.lt hx
            unfold Tail
            omega
          · obtain rfl : y = x := Option.some.inj hx
            unfold Tail
            omega
        · obtain rfl : 46 = x := Option.some.inj hx
          exact .inr (.inl rfl)
      · obtain rfl : 95 = x := Option.some.inj hx
        exact .inl rfl
    have e1 : [] ++ (c :: run ++ w') ++ f ++ e ++ post = (c :: run) ++ (w' ++ (f ++ (e ++ post))) := by simp
    have k1 := pfail_stamps hu hd (tail := w' ++ (f ++ (e ++ post))) (fun x hx => by
      have := ht x hx
      unfold Tail at this
      unfold IsDigit
      omega)
    have k2 : ∀ {s : String} {g : Nat → Bool}, (∀ x, IsDigit x ∨ Tail x → (str s).contains x = false) →
        PFail (radixPat s g) ((c :: run) ++ (w' ++ (f ++ (e ++ post)))) := by
      intro s g hs
      refine pfail_radix (rest := run ++ (w' ++ (f ++ (e ++ post)))) (.inr ?_)
      intro y hy
      refine hs y ?_
      cases run with
      | nil => exact .inr (ht y hy)
      | cons z run =>
        obtain rfl : z = y := Option.some.inj hy
        exact .inl (hd z (by simp))
    refine hits_val hu h 13 [7, 8, 9, 10, 11, 12] (c := c) (r := rule (decPat u) .number) rfl rfl rfl hc'.1 hc'.2.1 hc'.2.2 (digit_only c hc'.1 hc).1 ?_ hb
    intro j hj r hr
    rw [e1]
    simp only [List.mem_cons, List.not_mem_nil, or_false] at hj
    rcases hj with rfl | rfl | rfl | rfl | rfl | rfl <;> obtain rfl := Option.some.inj hr
    · exact k1.1
    · exact k1.2.1
    · exact k1.2.2
    all_goals
      refine k2 (fun x hx => ?_)
      unfold IsDigit Tail at hx
      simp [str]
      omega
  · refine hits_val hu h 13 [] (c := c) (r := rule (decPat u) .number) rfl rfl rfl (by omega) (by omega) (by omega) ?_ (by simp) hb
    rcases hc with rfl | rfl <;> decide +kernel

theorem end_after {f : Nat → Bool} (hf : ∀ c ∈ [32, 9, 10, 44, 93, 125, 35], f c = false) {post : List Nat} (hp : End post) : After f post := by
  intro c hc
  have := hp.lt hc
  exact ⟨hf c (by simp; omega), by omega⟩

theorem hits_radix (hu : u.Ascii) (h : VL l) {w post : List Nat} (hw : Radix w) (hp : End post) : Hits u t l w post .number none [] := by
  obtain ⟨x, g, rfl, hx⟩ := hw
  have hx' : x = 120 ∨ x = 111 ∨ x = 98 := by
    rcases hx with ⟨h, _⟩ | ⟨h, _⟩ | ⟨h, _⟩ <;> simp [h]
  have k1 := pfail_stamps hu (run := [48]) (tail := x :: (g ++ post)) (by simp [IsDigit]) (fun c hc => by
    obtain rfl : x = c := Option.some.inj hc
    unfold IsDigit
    omega)
  have k2 : ∀ {s : String} {f : Nat → Bool}, (str s).contains x = false → PFail (radixPat s f) (48 :: (x :: (g ++ post))) := by
    intro s f hs
    refine pfail_radix (.inr ?_)
    intro y hy
    obtain rfl : x = y := Option.some.inj hy
    exact hs
  rcases hx with ⟨rfl, hg⟩ | ⟨rfl, hg⟩ | ⟨rfl, hg⟩
  · refine hits_val hu h 12 [7, 8, 9, 10, 11] (c := 48) (r := rule (radixPat "xX" isHex) .number) rfl rfl rfl (by decide) (by decide) (by decide) (by decide +kernel) ?_
      (pbest_radix (fun c hc => ⟨hex_iff hc, by unfold IsHexDigit IsDigit at hc; omega⟩) (by decide) hg (end_after (by decide) hp))
    intro j hj r hr
    simp only [List.mem_cons, List.not_mem_nil, or_false] at hj
    rcases hj with rfl | rfl | rfl | rfl | rfl <;> obtain rfl := Option.some.inj hr
    · exact k1.1
    · exact k1.2.1
    · exact k1.2.2
    · exact k2 (by decide)
    · exact k2 (by decide)
  · refine hits_val hu h 10 [7, 8, 9] (c := 48) (r := rule (radixPat "oO" fun c => 48 ≤ c && c ≤ 55) .number) rfl rfl rfl (by decide) (by decide) (by decide) (by decide +kernel) ?_
      (pbest_radix (fun c hc => ⟨by simpa using hc, by omega⟩) (by decide) hg (end_after (by decide) hp))
    intro j hj r hr
    simp only [List.mem_cons, List.not_mem_nil, or_false] at hj
    rcases hj with rfl | rfl | rfl <;> obtain rfl := Option.some.inj hr
    · exact k1.1
    · exact k1.2.1
    · exact k1.2.2
  · refine hits_val hu h 11 [7, 8, 9, 10] (c := 48) (r := rule (radixPat "bB" fun c => c == 48 || c == 49) .number) rfl rfl rfl (by decide) (by decide) (by decide) (by decide +kernel) ?_
      (pbest_radix (fun c hc => ⟨by simpa using hc, by omega⟩) (by decide) hg (end_after (by decide) hp))
    intro j hj r hr
    simp only [List.mem_cons, List.not_mem_nil, or_false] at hj
    rcases hj with rfl | rfl | rfl | rfl <;> obtain rfl := Option.some.inj hr
    · exact k1.1
    · exact k1.2.1
    · exact k1.2.2
    · exact k2 (by decide)

/-! ### Dates and times -/

theorem digits_head {n : Nat} {w post : List Nat} (h : Digits (n + 1) w) : ∃ c, (w ++ post).head? = some c ∧ IsDigit c := by
  cases w with
  | nil => exact absurd h.1 (by simp)
  | cons c w => exact ⟨c, rfl, h.2 c (by simp)⟩

theorem times_len {f : Nat → Bool} : ∀ {n p q : Nat}, (Pat.times (.set f) n).mat t p q → q = p + n
  | 0, p, q, h => by
    simp only [Pat.times, Pat.mat] at h
    omega
  | n + 1, p, q, h => by
    obtain ⟨r, ⟨rfl, _⟩, h2⟩ := h
    have := times_len h2
    omega

theorem date_len {p q : Nat} (h : (datePat u).mat t p q) : q = p + 10 := by
  obtain ⟨a, h1, b, h2, c, h3, d, h4, h5⟩ := h
  have e1 := times_len h1
  have e2 := (str_mat _ h2).1
  have e3 := times_len h3
  have e4 := (str_mat _ h4).1
  have e5 := times_len h5
  simp [str] at e2 e4
  omega

/-- After a blank there is no digit. -/
def Calm (post : List Nat) : Prop := End post ∧ ∀ c r, post = 32 :: c :: r → c < 128 ∧ ¬ IsDigit c

theorem hits_stamp (hu : u.Ascii) (h : VL l) {w post : List Nat} (hw : Stamp w) (hp : Calm post) : Hits u t l w post .timestamp none [] := by
  rcases hw with hw | hw | ⟨d, x, y, rfl, hd, hx, hy⟩
  · have hb := pbest_date hu (post := post) hw
    have hlen : w.length = 10 := by
      obtain ⟨y, m, d, rfl, hy, hm, hd⟩ := hw
      simp [hy.1, hm.1, hd.1]
    obtain ⟨c, hc1, hc2⟩ : ∃ c, w.head? = some c ∧ IsDigit c := by
      obtain ⟨y, m, d, rfl, hy, hm, hd⟩ := hw
      exact digits_head hy
    have hc' : c < 128 ∧ c ≠ 10 ∧ c ≠ 44 := by unfold IsDigit at hc2; omega
    refine hits_val hu h 8 [7] (c := c) (r := rule (datePat u) .timestamp) hc1 rfl rfl hc'.1 hc'.2.1 hc'.2.2 (digit_only c hc'.1 hc2).2.2.1 ?_ hb
    intro j hj r hr
    obtain rfl : j = 7 := by simpa using hj
    obtain rfl := Option.some.inj hr
    rintro t p ht q ⟨r, h1, h2⟩
    obtain rfl := date_len h1
    have ht' : t.drop (p + 10) = post := by
      have := drop_add ht
      rwa [hlen] at this
    have : PFail (.cat (oneOf " tT") (timePat u)) post := by
      obtain ⟨⟨z, r, rfl, hz⟩, hcalm⟩ := hp
      by_cases h32 : z = 32
      · subst h32
        refine CssL.pfail_cat_set (CssL.pfail_cat (CssL.pfail_cat (CssL.pfail_cat (CssL.pfail_set ?_))))
        intro c hc
        cases r with
        | nil => cases hc
        | cons c' r =>
          obtain rfl : c' = c := Option.some.inj hc
          have := hcalm c' r rfl
          exact not_digit hu this.1 this.2
      · refine CssL.pfail_cat (CssL.pfail_set ?_)
        intro c hc
        obtain rfl : z = c := Option.some.inj hc
        simp only [List.mem_cons, List.not_mem_nil, or_false] at hz
        rcases hz with rfl | rfl | rfl | rfl | rfl | rfl | rfl
        · exact absurd rfl h32
        all_goals decide
    exact this t _ ht' q h2
  · have hb := pbest_time hu hw hp.1
    obtain ⟨h', m, s, f, z, rfl, hh, hm, hs, hf, hz⟩ := hw
    obtain ⟨c, hc1, hc2⟩ := digits_head (post := 58 :: (m ++ 58 :: (s ++ (f ++ z)))) hh
    have hc' : c < 128 ∧ c ≠ 10 ∧ c ≠ 44 := by unfold IsDigit at hc2; omega
    refine hits_val hu h 9 [7, 8] (c := c) (r := rule (timePat u) .timestamp) hc1 rfl rfl hc'.1 hc'.2.1 hc'.2.2 (digit_only c hc'.1 hc2).2.2.2 ?_ hb
    have hd : PFail (datePat u) (h' ++ 58 :: (m ++ 58 :: (s ++ (f ++ z))) ++ post) := by
      rw [List.append_assoc]
      refine pfail_times_chr (x := 45) rfl (not_digit hu (by decide) (by unfold IsDigit; decide)) 4 h' (fun c hc => digit_set hu (hh.2 c hc)) ?_
      intro c hc
      obtain rfl : 58 = c := Option.some.inj hc
      exact ⟨not_digit hu (by decide) (by unfold IsDigit; decide), by decide⟩
    intro j hj r hr
    simp only [List.mem_cons, List.not_mem_nil, or_false] at hj
    rcases hj with rfl | rfl <;> obtain rfl := Option.some.inj hr
    · exact CssL.pfail_cat hd
    · exact hd
  · have hb : PBest (dateTimePat u) (d ++ x :: y) post :=
      PBest.cat (pbest_date hu hd) (PBest.cat (v := [x]) (CssL.pbest_set (by rcases hx with rfl | rfl | rfl <;> decide)) (pbest_time hu hy hp.1))
    obtain ⟨c, hc1, hc2⟩ : ∃ c, (d ++ x :: y).head? = some c ∧ IsDigit c := by
      obtain ⟨y', m, d, rfl, hy, hm, hd⟩ := hd
      rw [List.append_assoc]
      exact digits_head hy
    have hc' : c < 128 ∧ c ≠ 10 ∧ c ≠ 44 := by unfold IsDigit at hc2; omega
    exact hits_val hu h 7 [] (c := c) (r := rule (dateTimePat u) .timestamp) hc1 rfl rfl hc'.1 hc'.2.1 hc'.2.2 (digit_only c hc'.1 hc2).2.1 (by simp) hb

/-! ### Booleans -/

/-- Before this there is no letter. -/
def Free (u : Uni) (t rest : List Nat) : Prop := ∃ c, (c :: rest) <:+ t ∧ u.word c = false

theorem free_left {rest : List Nat} (h : Free u t rest) {p : Nat} (hp : t.drop p = rest) (hr : rest ≠ []) : Json.Left u t p := by
  obtain ⟨c, ⟨pre, rfl⟩, hw⟩ := h
  have hl := congrArg List.length hp
  have := List.length_pos_iff.2 hr
  simp only [List.length_drop, List.length_append, List.length_cons] at hl
  have : p = pre.length + 1 := by omega
  subst this
  intro _ d hd
  simp at hd
  rw [← hd]
  exact hw

theorem Free.after {w rest : List Nat} (h : Free u t (w ++ rest)) (hw : ∀ c ∈ w, u.word c = false) : Free u t rest := by
  induction w with
  | nil => exact h
  | cons c w ih =>
    refine ih ?_ (fun x hx => hw x (by simp [hx]))
    obtain ⟨d, hd, _⟩ := h
    exact ⟨c, (List.suffix_cons d _).trans hd, hw c (by simp)⟩

theorem word_low (hu : u.Ascii) : ∀ c ∈ [32, 9, 10, 44, 93, 91, 61, 125, 123, 43, 45, 35], u.word c = false := by
  intro c hc
  simp only [List.mem_cons, List.not_mem_nil, or_false] at hc
  rw [hu.word c (by omega)]
  rcases hc with rfl | rfl | rfl | rfl | rfl | rfl | rfl | rfl | rfl | rfl | rfl | rfl <;> decide

theorem best_word (hu : u.Ascii) (s : String) {a : Pat Nat} {c : Nat} {w post : List Nat} (hs : str s = c :: w) (hw : ∀ x ∈ c :: w, x < 128 ∧ CssL.uni0.word x = true)
    (ha : PBest a (str s) post) (hp : End post) (hf : Free u t (str s ++ post)) {p : Nat} (ht : t.drop p = str s ++ post) :
    Best t (.cat (.bound u.word) (.cat a (.bound u.word))) p (p + (str s).length) := by
  have hword : ∀ x ∈ c :: w, u.word x = true := fun x hx => by
    rw [hu.word x (hw x hx).1]
    exact (hw x hx).2
  have hlen : (str s).length = w.length + 1 := by rw [hs]; rfl
  refine Best.cat (Json.bound_left (free_left hf ht (by rw [hs]; simp)) (c := c) (drop_get (post := w ++ post) (by rw [ht, hs]; rfl)) (hword c (by simp))) (Best.cat (ha t p ht) ?_)
  have hlast : t[p + (str s).length - 1]? = some ((c :: w)[w.length]'(by simp)) := by
    have : (t.drop p)[w.length]? = t[p + w.length]? := by rw [List.getElem?_drop]
    rw [show p + (str s).length - 1 = p + w.length by omega, ← this, ht, hs, List.getElem?_append_left (by simp)]
    exact List.getElem?_eq_getElem _
  refine Json.bound_right (by omega) hlast (hword _ (List.getElem_mem _)) (drop_add ht) ?_
  intro x hx
  refine word_low hu x ?_
  have := hp.lt hx
  simp
  omega

theorem hits_bool (hu : u.Ascii) (h : VL l) (b : Bool) {post : List Nat} (hp : End post) (hf : Free u t ((if b then str "true" else str "false") ++ post)) :
    Hits u t l (if b then str "true" else str "false") post .constant none [] := by
  cases b with
  | true =>
    refine hits_val' hu h 15 [] (c := 116) (r := rule (.cat (.bound u.word) (.cat (.alt (chr "true") (chr "false")) (.bound u.word))) .constant)
      rfl rfl rfl (by decide) (by decide) (by decide) (by decide +kernel) (by simp) ?_
    intro p ht
    exact best_word hu "true" rfl (by decide) (PBest.alt (Xml.pbest_chr "true" _)) hp hf ht
  | false =>
    refine hits_val' hu h 15 [] (c := 102) (r := rule (.cat (.bound u.word) (.cat (.alt (chr "true") (chr "false")) (.bound u.word))) .constant)
      rfl rfl rfl (by decide) (by decide) (by decide) (by decide +kernel) (by simp) ?_
    intro p ht
    exact best_word hu "false" rfl (by decide) (PBest.alt' (CssL.pfail_chr (c := 116) (w := str "rue") (by simp [str])) (Xml.pbest_chr "false" _)) hp hf ht

/-! ### Strings -/

theorem three_ne {q : Nat} {w x : List Nat} (hx : x.head? ≠ some q) (hw : ∀ c, w.head? = some c → c ≠ q) (r : List Nat) : q :: (w ++ q :: x) ≠ [q, q, q] ++ r := by
  intro he
  cases w with
  | nil =>
    simp only [List.nil_append, List.cons_append, List.cons.injEq, true_and] at he
    exact hx (by rw [he]; rfl)
  | cons c w =>
    simp only [List.cons_append, List.cons.injEq, true_and] at he
    exact hw c rfl he.1

theorem stop_head {post : List Nat} (h : Stop post) {q : Nat} (hq : q = 34 ∨ q = 39) : post.head? ≠ some q := by
  obtain ⟨c, r, rfl, hc⟩ := h
  simp only [List.mem_cons, List.not_mem_nil, or_false] at hc
  intro he
  have : c = q := Option.some.inj he
  omega

theorem hits_vquote (hu : u.Ascii) (h : VL l) {p : List Part} (hpk : partsOk false p) {post : List Nat} (hp : Stop post) :
    Hits u t l [34] (partsText p ++ 34 :: post) .string (some ⟨0, [.stringBasic]⟩) [] := by
  refine hits_val hu h 4 [3] (c := 34) (r := rule (chr "\"") .string (some ⟨0, [.stringBasic]⟩)) rfl rfl rfl (by decide) (by decide) (by decide) (by decide +kernel) ?_
    (Xml.pbest_chr "\"" _)
  intro j hj r hr
  obtain rfl : j = 3 := by simpa using hj
  obtain rfl := Option.some.inj hr
  refine CssL.pfail_str (fun r => three_ne (stop_head hp (.inl rfl)) ?_ r)
  intro c hc
  cases p with
  | nil => cases hc
  | cons x p =>
    cases x with
    | chars w =>
      obtain ⟨h1, h2, _⟩ := hpk
      obtain ⟨d, w, rfl⟩ := List.exists_cons_of_ne_nil h1
      obtain rfl : d = c := Option.some.inj hc
      exact (h2 d (by simp)).1
    | esc w =>
      obtain rfl : 92 = c := Option.some.inj hc
      decide

theorem hits_vapos (hu : u.Ascii) (h : VL l) {w : List Nat} (hw : LitOk w) {post : List Nat} (hp : Stop post) :
    Hits u t l [39] (w ++ 39 :: post) .string (some ⟨0, [.stringLiteral]⟩) [] := by
  refine hits_val hu h 6 [5] (c := 39) (r := rule (chr "'") .string (some ⟨0, [.stringLiteral]⟩)) rfl rfl rfl (by decide) (by decide) (by decide) (by decide +kernel) ?_
    (Xml.pbest_chr "'" _)
  intro j hj r hr
  obtain rfl : j = 5 := by simpa using hj
  obtain rfl := Option.some.inj hr
  refine CssL.pfail_cat (Xml.pfail_grp (CssL.pfail_str (fun r => three_ne (stop_head hp (.inr rfl)) ?_ r)))
  intro c hc
  cases w with
  | nil => cases hc
  | cons d w =>
    obtain rfl : d = c := Option.some.inj hc
    exact (hw d (by simp)).1

/-! ### Arrays -/

theorem gap_misses (hu : u.Ascii) (h : VL l) {c : Nat} (hc : c = 32 ∨ c = 9 ∨ (c = 10 ∧ l = .array)) (rest : List Nat) : Misses u t l (c :: rest) := by
  refine misses hu [1] (by omega) ?_ ?_
  · rcases h with rfl | rfl | rfl
    · rcases hc with rfl | rfl | ⟨_, h⟩
      · exact (by decide +kernel : onlyAt .value 19 [1] 32 = true)
      · exact (by decide +kernel : onlyAt .value 19 [1] 9 = true)
      · cases h
    · rcases hc with rfl | rfl | ⟨rfl, _⟩
      · exact (by decide +kernel : onlyAt .array 19 [1] 32 = true)
      · exact (by decide +kernel : onlyAt .array 19 [1] 9 = true)
      · exact (by decide +kernel : onlyAt .array 19 [1] 10 = true)
    · rcases hc with rfl | rfl | ⟨_, h⟩
      · exact (by decide +kernel : onlyAt .inlineValue 20 [1] 32 = true)
      · exact (by decide +kernel : onlyAt .inlineValue 20 [1] 9 = true)
      · cases h
  · intro j hj r hr
    obtain rfl : j = 1 := by simpa using hj
    rcases h with rfl | rfl | rfl
    · obtain rfl := Option.some.inj hr
      refine pfail_dollar ?_
      rcases hc with rfl | rfl | ⟨_, h⟩
      · decide
      · decide
      · cases h
    · obtain rfl := Option.some.inj hr
      exact CssL.pfail_chr (c := 44) (w := []) (by simp; omega)
    · obtain rfl := Option.some.inj hr
      exact CssL.pfail_chr (c := 125) (w := []) (by simp; omega)

theorem go_gap (hu : u.Ascii) (h : VL l) {w : List Nat} (hw : ∀ c ∈ w, c = 32 ∨ c = 9 ∨ (c = 10 ∧ l = .array)) (post : List Nat)
    (is : List V) (fs : List Fr) (n : Nat) (o : Bool) : ∃ o', Go u t ⟨w ++ post, (l, is) :: fs, n, o⟩ ⟨post, (l, is) :: fs, n, o'⟩ := by
  refine s_gap' h.skip ?_
  intro i hi
  rw [List.drop_eq_getElem_cons hi, List.cons_append]
  exact gap_misses hu h (hw _ (List.getElem_mem hi)) _

theorem ws_gap {w : List Nat} (h : Ws w) : ∀ c ∈ w, c = 32 ∨ c = 9 ∨ (c = 10 ∧ TL.array = .array) := fun c hc => by
  rcases h c hc with h | h | h
  · exact .inl h
  · exact .inr (.inl h)
  · exact .inr (.inr ⟨h, rfl⟩)

theorem slice_tail (c : Nat) (b : List Nat) : slice (c :: b) 1 (1 + b.length) = b := by
  simp [slice, Nat.add_comm]

theorem hits_arrEnd (hu : u.Ascii) {b post : List Nat} (hb : Blank b) (hp : ∀ c, post.head? = some c → c = 10 ∨ c = 44 ∨ c = 93 ∨ c = 125 ∨ c = 35) :
    ∃ a, Hits u t .array (93 :: b) post a (some ⟨1, []⟩) [(2, 1, 1 + b.length), (1, 0, 1)] ∧
      expV a (93 :: b) [(2, 1, 1 + b.length), (1, 0, 1)] = [.tok [93] .bracket] := by
  have hpc : PC (.cat (.grp 1 (chr "]")) (.grp 2 (.star (.set fun c => !(10 :: str ",}#]").contains c)))) (93 :: b) post [(2, 1, 1 + b.length), (1, 0, 1)] := by
    have := (PC.grp 1 (Xml.pbest_chr "]" (b ++ post))).cat (PC.grp 2 (w := b) (CssL.pbest_star (g := fun c => !(10 :: str ",}#]").contains c)
      (by intro c hc; rcases hb c hc with rfl | rfl <;> decide) (by intro c hc; rcases hp c hc with rfl | rfl | rfl | rfl | rfl <;> decide)))
    refine this.eq rfl ?_
    simp [shift, str, Nat.add_comm]
  have htx : texts (93 :: b) [(2, 1, 1 + b.length), (1, 0, 1)] = [(2, b), (1, [93])] := by
    simp only [texts, List.map_cons, List.map_nil, slice_tail]
    rfl
  have hall : b.all u.space = true := by
    rw [List.all_eq_true]
    intro c hc
    rcases hb c hc with rfl | rfl
    · rw [hu.space 32 (by decide)]; rfl
    · rw [hu.space 9 (by decide)]; rfl
  by_cases he : b = []
  · subst he
    refine ⟨.arrayBadGroups, hits hu 0 [] rfl ?_ (by decide) (by decide +kernel) (by simp) hpc, rfl⟩
    rw [htx]
    simp [spaceGroup, List.lookup]
  · refine ⟨.arrayGroups, hits hu 0 [] rfl ?_ (by decide) (by decide +kernel) (by simp) hpc, rfl⟩
    rw [htx]
    have : (b != []) = true := by simpa using he
    simp only [spaceGroup, List.lookup, beq_self_eq_true, this, hall, Bool.and_self, if_true]

/-- What comes after a value and white space. -/
def Fin (post : List Nat) : Prop := ∃ c r, post = c :: r ∧ (c = 10 ∨ c = 44 ∨ c = 93 ∨ c = 125 ∨ c = 35)

theorem fin_end {r post : List Nat} (hr : Ws r) (hp : Fin post) : Calm (r ++ post) := by
  obtain ⟨c, q, rfl, hc⟩ := hp
  have hx : ∀ x ∈ r ++ [c], x ∈ [32, 9, 10, 44, 93, 125, 35] := by
    intro x hx
    rcases List.mem_append.1 hx with hx | hx
    · have := hr x hx
      simp
      omega
    · have : x = c := by simpa using hx
      simp
      omega
  cases r with
  | nil =>
    refine ⟨⟨c, q, rfl, hx c (by simp)⟩, ?_⟩
    intro d s he
    simp only [List.nil_append, List.cons.injEq] at he
    omega
  | cons d r =>
    refine ⟨⟨d, r ++ c :: q, rfl, hx d (by simp)⟩, ?_⟩
    intro y s he
    have hy : y ∈ [32, 9, 10, 44, 93, 125, 35] := by
      cases r with
      | nil =>
        simp only [List.cons_append, List.nil_append, List.cons.injEq] at he
        rw [← he.2.1]
        exact hx c (by simp)
      | cons z r =>
        simp only [List.cons_append, List.cons.injEq] at he
        rw [← he.2.1]
        exact hx z (by simp)
    simp only [List.mem_cons, List.not_mem_nil, or_false] at hy
    unfold IsDigit
    omega

theorem ws_split {r : List Nat} (hr : Ws r) : ∃ b r', r = b ++ r' ∧ Blank b ∧ (r' = [] ∨ ∃ s, r' = 10 :: s) := by
  induction r with
  | nil => exact ⟨[], [], rfl, by simp [Blank], .inl rfl⟩
  | cons c r ih =>
    obtain ⟨b, r', rfl, h1, h2⟩ := ih (fun x hx => hr x (by simp [hx]))
    by_cases hc : c = 10
    · exact ⟨[], c :: (b ++ r'), rfl, by simp [Blank], .inr ⟨_, by rw [hc]⟩⟩
    · refine ⟨c :: b, r', rfl, ?_, h2⟩
      intro x hx
      rcases List.mem_cons.1 hx with rfl | hx
      · have := hr x (by simp)
        omega
      · exact h1 x hx

theorem hits_open (hu : u.Ascii) (h : VL l) (post : List Nat) : Hits u t l [91] post .bracket (some ⟨0, [.array]⟩) [] :=
  hits_val hu h 1 [] (c := 91) (r := rule (chr "[") .bracket (some ⟨0, [.array]⟩)) rfl rfl rfl (by decide) (by decide) (by decide) (by decide +kernel) (by simp)
    (Xml.pbest_chr "[" _)

theorem hits_comma (hu : u.Ascii) (post : List Nat) : Hits u t .array [44] post .separator none [] :=
  hits hu 1 [] (c := 44) (r := rule (chr ",") .separator) rfl rfl (by decide) (by decide +kernel) (by simp) (PC.of (Xml.pbest_chr "," _))

theorem Free.next {c : Nat} {rest : List Nat} {x : List Nat} (h : Free u t (x ++ c :: rest)) (hc : u.word c = false) : Free u t rest := by
  obtain ⟨d, hd, _⟩ := h
  exact ⟨c, (List.suffix_append (d :: x) (c :: rest)).trans (by simpa using hd), hc⟩

theorem free_ws (hu : u.Ascii) {w rest : List Nat} (h : Free u t (w ++ rest)) (hw : Ws w) : Free u t rest :=
  h.after (fun c hc => word_low hu c (by have := hw c hc; simp; omega))

/-! ### Infinity -/

theorem pfail_signed (hu : u.Ascii) {c d : Nat} {rest : List Nat} (hc : c = 43 ∨ c = 45) (hd : d < 128 ∧ ¬ IsDigit d) : PFail (decPat u) (c :: d :: rest) := by
  have h1 : ∀ {x : Nat} {r : List Nat}, x < 128 → ¬ IsDigit x → ∀ {b : Pat Nat}, PFail (.cat (digitsPat u) b) (x :: r) := by
    intro x r hx hx' b
    refine CssL.pfail_cat (CssL.pfail_cat (CssL.pfail_set ?_))
    intro y hy
    obtain rfl : x = y := Option.some.inj hy
    exact not_digit hu hx hx'
  refine pfail_opt (CssL.pfail_cat_set (h1 hd.1 hd.2)) (h1 (by omega) (by unfold IsDigit; omega))

theorem hits_inf (hu : u.Ascii) (h : VL l) {s : List Nat} (hs : Sign s) (nan : Bool) {post : List Nat} (hp : End post) (hf : Free u t (s ++ infText nan ++ post)) :
    Hits u t l (s ++ infText nan) post .number none [] := by
  have hword : ∀ {q : Nat}, t.drop q = infText nan ++ post → Free u t (infText nan ++ post) →
      Best t (.cat (.bound u.word) (.cat (.alt (chr "inf") (chr "nan")) (.bound u.word))) q (q + (infText nan).length) := by
    intro q ht hf
    cases nan with
    | false => exact best_word hu "inf" rfl (by decide) (PBest.alt (Xml.pbest_chr "inf" _)) hp hf ht
    | true => exact best_word hu "nan" rfl (by decide) (PBest.alt' (CssL.pfail_chr (c := 105) (w := str "nf") (by simp [str])) (Xml.pbest_chr "nan" _)) hp hf ht
  obtain ⟨d, w, hd, hd'⟩ : ∃ d w, infText nan = d :: w ∧ (d = 105 ∨ d = 110) := by
    cases nan
    · exact ⟨105, _, rfl, .inl rfl⟩
    · exact ⟨110, _, rfl, .inr rfl⟩
  rcases sign_cases hs with rfl | ⟨c, rfl, hc⟩
  · refine hits_val' hu h 14 [] (c := d) (r := rule (.cat (.opt (oneOf "-+")) (.cat (.bound u.word) (.cat (.alt (chr "inf") (chr "nan")) (.bound u.word)))) .number)
      (by rw [hd]; rfl) rfl rfl (by omega) (by omega) (by omega) (by rcases hd' with rfl | rfl <;> decide +kernel) (by simp) ?_
    intro p ht
    have hn : PBest (.opt (oneOf "-+")) [] (infText nan ++ post) := by
      refine CssL.pbest_none (CssL.pfail_set (fun x hx => ?_))
      rw [hd] at hx
      obtain rfl : d = x := Option.some.inj hx
      rcases hd' with rfl | rfl <;> decide
    exact Best.cat (hn t p ht) (hword ht hf)
  · refine hits_val' hu h 14 [13] (c := c) (r := rule (.cat (.opt (oneOf "-+")) (.cat (.bound u.word) (.cat (.alt (chr "inf") (chr "nan")) (.bound u.word)))) .number)
      rfl rfl rfl (by omega) (by omega) (by omega) (by rcases hc with rfl | rfl <;> decide +kernel) ?_ ?_
    · intro j hj r hr
      obtain rfl : j = 13 := by simpa using hj
      obtain rfl := Option.some.inj hr
      rw [hd]
      exact pfail_signed hu hc (by unfold IsDigit; omega)
    · intro p ht
      have hn : PBest (.opt (oneOf "-+")) [c] (infText nan ++ post) := PBest.opt (CssL.pbest_set (by rcases hc with rfl | rfl <;> decide))
      have hf' : Free u t (infText nan ++ post) := Free.after (w := [c]) (by simpa using hf) (by
        intro x hx
        obtain rfl : x = c := by simpa using hx
        exact word_low hu x (by rcases hc with rfl | rfl <;> simp))
      have h2 := hword (q := p + 1) (by simpa using drop_add (w := [c]) (post := infText nan ++ post) (by simpa using ht)) hf'
      have := Best.cat (hn t p (by simpa using ht)) h2
      rw [show p + ([c] ++ infText nan).length = p + 1 + (infText nan).length by simp; omega]
      exact this

/-! ### Inline tables -/

theorem key_head {k : Key} (h : k.ok false) : ∃ x r, k.text = x :: r ∧ (x = 34 ∨ x = 39 ∨ IsBare x) := by
  obtain ⟨x, r, h1, h2⟩ := comp_head h.1
  exact ⟨x, r ++ moreText k.more, by rw [Key.text, h1]; rfl, h2⟩

theorem head_lt {x : Nat} (h : x = 34 ∨ x = 39 ∨ IsBare x) : x < 128 ∧ (x = 34 ∨ x = 39 ∨ isKey x = true) := by
  rcases h with rfl | rfl | h
  · simp
  · simp
  · exact ⟨(bare_lt h).1, .inr (.inr (bare_lt h).2)⟩

theorem hits_brace (hu : u.Ascii) (h : VL l) (post : List Nat) : Hits u t l [123] post .bracket (some ⟨0, [.inlineTable]⟩) [] :=
  hits_val hu h 2 [] (c := 123) (r := rule (chr "{") .bracket (some ⟨0, [.inlineTable]⟩)) rfl rfl rfl (by decide) (by decide) (by decide) (by decide +kernel) (by simp)
    (Xml.pbest_chr "{" _)

theorem hits_tblEnd (hu : u.Ascii) (post : List Nat) : Hits u t .inlineTable [125] post .bracket (some ⟨1, []⟩) [] :=
  hits hu 1 [] (c := 125) (r := rule (chr "}") .bracket (some ⟨1, []⟩)) rfl rfl (by decide) (by decide +kernel) (by simp) (PC.of (Xml.pbest_chr "}" _))

theorem hits_fieldEnd (hu : u.Ascii) (post : List Nat) : Hits u t .inlineValue [125] post .bracket (some ⟨2, []⟩) [] :=
  hits hu 1 [] (c := 125) (r := rule (chr "}") .bracket (some ⟨2, []⟩)) rfl rfl (by decide) (by decide +kernel) (by simp) (PC.of (Xml.pbest_chr "}" _))

theorem hits_fieldComma (hu : u.Ascii) (post : List Nat) : Hits u t .inlineValue [44] post .separator (some ⟨1, []⟩) [] :=
  hits hu 2 [] (c := 44) (r := rule (chr ",") .separator (some ⟨1, []⟩)) rfl rfl (by decide) (by decide +kernel) (by simp) (PC.of (Xml.pbest_chr "," _))

theorem hits_fieldAssign (hu : u.Ascii) (post : List Nat) : Hits u t .inlineKey [61] post .assign (some ⟨1, [.inlineValue]⟩) [] :=
  hits hu 0 [] (c := 61) (r := rule (chr "=") .assign (some ⟨1, [.inlineValue]⟩)) rfl rfl (by decide) (by decide +kernel) (by simp) (PC.of (Xml.pbest_chr "=" _))

theorem blank_ws {w : List Nat} (h : Blank w) : Ws w := fun c hc => by
  have := h c hc
  omega

theorem go_inlBlank (hu : u.Ascii) {w post : List Nat} (hb : Blank w) {c : Nat} (hc : u.space c = false) (is : List V) (fs : List Fr) (n : Nat) :
    Go u t ⟨w ++ c :: post, (.inlineTable, is) :: fs, n, true⟩ ⟨c :: post, (.inlineTable, is) :: fs, n, true⟩ := by
  by_cases hw : w = []
  · subst hw
    exact Go.refl _
  obtain ⟨x, w, rfl⟩ := List.exists_cons_of_ne_nil hw
  have hx := hb x (by simp)
  refine s_skip (hits hu 3 [] (r := rule (.plus (.set u.space)) .skip) rfl rfl (by omega) (by rcases hx with rfl | rfl <;> decide +kernel) (by simp)
    (PC.of (CssL.pbest_plus (by simp) (fun y hy => ?_) (fun y hy => ?_))))
  · rcases hb y hy with rfl | rfl
    · rw [hu.space 32 (by decide)]; rfl
    · rw [hu.space 9 (by decide)]; rfl
  · obtain rfl : c = y := Option.some.inj hy
    exact hc

theorem inl_only : ∀ c < 128, c = 34 ∨ c = 39 ∨ isKey c = true → onlyAt .inlineTable 4 [] c = true := by decide +kernel

theorem space_key : ∀ c < 128, c = 34 ∨ c = 39 ∨ isKey c = true → CssL.uni0.space c = false := by decide +kernel

/-- A key with its value in an inline table. -/
theorem field_go (hu : u.Ascii) {b0 b a r : List Nat} {k : Key} {v : Val} (h1 : Blank b0) (h2 : k.ok false) (h3 : Blank b) (h4 : Blank a) (h6 : Blank r) {post : List Nat}
    (hv : Free u t (v.text ++ (r ++ post)) → ∀ (is : List V) (fs : List Fr) (n : Nat) (o : Bool), ∃ r', r' <:+ r ∧
      Go u t ⟨v.text ++ (r ++ post), (.inlineValue, is) :: fs, n, o⟩ ⟨r' ++ post, (.inlineValue, is ++ v.view) :: fs, 0, true⟩)
    (hs : b0 ++ (k.text ++ (b ++ 61 :: (a ++ (v.text ++ (r ++ post))))) <:+ t) (is : List V) (fs : List Fr) (n : Nat) :
    ∃ o, Go u t ⟨b0 ++ (k.text ++ (b ++ 61 :: (a ++ (v.text ++ (r ++ post))))), (.inlineTable, is) :: fs, n, true⟩
      ⟨post, (.inlineValue, v.view) :: (.inlineTable, is ++ [mk .inlineKey (k.view .variable ++ [.tok [61] .assign])]) :: fs, 0, o⟩ := by
  obtain ⟨x, q, e, hx⟩ := key_head h2
  obtain ⟨hx1, hx2⟩ := head_lt hx
  have g0 := go_inlBlank (t := t) (post := q ++ (b ++ 61 :: (a ++ (v.text ++ (r ++ post))))) hu h1 (c := x) (by rw [hu.space x hx1]; exact space_key x hx1 hx2) is fs n
  have g1 : Go u t ⟨x :: (q ++ (b ++ 61 :: (a ++ (v.text ++ (r ++ post))))), (.inlineTable, is) :: fs, n, true⟩
      ⟨x :: (q ++ (b ++ 61 :: (a ++ (v.text ++ (r ++ post))))), (.inlineKey, []) :: (.inlineTable, is) :: fs, n + 1, true⟩ :=
    s_push rfl (misses hu [] hx1 (inl_only x hx1 hx2) (by simp))
  rw [← List.cons_append, ← e] at g0 g1
  have hkl : KL .inlineKey .variable 2 := .inr (.inr (.inr ⟨rfl, rfl, rfl⟩))
  have hstop : Stop (b ++ 61 :: (a ++ (v.text ++ (r ++ post)))) := by
    by_cases h : b = []
    · subst h
      exact ⟨61, _, rfl, by decide⟩
    · exact blank_stop h3 h
  have g2 := key_go (t := t) (is := []) (fs := (.inlineTable, is) :: fs) (n := n + 1) (o := true) hu hkl hstop h2
  have g3 := go_blank (t := t) (is := [] ++ k.view .variable) (fs := (.inlineTable, is) :: fs) (n := 0) (post := 61 :: (a ++ (v.text ++ (r ++ post)))) hu hkl h3 (by
    intro y hy
    obtain rfl : 61 = y := Option.some.inj hy
    decide)
  have g4 := s_switch (is := [] ++ k.view .variable) (l0 := .inlineTable) (is0 := is) (fs := fs) (n := 0) (o := true) (vs := [.tok [61] .assign])
    (hits_fieldAssign (t := t) hu (a ++ (v.text ++ (r ++ post)))) rfl (by simp)
  have hgap : ∀ {w : List Nat}, Blank w → ∀ c ∈ w, c = 32 ∨ c = 9 ∨ (c = 10 ∧ TL.inlineValue = .array) := fun h c hc => by
    rcases h c hc with h | h
    · exact .inl h
    · exact .inr (.inl h)
  obtain ⟨o5, g5⟩ := go_gap (t := t) hu (.inr (.inr rfl)) (hgap h4) (v.text ++ (r ++ post)) []
    ((.inlineTable, is ++ [mk .inlineKey ([] ++ k.view .variable ++ [.tok [61] .assign])]) :: fs) 1 true
  have hf : Free u t (a ++ (v.text ++ (r ++ post))) := by
    refine ⟨61, List.IsSuffix.trans ?_ hs, word_low hu 61 (by simp)⟩
    rw [← List.append_assoc k.text, ← List.append_assoc b0]
    exact List.suffix_append _ _
  obtain ⟨r', hr', g6⟩ := hv (free_ws hu hf (blank_ws h4)) []
    ((.inlineTable, is ++ [mk .inlineKey ([] ++ k.view .variable ++ [.tok [61] .assign])]) :: fs) 1 o5
  obtain ⟨o7, g7⟩ := go_gap (t := t) hu (.inr (.inr rfl)) (hgap (w := r') (fun c hc => h6 c (hr'.subset hc))) post ([] ++ v.view)
    ((.inlineTable, is ++ [mk .inlineKey ([] ++ k.view .variable ++ [.tok [61] .assign])]) :: fs) 0 true
  refine ⟨o7, ?_⟩
  have := ((((((g0.trans g1).trans g2).trans g3).trans g4).trans g5).trans g6).trans g7
  simpa using this

end Parce.Toml

import Verif.Lemmas.TomlKey
/-!
# Numbers, dates and times in TOML texts
-/
namespace Parce.Toml
open Parce.Json (Uni str)
open Parce.CssL (PBest PFail)
open Parce.Xml (PC shift)
variable {u : Uni}

/-! ### Repetition -/

/-- Rounds of `a`, after which no other is possible. -/
inductive Many (a : Pat Nat) (post : List Nat) : List Nat → Prop
  | nil : PFail a post → Many a post []
  | cons {w v} : w ≠ [] → PBest a w (v ++ post) → Many a post v → Many a post (w ++ v)

theorem Many.best {a : Pat Nat} {post v : List Nat} (h : Many a post v) : PBest (.star a) v post := by
  suffices h' : ∀ t fuel p c, t.drop p = v ++ post → v.length ≤ fuel → ∃ r, starRun (a.run t) fuel p c = (p + v.length, c) :: r by
    intro t p ht c
    have hl := congrArg List.length ht
    simp only [List.length_drop, List.length_append] at hl
    exact h' t (t.length - p) p c ht (by omega)
  induction h with
  | nil hf =>
    intro t fuel p c ht _
    cases fuel with
    | zero => exact ⟨[], rfl⟩
    | succ n =>
      have : a.run t p c = [] := (hf t p ht).run c
      exact ⟨[], by simp [starRun, this]⟩
  | @cons w v hw hb _ ih =>
    intro t fuel p c ht hf
    rw [List.append_assoc] at ht
    have hpos := List.length_pos_iff.2 hw
    rw [List.length_append] at hf
    cases fuel with
    | zero => omega
    | succ n =>
      obtain ⟨r, hr⟩ := hb t p ht c
      obtain ⟨r', hr'⟩ := ih t n (p + w.length) c (drop_add ht) (by omega)
      simp only [starRun, hr, List.flatMap_cons]
      rw [if_pos (by omega), hr', List.length_append, ← Nat.add_assoc]
      exact ⟨_, rfl⟩

/-! ### Digits -/

theorem digit_set (hu : u.Ascii) {c : Nat} (h : IsDigit c) : u.digit c = true := by
  unfold IsDigit at h
  rw [hu.digit c (by omega)]
  simp only [Bool.and_eq_true, decide_eq_true_eq]
  omega

theorem not_digit (hu : u.Ascii) {c : Nat} (h1 : c < 128) (h2 : ¬ IsDigit c) : u.digit c = false := by
  unfold IsDigit at h2
  rw [hu.digit c h1]
  simp only [Bool.and_eq_false_iff, decide_eq_false_iff_not]
  omega

/-- What is after digits. -/
def After (f : Nat → Bool) (post : List Nat) : Prop := ∀ c, post.head? = some c → f c = false ∧ c ≠ 95

theorem pfail_digit {f : Nat → Bool} {post : List Nat} (h : After f post) : PFail (digitPat f) post := by
  refine pfail_opt (CssL.pfail_cat (CssL.pfail_chr (c := 95) (w := []) (fun he => (h 95 he).2 rfl))) (CssL.pfail_set (fun c hc => (h c hc).1))

theorem pbest_digit {f : Nat → Bool} {c : Nat} {post : List Nat} (h : f c = true) (hc : c ≠ 95) : PBest (digitPat f) [c] post :=
  PBest.cat (v := []) (CssL.pbest_none (CssL.pfail_chr (c := 95) (w := []) (by simpa using hc))) (CssL.pbest_set h)

theorem pbest_under {f : Nat → Bool} {c : Nat} {post : List Nat} (h : f c = true) : PBest (digitPat f) [95, c] post :=
  PBest.cat (v := [95]) (PBest.opt (Xml.pbest_chr "_" _)) (CssL.pbest_set h)

theorem grouped_many {D : Nat → Prop} {f : Nat → Bool} (hD : ∀ c, D c → f c = true ∧ c ≠ 95) {w : List Nat} (h : Grouped D w) {post : List Nat} (hp : After f post) :
    ∃ c v, w = c :: v ∧ D c ∧ Many (digitPat f) post v := by
  induction h with
  | one h => exact ⟨_, [], rfl, h, .nil (pfail_digit hp)⟩
  | next h _ ih =>
    obtain ⟨c, v, rfl, h1, h2⟩ := ih
    exact ⟨_, _, rfl, h, .cons (w := [c]) (by simp) (pbest_digit (hD c h1).1 (hD c h1).2) h2⟩
  | under h _ ih =>
    obtain ⟨c, v, rfl, h1, h2⟩ := ih
    exact ⟨_, _, rfl, h, .cons (w := [95, c]) (by simp) (pbest_under (hD c h1).1) h2⟩

theorem digit_ok (hu : u.Ascii) (c : Nat) (h : IsDigit c) : u.digit c = true ∧ c ≠ 95 := ⟨digit_set hu h, by unfold IsDigit at h; omega⟩

theorem pbest_digits (hu : u.Ascii) {w post : List Nat} (h : Grouped IsDigit w) (hp : After u.digit post) : PBest (digitsPat u) w post := by
  obtain ⟨c, v, rfl, h1, h2⟩ := grouped_many (digit_ok hu) h hp
  exact PBest.cat (v := [c]) (CssL.pbest_set (digit_set hu h1)) h2.best

/-- A number after `0x` and the like. -/
theorem pbest_radix {D : Nat → Prop} {f : Nat → Bool} (hD : ∀ c, D c → f c = true ∧ c ≠ 95) {s : String} {x : Nat} {w post : List Nat}
    (hx : (str s).contains x = true) (h : Grouped D w) (hp : After f post) : PBest (radixPat s f) (48 :: x :: w) post := by
  obtain ⟨c, v, rfl, h1, h2⟩ := grouped_many hD h hp
  refine PBest.cat (v := [48]) (Xml.pbest_chr "0" _) (PBest.cat (v := [x]) (CssL.pbest_set hx) ?_)
  exact PBest.cat (v := [c]) (pbest_digit (hD c h1).1 (hD c h1).2) h2.best

/-- What may come after a value. -/
def End (post : List Nat) : Prop := ∃ c r, post = c :: r ∧ c ∈ [32, 9, 10, 44, 93, 125, 35]

theorem End.lt {post : List Nat} (h : End post) {c : Nat} (hc : post.head? = some c) : c = 32 ∨ c = 9 ∨ c = 10 ∨ c = 44 ∨ c = 93 ∨ c = 125 ∨ c = 35 := by
  obtain ⟨d, r, rfl, hd⟩ := h
  obtain rfl : d = c := Option.some.inj hc
  simpa using hd

theorem End.stop {post : List Nat} (h : End post) : Stop post := by
  obtain ⟨d, r, rfl, hd⟩ := h
  refine ⟨d, r, rfl, ?_⟩
  simp only [List.mem_cons, List.not_mem_nil, or_false] at hd ⊢
  omega

theorem End.after (hu : u.Ascii) {post : List Nat} (h : End post) : After u.digit post := by
  intro c hc
  have := h.lt hc
  exact ⟨not_digit hu (by omega) (by unfold IsDigit; omega), by omega⟩

theorem sign_cases {s : List Nat} (h : Sign s) : s = [] ∨ ∃ c, s = [c] ∧ (c = 43 ∨ c = 45) := by
  rcases h with rfl | rfl | rfl
  · exact .inl rfl
  · exact .inr ⟨43, rfl, .inl rfl⟩
  · exact .inr ⟨45, rfl, .inr rfl⟩

theorem grouped_head {D : Nat → Prop} {w : List Nat} (h : Grouped D w) : ∃ c r, w = c :: r ∧ D c := by
  cases h with
  | one h => exact ⟨_, _, rfl, h⟩
  | next h _ => exact ⟨_, _, rfl, h⟩
  | under h _ => exact ⟨_, _, rfl, h⟩

theorem pbest_sign {s w post : List Nat} (hs : Sign s) (hw : Grouped IsDigit w) : PBest (.opt (oneOf "-+")) s (w ++ post) := by
  rcases hs with rfl | rfl | rfl
  · obtain ⟨c, r, rfl, hc⟩ := grouped_head hw
    refine CssL.pbest_none (CssL.pfail_set (fun d hd => ?_))
    obtain rfl : c = d := Option.some.inj hd
    unfold IsDigit at hc
    rw [show str "-+" = [45, 43] from rfl]
    simp
    omega
  · exact PBest.opt (CssL.pbest_set (by decide))
  · exact PBest.opt (CssL.pbest_set (by decide))

/-- Integers and floats. -/
theorem pbest_dec (hu : u.Ascii) {w post : List Nat} (h : Dec w) (hp : End post) : PBest (decPat u) w post := by
  obtain ⟨s, i, f, e, rfl, hs, hi, hf, he⟩ := h
  have ha : After u.digit (e ++ post) := by
    rcases he with rfl | ⟨x, s', g, rfl, hx, _, _⟩
    · exact hp.after hu
    · intro c hc
      obtain rfl : x = c := Option.some.inj hc
      exact ⟨not_digit hu (by omega) (by unfold IsDigit; omega), by omega⟩
  have h4 : PBest (.opt (.cat (oneOf "eE") (.cat (.opt (oneOf "-+")) (digitsPat u)))) e post := by
    rcases he with rfl | ⟨x, s', g, rfl, hx, hs', hg⟩
    · refine CssL.pbest_none (CssL.pfail_cat (CssL.pfail_set (fun c hc => ?_)))
      rcases hp.lt hc with rfl | rfl | rfl | rfl | rfl | rfl | rfl <;> decide
    · refine PBest.opt ?_
      rw [List.cons_append]
      refine PBest.cat (v := [x]) (CssL.pbest_set ?_) (PBest.cat (pbest_sign hs' hg) (pbest_digits hu hg (hp.after hu)))
      rcases hx with rfl | rfl <;> decide
  have h3 : PBest (.opt (.cat (chr ".") (.plus (digitsPat u)))) f (e ++ post) := by
    rcases hf with rfl | ⟨g, rfl, hg⟩
    · refine CssL.pbest_none (CssL.pfail_cat (CssL.pfail_chr (c := 46) (w := []) ?_))
      rcases he with rfl | ⟨x, s', g, rfl, hx, _, _⟩
      · intro hc
        have := hp.lt hc
        omega
      · intro hc
        have := Option.some.inj hc
        omega
    · refine PBest.opt (PBest.cat (v := [46]) (Xml.pbest_chr "." _) ?_)
      have hn : PFail (digitsPat u) (e ++ post) := CssL.pfail_cat (CssL.pfail_set (fun c hc => (ha c hc).1))
      have := PBest.cat (w := []) (pbest_digits hu hg ha) (Many.best (.nil hn))
      rwa [List.append_nil] at this
  have ha' : After u.digit (f ++ (e ++ post)) := by
    rcases hf with rfl | ⟨g, rfl, hg⟩
    · exact ha
    · intro c hc
      obtain rfl : 46 = c := Option.some.inj hc
      exact ⟨not_digit hu (by omega) (by unfold IsDigit; omega), by omega⟩
  have hsg : PBest (.opt (oneOf "-+")) s ((i ++ (f ++ e)) ++ post) := by
    have := pbest_sign (post := (f ++ e) ++ post) hs hi
    simpa only [List.append_assoc] using this
  have := PBest.cat hsg (PBest.cat (pbest_digits hu hi (by rw [List.append_assoc]; exact ha')) (PBest.cat h3 h4))
  simpa [List.append_assoc, decPat] using this

/-! ### Dates and times -/

theorem pbest_ndigits (hu : u.Ascii) {n : Nat} {w post : List Nat} (h : Digits n w) : PBest (.times (.set u.digit) n) w post := by
  rw [← h.1]
  exact CssL.pbest_times w (fun c hc => digit_set hu (h.2 c hc))

theorem pbest_date (hu : u.Ascii) {w post : List Nat} (h : Date w) : PBest (datePat u) w post := by
  obtain ⟨y, m, d, rfl, hy, hm, hd⟩ := h
  refine PBest.cat (pbest_ndigits hu hy) (PBest.cat (v := [45]) (Xml.pbest_chr "-" _) (PBest.cat (pbest_ndigits hu hm)
    (PBest.cat (v := [45]) (Xml.pbest_chr "-" _) (pbest_ndigits hu hd))))

theorem pbest_time (hu : u.Ascii) {w post : List Nat} (h : Time w) (hp : End post) : PBest (timePat u) w post := by
  obtain ⟨h, m, s, f, z, rfl, hh, hm, hs, hf, hz⟩ := h
  have hz2 : PBest (.opt (offsetPat u)) z post := by
    rcases hz with rfl | rfl | rfl | ⟨x, a, b, rfl, hx, ha, hb⟩
    · refine CssL.pbest_none (CssL.pfail_alt (CssL.pfail_set (fun c hc => ?_)) (CssL.pfail_cat (CssL.pfail_set (fun c hc => ?_))))
      · rcases hp.lt hc with rfl | rfl | rfl | rfl | rfl | rfl | rfl <;> decide
      · rcases hp.lt hc with rfl | rfl | rfl | rfl | rfl | rfl | rfl <;> decide
    · exact PBest.opt (PBest.alt (CssL.pbest_set (by decide)))
    · exact PBest.opt (PBest.alt (CssL.pbest_set (by decide)))
    · refine PBest.opt (PBest.alt' (CssL.pfail_set (fun c hc => ?_)) (PBest.cat (v := [x]) (CssL.pbest_set ?_) (PBest.cat (pbest_ndigits hu ha)
        (PBest.cat (v := [58]) (Xml.pbest_chr ":" _) (pbest_ndigits hu hb)))))
      · obtain rfl : x = c := Option.some.inj hc
        rcases hx with rfl | rfl <;> decide
      · rcases hx with rfl | rfl <;> decide
  have hd : ∀ c, (z ++ post).head? = some c → u.digit c = false ∧ c ≠ 46 := by
    intro c hc
    have : c < 128 ∧ ¬ IsDigit c ∧ c ≠ 46 := by
      unfold IsDigit
      rcases hz with rfl | rfl | rfl | ⟨x, a, b, rfl, hx, ha, hb⟩
      · have := hp.lt hc
        omega
      · obtain rfl : 90 = c := Option.some.inj hc
        omega
      · obtain rfl : 122 = c := Option.some.inj hc
        omega
      · obtain rfl : x = c := Option.some.inj hc
        omega
    exact ⟨not_digit hu this.1 this.2.1, this.2.2⟩
  have hf2 : PBest (.opt (.cat (chr ".") (.plus (.set u.digit)))) f (z ++ post) := by
    rcases hf with rfl | ⟨g, rfl, hg, hg'⟩
    · exact CssL.pbest_none (CssL.pfail_cat (CssL.pfail_chr (c := 46) (w := []) (fun he => (hd 46 he).2 rfl)))
    · exact PBest.opt (PBest.cat (v := [46]) (Xml.pbest_chr "." _) (CssL.pbest_plus hg (fun c hc => digit_set hu (hg' c hc)) (fun c hc => (hd c hc).1)))
  have h1 : PBest (partialTimePat u) (h ++ 58 :: (m ++ 58 :: (s ++ f))) (z ++ post) :=
    PBest.cat (pbest_ndigits hu hh) (PBest.cat (v := [58]) (Xml.pbest_chr ":" _) (PBest.cat (pbest_ndigits hu hm)
      (PBest.cat (v := [58]) (Xml.pbest_chr ":" _) (PBest.cat (pbest_ndigits hu hs) hf2))))
  have := PBest.cat h1 hz2
  simpa [List.append_assoc, timePat] using this

/-! ### What does not match -/

theorem pfail_times_chr {d : Nat → Bool} {s : String} {x : Nat} {b : Pat Nat} (hs : str s = [x]) (hx : d x = false) :
    ∀ (n : Nat) (run : List Nat) {tail : List Nat}, (∀ c ∈ run, d c = true) → (∀ c, tail.head? = some c → d c = false ∧ c ≠ x) →
    PFail (.cat (.times (.set d) n) (.cat (chr s) b)) (run ++ tail)
  | 0, run, tail, h1, h2 => by
    rintro t p ht q ⟨r, h3, h4⟩
    simp only [Pat.times, Pat.mat] at h3
    subst h3
    refine CssL.pfail_cat (b := b) ?_ t p ht q h4
    unfold chr
    rw [hs]
    refine CssL.pfail_chr (w := []) ?_
    cases run with
    | nil => exact fun he => (h2 x he).2 rfl
    | cons c run =>
      intro he
      obtain rfl : c = x := Option.some.inj he
      rw [h1 c (by simp)] at hx
      cases hx
  | n + 1, [], tail, h1, h2 => CssL.pfail_cat (CssL.pfail_cat (CssL.pfail_set (fun c hc => (h2 c hc).1)))
  | n + 1, c :: run, tail, h1, h2 =>
    pfail_assoc (CssL.pfail_cat_set (pfail_times_chr hs hx n run (fun y hy => h1 y (by simp [hy])) h2))

/-- Digits, and after them something that is not `-` or `:`. -/
theorem pfail_stamps (hu : u.Ascii) {run tail : List Nat} (h1 : ∀ c ∈ run, IsDigit c) (h2 : ∀ c, tail.head? = some c → c < 128 ∧ ¬ IsDigit c ∧ c ≠ 45 ∧ c ≠ 58) :
    PFail (dateTimePat u) (run ++ tail) ∧ PFail (datePat u) (run ++ tail) ∧ PFail (timePat u) (run ++ tail) := by
  have hr : ∀ c ∈ run, u.digit c = true := fun c hc => digit_set hu (h1 c hc)
  have hd : PFail (datePat u) (run ++ tail) := pfail_times_chr (x := 45) rfl (not_digit hu (by decide) (by unfold IsDigit; decide)) 4 run hr
    (fun c hc => ⟨not_digit hu (h2 c hc).1 (h2 c hc).2.1, (h2 c hc).2.2.1⟩)
  refine ⟨CssL.pfail_cat hd, hd, CssL.pfail_cat ?_⟩
  exact pfail_times_chr (x := 58) rfl (not_digit hu (by decide) (by unfold IsDigit; decide)) 2 run hr
    (fun c hc => ⟨not_digit hu (h2 c hc).1 (h2 c hc).2.1, (h2 c hc).2.2.2⟩)

theorem pfail_radix {s : String} {f : Nat → Bool} {c : Nat} {rest : List Nat} (h : c ≠ 48 ∨ ∀ y, rest.head? = some y → (str s).contains y = false) :
    PFail (radixPat s f) (c :: rest) := by
  by_cases hc : c = 48
  · subst hc
    rcases h with h | h
    · exact absurd rfl h
    · exact pfail_grp_chr (i := 0) (s := "0") (.inr rfl) (CssL.pfail_cat (CssL.pfail_set h))
  · exact CssL.pfail_cat (CssL.pfail_chr (c := 48) (w := []) (by simpa using hc))

theorem grouped_span {D : Nat → Prop} {w : List Nat} (h : Grouped D w) : ∃ run w', w = run ++ w' ∧ run ≠ [] ∧ (∀ c ∈ run, D c) ∧ (w' = [] ∨ ∃ r, w' = 95 :: r) := by
  induction h with
  | one h => exact ⟨[_], [], rfl, by simp, by simpa using h, .inl rfl⟩
  | @next c w h _ ih =>
    obtain ⟨run, w', rfl, h1, h2, h3⟩ := ih
    refine ⟨c :: run, w', rfl, by simp, ?_, h3⟩
    intro x hx
    rcases List.mem_cons.1 hx with rfl | hx
    · exact h
    · exact h2 x hx
  | @under c w h _ ih => exact ⟨[c], 95 :: w, rfl, by simp, by simpa using h, .inr ⟨w, rfl⟩⟩

end Parce.Toml

import Verif.Lemmas.ReBest
import Verif.Spec.Json
/-!
# The tokens of JSON
-/
namespace Parce.Json
variable {u : Uni} {t : List Nat}

/-- The characters a match can begin with. -/
def vFirst (u : Uni) (c : Nat) : Bool := c == 123 || c == 91 || c == 34 || c == 45 || u.digit c || c == 116 || c == 102 || c == 110

def first (u : Uni) : JL → Nat → Bool
  | .root, c => vFirst u c
  | .object, c => c == 125 || u.space c
  | .key, c => c == 34 || c == 58
  | .value, c => vFirst u c || c == 44 || c == 125
  | .array, c => vFirst u c || c == 44 || c == 93
  | .string, c => c == 34 || c == 92

/-- A match of the pattern begins with such a character. -/
def Begins (t : List Nat) (a : Pat Nat) (f : Nat → Bool) : Prop := ∀ p q, a.mat t p q → ∃ c, t[p]? = some c ∧ f c = true

theorem Begins.fails {a : Pat Nat} {f : Nat → Bool} (h : Begins t a f) {p : Nat} (hp : ∀ c, t[p]? = some c → f c = false) : Fails t a p := by
  intro q hq
  obtain ⟨c, h1, h2⟩ := h p q hq
  rw [hp c h1] at h2
  cases h2

theorem begins_chr (c : Nat) (w : List Nat) : Begins t (Pat.str (c :: w)) (· == c) := by
  intro p q h
  obtain ⟨_, post, h2⟩ := str_mat _ h
  exact ⟨c, drop_get h2, by simp⟩

theorem begins_plus (f : Nat → Bool) : Begins t (.plus (.set f)) f := by
  rintro p q ⟨r, ⟨_, x, h1, h2⟩, _⟩
  exact ⟨x, h1, h2⟩

theorem begins_number : Begins t (number u) (fun c => c == 45 || u.digit c) := by
  rintro p q ⟨r, h1, h2⟩
  rcases h1 with h1 | h1
  · obtain ⟨c, h3, h4⟩ := begins_chr 45 [] p r h1
    exact ⟨c, h3, by simp_all⟩
  · have : p = r := h1
    subst this
    obtain ⟨r', h3, _⟩ := h2
    obtain ⟨c, h4, h5⟩ := begins_plus u.digit p r' h3
    exact ⟨c, h4, by simp [h5]⟩

theorem begins_constant : Begins t (constant u) (fun c => c == 116 || c == 102 || c == 110) := by
  rintro p q ⟨r, h1, h2⟩
  have : p = r := h1.1
  subst this
  obtain ⟨r', h3, _⟩ := h2
  rcases h3 with h3 | h3 | h3
  · obtain ⟨c, h4, h5⟩ := begins_chr 116 (str "rue") p r' h3
    exact ⟨c, h4, by simp_all⟩
  · obtain ⟨c, h4, h5⟩ := begins_chr 102 (str "alse") p r' h3
    exact ⟨c, h4, by simp_all⟩
  · obtain ⟨c, h4, h5⟩ := begins_chr 110 (str "ull") p r' h3
    exact ⟨c, h4, by simp_all⟩

theorem begins_escape : Begins t escape (· == 92) := by
  rintro p q ⟨r, h1, h2⟩
  exact begins_chr 92 [] p r h1

theorem Begins.mono {a : Pat Nat} {f g : Nat → Bool} (h : Begins t a f) (hfg : ∀ c, f c = true → g c = true) : Begins t a g := by
  intro p q hq
  obtain ⟨c, h1, h2⟩ := h p q hq
  exact ⟨c, h1, hfg c h2⟩

theorem begins_values : ∀ r ∈ values u, Begins t r.pat (vFirst u) := by
  intro r hr
  simp only [values, List.mem_cons, List.not_mem_nil, or_false] at hr
  rcases hr with rfl | rfl | rfl | rfl | rfl
  · exact (begins_chr 123 []).mono (fun c h => by simp_all [vFirst])
  · exact (begins_chr 91 []).mono (fun c h => by simp_all [vFirst])
  · exact (begins_chr 34 []).mono (fun c h => by simp_all [vFirst])
  · exact begins_number.mono (fun c h => by simp only [Bool.or_eq_true] at h; rcases h with h | h <;> simp_all [vFirst])
  · exact begins_constant.mono (fun c h => by
      simp only [Bool.or_eq_true] at h; rcases h with (h | h) | h <;> simp_all [vFirst])

theorem begins_rule (l : JL) : ∀ r ∈ rules u l, Begins t r.pat (first u l) := by
  intro r hr
  cases l with
  | root => exact begins_values r hr
  | object =>
    simp only [rules, List.mem_cons, List.not_mem_nil, or_false] at hr
    rcases hr with rfl | rfl
    · exact (begins_chr 125 []).mono (fun c h => by simp_all [first])
    · exact (begins_plus u.space).mono (fun c h => by simp_all [first])
  | key =>
    simp only [rules, List.mem_cons, List.not_mem_nil, or_false] at hr
    rcases hr with rfl | rfl
    · exact (begins_chr 34 []).mono (fun c h => by simp_all [first])
    · exact (begins_chr 58 []).mono (fun c h => by simp_all [first])
  | value =>
    simp only [rules, List.mem_append, List.mem_cons, List.not_mem_nil, or_false] at hr
    rcases hr with hr | rfl | rfl
    · exact (begins_values r hr).mono (fun c h => by simp_all [first])
    · exact (begins_chr 44 []).mono (fun c h => by simp_all [first])
    · exact (begins_chr 125 []).mono (fun c h => by simp_all [first])
  | array =>
    simp only [rules, List.mem_append, List.mem_cons, List.not_mem_nil, or_false] at hr
    rcases hr with hr | rfl | rfl
    · exact (begins_values r hr).mono (fun c h => by simp_all [first])
    · exact (begins_chr 44 []).mono (fun c h => by simp_all [first])
    · exact (begins_chr 93 []).mono (fun c h => by simp_all [first])
  | string =>
    simp only [rules, List.mem_cons, List.not_mem_nil, or_false] at hr
    rcases hr with rfl | rfl
    · exact (begins_chr 34 []).mono (fun c h => by simp_all [first])
    · exact begins_escape.mono (fun c h => by simp_all [first])

theorem no_start {l : JL} {p : Nat} (h : ∀ c, t[p]? = some c → first u l c = false) : ¬ Starts ((rules u l).map (·.pat)) t p := by
  rintro ⟨a, ha, q, hq⟩
  obtain ⟨r, hr, rfl⟩ := List.mem_map.1 ha
  exact (begins_rule l r hr).fails h q hq

/-! ### White space and other characters -/

theorem ws_lt {c : Nat} (h : c = 32 ∨ c = 9 ∨ c = 10 ∨ c = 13) : c < 128 := by omega

theorem ws_first (hu : u.Ascii) {l : JL} (hl : l ≠ .object) {c : Nat} (h : c = 32 ∨ c = 9 ∨ c = 10 ∨ c = 13) : first u l c = false := by
  have hd := hu.digit c (ws_lt h)
  cases l <;> first | exact absurd rfl hl | (rcases h with rfl | rfl | rfl | rfl <;> simp [first, vFirst, hd])

theorem drop_mem {p i : Nat} {w rest : List Nat} (h : t.drop p = w ++ rest) (h1 : p ≤ i) (h2 : i < p + w.length) :
    ∃ c ∈ w, t[i]? = some c := by
  obtain ⟨j, rfl⟩ : ∃ j, i = p + j := ⟨i - p, by omega⟩
  have := congrArg (fun x => x[j]?) h
  simp only [List.getElem?_drop] at this
  rw [List.getElem?_append_left (by omega)] at this
  have hj : j < w.length := by omega
  exact ⟨w[j], List.getElem_mem _, by rw [this, List.getElem?_eq_getElem hj]⟩

theorem ws_none (hu : u.Ascii) {l : JL} (hl : l ≠ .object) {p : Nat} {w rest : List Nat} (hw : Ws w) (h : t.drop p = w ++ rest) :
    ∀ i, p ≤ i → i < p + w.length → ¬ Starts ((rules u l).map (·.pat)) t i := by
  intro i h1 h2
  obtain ⟨c, h3, h4⟩ := drop_mem h h1 h2
  refine no_start (fun c' hc' => ?_)
  rw [h4] at hc'
  cases hc'
  exact ws_first hu hl (hw c h3)

/-! ### Hits -/

theorem hit_of {l : JL} {p : Nat} {ws w post : List Nat} {a : JA} {tg : Option (Target JL)} {rs qs : List (PRule Nat JL JA)}
    {r : PRule Nat JL JA} (hu : u.Ascii) (hr : rules u l = rs ++ r :: qs) (hws : Ws ws) (ht : t.drop p = ws ++ (w ++ post)) (hw : w ≠ [])
    (hl : ws = [] ∨ (dflt l = .skip ∧ l ≠ .object))
    (hf : ∀ r' ∈ rs, Fails t r'.pat (p + ws.length)) (hb : Best t r.pat (p + ws.length) (p + ws.length + w.length))
    (ho : ∀ gs, r.out w gs = (a, tg)) : Hit t (rules u l) (dflt l) p (p + ws.length) w a tg := by
  have hd := drop_add ht
  refine ⟨Nat.le_add_right _ _, ⟨post, hd⟩, hw, fun hne => ?_, rs.length, [], r, ?_, ?_, ho⟩
  · rcases hl with rfl | ⟨hl, hl2⟩
    · exact absurd rfl hne
    · exact ⟨hl, fun i h1 h2 => ws_none hu hl2 hws ht i h1 h2⟩
  · rw [hr, List.map_append, List.map_cons]
    have := rxMatch_best (ps := rs.map (·.pat)) (qs := qs.map (·.pat)) (a := r.pat) (t := t) (p := p + ws.length)
      (q := p + ws.length + w.length) (fun b hb => ?_) hb ?_
    · rw [this, List.length_map]
    · obtain ⟨r', h1, rfl⟩ := List.mem_map.1 hb
      exact hf r' h1
    · have := drop_le hd hw; omega
  · rw [hr]
    simp


/-- Is a lexicon with values. -/
def HasVal (l : JL) : Prop := l = .root ∨ l = .value ∨ l = .array

theorem HasVal.rules {l : JL} (h : HasVal l) : ∃ e, rules u l = values u ++ e ∧ dflt l = .skip ∧ l ≠ .object := by
  rcases h with rfl | rfl | rfl
  · exact ⟨[], by simp [Json.rules], rfl, by simp⟩
  · exact ⟨_, rfl, rfl, by simp⟩
  · exact ⟨_, rfl, rfl, by simp⟩

theorem head_get {q : Nat} {c : Nat} {w post : List Nat} (h : t.drop q = (c :: w) ++ post) {c' : Nat} (hc : t[q]? = some c') : c' = c := by
  have := drop_get (c := c) (post := w ++ post) h
  rw [hc] at this
  exact Option.some.inj this

/-- `{` -/
theorem hit_lbrace (hu : u.Ascii) {l : JL} (hl : HasVal l) {p : Nat} {ws post : List Nat} (hws : Ws ws)
    (ht : t.drop p = ws ++ (str "{" ++ post)) : Hit t (rules u l) (dflt l) p (p + ws.length) (str "{") .delimiter (some ⟨0, [.object]⟩) := by
  obtain ⟨e, h1, h2, h3⟩ := hl.rules (u := u)
  refine hit_of hu (rs := []) (by rw [h1]; rfl) hws ht (by simp [str]) (Or.inr ⟨h2, h3⟩) (by simp) (best_str _ (drop_add ht)) (fun _ => rfl)

theorem hit_lbrack (hu : u.Ascii) {l : JL} (hl : HasVal l) {p : Nat} {ws post : List Nat} (hws : Ws ws)
    (ht : t.drop p = ws ++ (str "[" ++ post)) : Hit t (rules u l) (dflt l) p (p + ws.length) (str "[") .delimiter (some ⟨0, [.array]⟩) := by
  obtain ⟨e, h1, h2, h3⟩ := hl.rules (u := u)
  have hd := drop_add ht
  refine hit_of hu (rs := (values u).take 1) (by rw [h1]; rfl) hws ht (by simp [str]) (Or.inr ⟨h2, h3⟩) (fun r hr => ?_) (best_str _ hd) (fun _ => rfl)
  simp only [values, List.take_succ_cons, List.take_zero, List.mem_cons, List.not_mem_nil, or_false] at hr
  subst hr
  exact (begins_chr 123 []).fails (fun c hc => by rw [head_get (c := 91) (w := []) hd hc]; rfl)

theorem hit_quote (hu : u.Ascii) {l : JL} (hl : HasVal l) {p : Nat} {ws post : List Nat} (hws : Ws ws)
    (ht : t.drop p = ws ++ (str "\"" ++ post)) : Hit t (rules u l) (dflt l) p (p + ws.length) (str "\"") .start (some ⟨0, [.string]⟩) := by
  obtain ⟨e, h1, h2, h3⟩ := hl.rules (u := u)
  have hd := drop_add ht
  refine hit_of hu (rs := (values u).take 2) (by rw [h1]; rfl) hws ht (by simp [str]) (Or.inr ⟨h2, h3⟩) (fun r hr => ?_) (best_str _ hd) (fun _ => rfl)
  simp only [values, List.take_succ_cons, List.take_zero, List.mem_cons, List.not_mem_nil, or_false] at hr
  rcases hr with rfl | rfl
  · exact (begins_chr 123 []).fails (fun c hc => by rw [head_get (c := 34) (w := []) hd hc]; rfl)
  · exact (begins_chr 91 []).fails (fun c hc => by rw [head_get (c := 34) (w := []) hd hc]; rfl)

/-- After a value. -/
def Right (post : List Nat) : Prop := ∀ c, post.head? = some c → c = 32 ∨ c = 9 ∨ c = 10 ∨ c = 13 ∨ c = 44 ∨ c = 93 ∨ c = 125

theorem Right.digit (hu : u.Ascii) {post : List Nat} (h : Right post) : ∀ c, post.head? = some c → u.digit c = false := by
  intro c hc
  have := h c hc
  rw [hu.digit c (by omega)]
  simp; omega

theorem digits_set (hu : u.Ascii) {w : List Nat} (h : Digits w) : ∀ c ∈ w, u.digit c = true := by
  intro c hc
  have := h.2 c hc
  rw [hu.digit c (by omega)]
  simp; omega

theorem best_digits (hu : u.Ascii) {w post : List Nat} {p : Nat} (h : Digits w) (ht : t.drop p = w ++ post)
    (hp : ∀ c, post.head? = some c → u.digit c = false) : Best t (.plus (.set u.digit)) p (p + w.length) :=
  best_plus ht h.1 (digits_set hu h) hp

/-- The end of a number: what comes after the whole part. -/
theorem exp_digit (hu : u.Ascii) {e post : List Nat}
    (he : e = [] ∨ ∃ x g d, e = x ++ g ++ d ∧ (x = str "e" ∨ x = str "E") ∧ (g = [] ∨ g = str "+" ∨ g = str "-") ∧ Digits d)
    (hp : Right post) : ∀ c, (e ++ post).head? = some c → u.digit c = false ∧ c ≠ 46 := by
  intro c hc
  rcases he with rfl | ⟨x, g, d, rfl, hx, _, _⟩
  · have h1 := hp.digit hu c hc
    have := hp c hc
    exact ⟨h1, by omega⟩
  · have hc' : c = 101 ∨ c = 69 := by
      rcases hx with rfl | rfl
      · left; simpa [str, eq_comm] using hc
      · right; simpa [str, eq_comm] using hc
    rw [hu.digit c (by omega)]
    refine ⟨by rcases hc' with rfl | rfl <;> rfl, by omega⟩

theorem best_number (hu : u.Ascii) {w post : List Nat} {p : Nat} (h : Num w) (ht : t.drop p = w ++ post) (hp : Right post) :
    Best t (number u) p (p + w.length) := by
  obtain ⟨s, i, f, e, rfl, hs, hi, hf, he⟩ := h
  have h0 : t.drop p = s ++ (i ++ (f ++ (e ++ post))) := by rw [ht]; simp [List.append_assoc]
  have h1 := drop_add h0
  have h2 := drop_add h1
  have h3 := drop_add h2
  have hexp := exp_digit hu he hp
  have hfrac : ∀ c, (f ++ (e ++ post)).head? = some c → u.digit c = false := by
    intro c hc
    rcases hf with rfl | ⟨d, rfl, _⟩
    · exact (hexp c hc).1
    · have : c = 46 := by simpa [str, eq_comm] using hc
      subst this
      rw [hu.digit 46 (by decide)]; rfl
  have e1 : Best t (.opt (chr "-")) p (p + s.length) := by
    rcases hs with rfl | rfl
    · refine best_opt_none ((begins_chr 45 []).fails (fun c hc => ?_))
      obtain ⟨hi1, hi2⟩ := hi
      cases i with
      | nil => exact absurd rfl hi1
      | cons x i =>
        have := hi2 x (List.mem_cons_self ..)
        have h4 := drop_get (t := t) (p := p) (c := x) (post := i ++ (f ++ (e ++ post))) h0
        rw [hc] at h4
        cases h4
        simp; omega
    · exact Best.opt (best_str _ h0)
  have e2 := best_digits hu hi h1 hfrac
  have e3 : Best t (.opt (.cat (chr ".") (.plus (.set u.digit)))) (p + s.length + i.length) (p + s.length + i.length + f.length) := by
    rcases hf with rfl | ⟨d, rfl, hd⟩
    · refine best_opt_none ?_
      rintro q ⟨r, hr, _⟩
      obtain ⟨c, h4, h5⟩ := begins_chr 46 [] _ _ hr
      simp only [beq_iff_eq] at h5
      subst h5
      have := drop_head h2
      rw [h4] at this
      exact (hexp 46 this.symm).2 rfl
    · rw [List.append_assoc] at h2
      have h5 := drop_add h2
      have := (best_str _ h2).cat (best_digits hu hd h5 (fun c hc => (hexp c hc).1))
      simp only [List.length_append]
      rw [← Nat.add_assoc]
      exact Best.opt this
  have e4 : Best t (.opt (.cat (.set fun c => c == 69 || c == 101) (.cat (.opt (.set fun c => c == 43 || c == 45)) (.plus (.set u.digit)))))
      (p + s.length + i.length + f.length) (p + s.length + i.length + f.length + e.length) := by
    rcases he with rfl | ⟨x, g, d, rfl, hx, hg, hd⟩
    · refine best_opt_none ?_
      rintro q ⟨r, ⟨_, c, h4, h5⟩, _⟩
      have := drop_head h3
      rw [h4] at this
      have := hp c this.symm
      simp at h5; omega
    · rw [List.append_assoc, List.append_assoc] at h3
      have h5 := drop_add h3
      have h6 := drop_add h5
      have b1 : Best t (.set fun c => c == 69 || c == 101) (p + s.length + i.length + f.length) (p + s.length + i.length + f.length + x.length) := by
        rcases hx with rfl | rfl
        · exact best_set (drop_get h3) (by decide)
        · exact best_set (drop_get h3) (by decide)
      have b2 : Best t (.opt (.set fun c => c == 43 || c == 45)) (p + s.length + i.length + f.length + x.length)
          (p + s.length + i.length + f.length + x.length + g.length) := by
        rcases hg with rfl | rfl | rfl
        · refine best_opt_none ?_
          rintro q ⟨_, c, h7, h8⟩
          have h9 := drop_head h5
          rw [h7] at h9
          obtain ⟨hd1, hd2⟩ := hd
          cases d with
          | nil => exact absurd rfl hd1
          | cons y d =>
            have := hd2 y (List.mem_cons_self ..)
            simp only [List.nil_append, List.cons_append, List.head?_cons, Option.some.injEq] at h9
            subst h9
            simp at h8; omega
        · exact Best.opt (best_set (drop_get h5) (by decide))
        · exact Best.opt (best_set (drop_get h5) (by decide))
      have := b1.cat (b2.cat (best_digits hu hd h6 (hp.digit hu)))
      simp only [List.length_append]
      rw [← Nat.add_assoc, ← Nat.add_assoc]
      exact Best.opt this
  have := e1.cat (e2.cat (e3.cat e4))
  simp only [List.length_append]
  rw [← Nat.add_assoc, ← Nat.add_assoc, ← Nat.add_assoc]
  exact this

theorem num_ne {w : List Nat} (h : Num w) : w ≠ [] := by
  obtain ⟨s, i, f, e, rfl, _, ⟨hi, _⟩, _⟩ := h
  simp [hi]

/-- The first character of a number. -/
theorem num_first {w : List Nat} (h : Num w) : ∃ c w', w = c :: w' ∧ (c = 45 ∨ (48 ≤ c ∧ c ≤ 57)) := by
  obtain ⟨s, i, f, e, rfl, hs, ⟨hi1, hi2⟩, _⟩ := h
  rcases hs with rfl | rfl
  · cases i with
    | nil => exact absurd rfl hi1
    | cons x i => exact ⟨x, _, rfl, Or.inr (hi2 x (List.mem_cons_self ..))⟩
  · exact ⟨45, _, rfl, Or.inl rfl⟩

theorem hit_number (hu : u.Ascii) {l : JL} (hl : HasVal l) {p : Nat} {ws w post : List Nat} (hws : Ws ws) (hw : Num w)
    (ht : t.drop p = ws ++ (w ++ post)) (hp : Right post) : Hit t (rules u l) (dflt l) p (p + ws.length) w .number none := by
  obtain ⟨e, h1, h2, h3⟩ := hl.rules (u := u)
  have hd := drop_add ht
  obtain ⟨c, w', rfl, hc⟩ := num_first hw
  refine hit_of hu (rs := (values u).take 3) (by rw [h1]; rfl) hws ht (num_ne hw) (Or.inr ⟨h2, h3⟩) (fun r hr => ?_)
    (best_number hu hw hd hp) (fun _ => rfl)
  simp only [values, List.take_succ_cons, List.take_zero, List.mem_cons, List.not_mem_nil, or_false] at hr
  rcases hr with rfl | rfl | rfl
  · exact (begins_chr 123 []).fails (fun c' hc' => by rw [head_get hd hc']; simp; omega)
  · exact (begins_chr 91 []).fails (fun c' hc' => by rw [head_get hd hc']; simp; omega)
  · exact (begins_chr 34 []).fails (fun c' hc' => by rw [head_get hd hc']; simp; omega)

/-- Before a value: no character of a word. -/
def Left (u : Uni) (t : List Nat) (q : Nat) : Prop := q ≠ 0 → ∀ c, t[q - 1]? = some c → u.word c = false

theorem bound_left {q : Nat} {c : Nat} (h : Left u t q) (hc : t[q]? = some c) (hw : u.word c = true) : Best t (.bound u.word) q q := by
  refine best_test ?_
  simp only [hc, Option.map_some, Option.getD_some, hw]
  by_cases h0 : q = 0
  · simp [h0]
  · cases h1 : t[q - 1]? with
    | none => simp
    | some x => simp [h h0 x h1]

theorem bound_right {q : Nat} {c : Nat} {post : List Nat} (hq : q ≠ 0) (hc : t[q - 1]? = some c) (hw : u.word c = true)
    (hp : t.drop q = post) (hr : ∀ x, post.head? = some x → u.word x = false) : Best t (.bound u.word) q q := by
  refine best_test ?_
  have h0 : (q != 0) = true := by simpa using hq
  simp only [hc, Option.map_some, Option.getD_some, hw, h0]
  have := drop_head hp
  cases h1 : post.head? with
  | none => rw [h1] at this; simp [this]
  | some x => rw [h1] at this; simp [this, hr x h1]

theorem Right.word (hu : u.Ascii) {post : List Nat} (h : Right post) : ∀ c, post.head? = some c → u.word c = false := by
  intro c hc
  have := h c hc
  rw [hu.word c (by omega)]
  simp; omega

theorem best_constant (hu : u.Ascii) {w post : List Nat} {q : Nat} (h : w = str "true" ∨ w = str "false" ∨ w = str "null")
    (ht : t.drop q = w ++ post) (hl : Left u t q) (hp : Right post) : Best t (constant u) q (q + w.length) := by
  have hend : ∀ (w' : List Nat) (c : Nat), w = w' ++ [c] → u.word c = true → Best t (.bound u.word) (q + w.length) (q + w.length) := by
    intro w' c hw hc
    refine bound_right (post := post) (by rw [hw]; simp) (c := c) ?_ hc (drop_add ht) (hp.word hu)
    rw [hw] at ht ⊢
    rw [List.append_assoc] at ht
    have := drop_get (drop_add ht)
    rw [← this]
    congr 1
    simp only [List.length_append, List.length_cons, List.length_nil]; omega
  rcases h with rfl | rfl | rfl
  · refine (bound_left hl (drop_get ht) (by rw [hu.word _ (by decide)]; rfl)).cat
      (Best.cat (q := q + (str "true").length) ?_ (hend (str "tru") 101 rfl (by rw [hu.word _ (by decide)]; rfl)))
    exact Best.alt (best_str _ ht)
  · refine (bound_left hl (drop_get ht) (by rw [hu.word _ (by decide)]; rfl)).cat
      (Best.cat (q := q + (str "false").length) ?_ (hend (str "fals") 101 rfl (by rw [hu.word _ (by decide)]; rfl)))
    refine Best.alt' ((begins_chr 116 (str "rue")).fails (fun c hc => ?_)) (Best.alt (best_str _ ht))
    rw [head_get (c := 102) (w := str "alse") ht hc]; rfl
  · refine (bound_left hl (drop_get ht) (by rw [hu.word _ (by decide)]; rfl)).cat
      (Best.cat (q := q + (str "null").length) ?_ (hend (str "nul") 108 rfl (by rw [hu.word _ (by decide)]; rfl)))
    refine Best.alt' ((begins_chr 116 (str "rue")).fails (fun c hc => ?_))
      (Best.alt' ((begins_chr 102 (str "alse")).fails (fun c hc => ?_)) (best_str _ ht))
    · rw [head_get (c := 110) (w := str "ull") ht hc]; rfl
    · rw [head_get (c := 110) (w := str "ull") ht hc]; rfl

theorem hit_constant (hu : u.Ascii) {l : JL} (hl : HasVal l) {p : Nat} {ws w post : List Nat} (hws : Ws ws)
    (hw : w = str "true" ∨ w = str "false" ∨ w = str "null") (ht : t.drop p = ws ++ (w ++ post)) (hle : Left u t (p + ws.length))
    (hp : Right post) : Hit t (rules u l) (dflt l) p (p + ws.length) w .constant none := by
  obtain ⟨e, h1, h2, h3⟩ := hl.rules (u := u)
  have hd := drop_add ht
  obtain ⟨c, w', hcw, hc⟩ : ∃ c w', w = c :: w' ∧ (c = 116 ∨ c = 102 ∨ c = 110) := by
    rcases hw with rfl | rfl | rfl
    · exact ⟨116, _, rfl, by simp⟩
    · exact ⟨102, _, rfl, by simp⟩
    · exact ⟨110, _, rfl, by simp⟩
  have hb := best_constant hu hw hd hle hp
  subst hcw
  refine hit_of hu (rs := (values u).take 4) (by rw [h1]; rfl) hws ht (by simp) (Or.inr ⟨h2, h3⟩) (fun r hr => ?_) hb (fun _ => rfl)
  simp only [values, List.take_succ_cons, List.take_zero, List.mem_cons, List.not_mem_nil, or_false] at hr
  rcases hr with rfl | rfl | rfl | rfl
  · exact (begins_chr 123 []).fails (fun c' hc' => by rw [head_get hd hc']; simp; omega)
  · exact (begins_chr 91 []).fails (fun c' hc' => by rw [head_get hd hc']; simp; omega)
  · exact (begins_chr 34 []).fails (fun c' hc' => by rw [head_get hd hc']; simp; omega)
  · refine begins_number.fails (fun c' hc' => ?_)
    rw [head_get hd hc', hu.digit c (by omega)]; simp; omega

end Parce.Json

import Verif.Lemmas.IniLex
import Verif.Lemmas.JsonEnd
/-!
# How sections and comments of INI texts are lexed
-/
namespace Parce.Ini
variable {word : Nat → Bool} {t : List Nat}

/-! ### Text up to the next match -/

theorem gap_tok {l : IL} {p n : Nat} {a : IA} {w post : List Nat} {m : Mtch RM} {ks ns : List Nd} {cr : List (Nat × Nat × Nat)}
    (hd : dflt l = .action fun _ => a) (ht : t.drop p = w ++ post) (hw : w ≠ [])
    (hn : ∀ i, p ≤ i → i < p + w.length → ¬ Starts ((rules word l).map (·.pat)) t i)
    (hm : rxMatch ((rules word l).map (·.pat)) t (p + w.length) = some m) :
    G word t ⟨p, In l ks ns, n, cr⟩ ⟨p + w.length, In l (ks ++ [tk p w a]) ns, 0, cr⟩ := by
  have hne : rules word l ≠ [] := by cases l <;> simp [rules, valueRules]
  have hl : 0 < w.length := List.length_pos_iff.2 hw
  have hst := (rxMatch_some hm).1
  have hld : (lang word).ld l = .regex (rxSearch ((rules word l).map (·.pat))) (rxMatch ((rules word l).map (·.pat)))
      (ruleOut .none (rules word l)) (.action fun _ => a) := by
    rw [ld_eq, compile_cons _ _ _ hne, hd]
  refine fgoes_tok (lang := lang word) (B := In l ks ns) (tok := ⟨p, w, none, a, none⟩) (ps' := .pend m) ?_ hw rfl rfl ?_
  · show parseNext _ ((lang word).ld l) _ _ = _
    rw [hld]
    simp only [parseNext, search_first (Nat.le_add_right _ _) hn hm, hst]
    rw [if_pos (by omega), slice_here ht]
  · show parseNext _ ((lang word).ld l) _ _ = parseNext _ ((lang word).ld l) _ _
    rw [hld]
    simp only [parseNext, search_here hm, hst]
    rw [if_neg (by omega)]

/-- The text up to the end, if there is no match any more. -/
theorem rest_tok {l : IL} {p n : Nat} {a : IA} {ks ns : List Nd} {cr : List (Nat × Nat × Nat)}
    (hd : dflt l = .action fun _ => a) (hp : p < t.length)
    (hn : ∀ i, p ≤ i → i ≤ t.length → ¬ Starts ((rules word l).map (·.pat)) t i) :
    G word t ⟨p, In l ks ns, n, cr⟩ ⟨t.length, In l (ks ++ [tk p (t.drop p) a]) ns, 0, cr⟩ := by
  have hne : rules word l ≠ [] := by cases l <;> simp [rules, valueRules]
  have hld : (lang word).ld l = .regex (rxSearch ((rules word l).map (·.pat))) (rxMatch ((rules word l).map (·.pat)))
      (ruleOut .none (rules word l)) (.action fun _ => a) := by
    rw [ld_eq, compile_cons _ _ _ hne, hd]
  have hs := (C70_none _ _ _).2 hn
  have hs' : rxSearch ((rules word l).map (·.pat)) t t.length false = none :=
    (C70_none _ _ _).2 (fun i h1 h2 => hn i (by omega) h2)
  have := fgoes_tok (lang := lang word) (t := t) (B := In l ks ns) (n := n) (c := cr) (tok := ⟨p, t.drop p, none, a, none⟩)
    (ps' := .stop) (p := p) ?_ (fun h => by have := congrArg List.length h; simp at this; omega) rfl rfl ?_
  · have he : p + (t.drop p).length = t.length := by simp; omega
    simp only [he] at this
    exact this
  · show parseNext _ ((lang word).ld l) _ _ = _
    rw [hld]
    simp only [parseNext, hs, tailTok, hp, if_true]
  · show parseNext _ ((lang word).ld l) _ _ = parseNext _ ((lang word).ld l) _ _
    have he : p + (t.drop p).length = t.length := by simp; omega
    rw [hld]
    simp only [parseNext, he, hs', tailTok, Nat.lt_irrefl, if_false]

/-! ### Sections -/

theorem stop_starts {i : Nat} : Starts ((rules word .section).map (·.pat)) t i ↔ t[i]? = some 93 := by
  constructor
  · rintro ⟨a, ha, q, hq⟩
    simp only [rules, rule, List.map_cons, List.map_nil, List.mem_cons, List.not_mem_nil, or_false] at ha
    subst ha
    obtain ⟨_, x, h1, h2⟩ := hq
    simp only [beq_iff_eq] at h2
    rw [h1, h2]; rfl
  · intro h
    exact ⟨Pat.str (str "]"), by simp [rules, rule], i + 1, ⟨rfl, 93, h, rfl⟩⟩

theorem stop_match {i : Nat} (h : t[i]? = some 93) :
    rxMatch ((rules word .section).map (·.pat)) t i = some ⟨i, i + 1, ⟨0, []⟩⟩ :=
  rxMatch_best (ps := []) (by simp) (best_set h rfl) (Nat.le_of_lt (List.getElem?_eq_some_iff.1 h).1)

theorem go_stop {p n : Nat} {ks ns : List Nd} {cr : List (Nat × Nat × Nat)} (hp : t[p]? = some 93) :
    G word t ⟨p, In .section ks ns, n, cr⟩ ⟨p + 1, R (ns ++ [.ctx .section (ks ++ [tk p [93] .stop])]), 0, []⟩ :=
  hit_target (B := In .section ks ns) (w := [93]) (tg := ⟨1, []⟩) rfl (drop_one hp) (by simp) (stop_match hp) (i := 0) (c := []) rfl
    (Nat.le_refl _)

/-- The tokens of a section. -/
def nameToks (p : Nat) (n : List Nat) : List Nd := (if n = [] then [] else [tk p n .space]) ++ [tk (p + n.length) [93] .stop]

theorem go_section {p f : Nat} {n post : List Nat} {ns : List Nd} {cr : List (Nat × Nat × Nat)} (hd : t.drop p = n ++ 93 :: post)
    (hn : 93 ∉ n) :
    G word t ⟨p, In .section [] ns, f, cr⟩ ⟨p + n.length + 1, R (ns ++ [.ctx .section (nameToks p n)]), 0, []⟩ := by
  have h93 : t[p + n.length]? = some 93 := drop_get (drop_add hd)
  by_cases h : n = []
  · subst h
    exact go_stop h93
  · have hs : ∀ i, p ≤ i → i < p + n.length → ¬ Starts ((rules word .section).map (·.pat)) t i := by
      intro i h1 h2 h3
      rw [stop_starts] at h3
      refine hn ?_
      have : t[i]? = n[i - p]? := by
        have h4 : (t.drop p)[i - p]? = n[i - p]? := by rw [hd, List.getElem?_append_left (by omega)]
        rw [List.getElem?_drop, show p + (i - p) = i by omega] at h4
        exact h4
      rw [h3] at this
      exact List.mem_of_getElem? this.symm
    have := (gap_tok (word := word) (ks := []) (ns := ns) (n := f) (cr := cr) (l := .section) rfl hd h hs (stop_match h93)).trans (go_stop h93)
    simpa [nameToks, h] using this

/-! ### Comments -/

/-- The expression cannot match the character. -/
def Avoids (c : Nat) : Pat Nat → Prop
  | .set f => f c = false
  | .cat a b => Avoids c a ∧ Avoids c b
  | .alt a b => Avoids c a ∧ Avoids c b
  | .star a => Avoids c a
  | .lazy a => Avoids c a
  | .grp _ a => Avoids c a
  | _ => True

theorem rtg_avoids {R : Nat → Nat → Prop} {P : Nat → Prop} (hb : ∀ p q, R p q → ∀ i, p ≤ i → i < q → P i) {p q : Nat}
    (h : Relation.ReflTransGen R p q) : ∀ i, p ≤ i → i < q → P i := by
  induction h with
  | refl => intro i h1 h2; omega
  | @tail b c _ h2 ih =>
    intro i h3 h4
    by_cases h5 : i < b
    · exact ih i h3 h5
    · exact hb _ _ h2 i (by omega) h4

theorem avoids_mat {c : Nat} (a : Pat Nat) : Avoids c a → ∀ p q, a.mat t p q → ∀ i, p ≤ i → i < q → t[i]? ≠ some c := by
  induction a with
  | eps => intro _ p q h i h1 h2; simp only [Pat.mat] at h; omega
  | set f =>
    intro ha p q h i h1 h2
    obtain ⟨rfl, x, h3, h4⟩ := h
    have : i = p := by omega
    subst this
    rw [h3]
    intro he
    cases he
    simp only [Avoids] at ha
    rw [ha] at h4
    cases h4
  | test f => intro _ p q h i h1 h2; have := h.1; omega
  | cat a b iha ihb =>
    intro ha p q h i h1 h2
    obtain ⟨r, h3, h4⟩ := h
    by_cases h5 : i < r
    · exact iha ha.1 _ _ h3 i h1 h5
    · exact ihb ha.2 _ _ h4 i (by omega) h2
  | alt a b iha ihb =>
    intro ha p q h
    rcases h with h | h
    · exact iha ha.1 _ _ h
    · exact ihb ha.2 _ _ h
  | star a ih => intro ha p q h; exact rtg_avoids (ih ha) h
  | lazy a ih => intro ha p q h; exact rtg_avoids (ih ha) h
  | grp i a ih => intro ha p q h; exact ih ha _ _ h
  | look neg a ih => intro _ p q h i h1 h2; cases neg <;> (have := h.1; omega)

theorem special_avoids (hw : word 10 = false) : Avoids 10 (emailPat word) ∧ Avoids 10 (urlPat word) ∧ Avoids 10 (alertPat word) := by
  refine ⟨?_, ?_, ?_⟩ <;>
    simp [emailPat, urlPat, alertPat, Avoids, hw, Pat.plus, Pat.opt, Pat.str, Pat.chr, Pat.alts, Pat.bound, wordOr, str]

theorem special_consumes : (emailPat word).Consumes ∧ (urlPat word).Consumes ∧ (alertPat word).Consumes := by
  refine ⟨?_, ?_, ?_⟩
  · exact Json.cat_consumes_right (Json.cat_consumes_left (Json.cat_consumes_left (Json.set_consumes _)))
  · refine Json.cat_consumes_right (Json.cat_consumes_left ?_)
    intro t p q h
    rcases h with h | h
    · exact Json.cat_consumes_left (Json.cat_consumes_left (Json.set_consumes _)) t p q h
    · exact Json.cat_consumes_left (Json.set_consumes _) t p q h
  · refine Json.cat_consumes_right (Json.cat_consumes_left ?_)
    have : (Pat.alts [Pat.str (str "ALERT"), Pat.str (str "BUG"), Pat.str (str "FIXME"), Pat.str (str "TEMP"),
        Pat.str (str "TODO"), .cat (Pat.str (str "XX")) (.plus (.chr 88))]).Consumes := by
      refine Json.alts_consumes (fun a ha => ?_)
      simp only [List.mem_cons, List.not_mem_nil, or_false] at ha
      rcases ha with rfl | rfl | rfl | rfl | rfl | rfl
      · exact Json.str_consumes (by decide)
      · exact Json.str_consumes (by decide)
      · exact Json.str_consumes (by decide)
      · exact Json.str_consumes (by decide)
      · exact Json.str_consumes (by decide)
      · exact Json.cat_consumes_left (Json.str_consumes (by decide))
    exact this

/-- A place where a comment ends. -/
def LineEnd (t : List Nat) (e : Nat) : Prop := e = t.length ∨ t[e]? = some 10

theorem dollar_mat {p q : Nat} : dollar.mat t p q ↔ p = q ∧ (t.length ≤ p ∨ t[p]? = some 10) := by
  simp [dollar, Pat.mat]

def IsTok (n : Nd) : Prop := ∃ k, n = .tok k

theorem isTok_append {ks : List Nd} (h : ∀ k ∈ ks, IsTok k) (p : Nat) (w : List Nat) (a : IA) : ∀ k ∈ ks ++ [tk p w a], IsTok k := by
  intro k hk
  simp only [List.mem_append, List.mem_singleton] at hk
  rcases hk with hk | rfl
  · exact h k hk
  · exact ⟨_, rfl⟩

/-- A comment, up to the end of the line. -/
theorem go_comment (hw : word 10 = false) {e : Nat} (he : LineEnd t e) (hlen : e ≤ t.length) {ns : List Nd} :
    ∀ (d p f : Nat) (ks : List Nd) (cr : List (Nat × Nat × Nat)), e - p ≤ d → p ≤ e → (∀ i, p ≤ i → i < e → t[i]? ≠ some 10) → Ok f ks →
    (∀ k ∈ ks, IsTok k) →
    ∃ ks' cr', G word t ⟨p, In .comment ks ns, f, cr⟩ ⟨e, R (ns ++ closed .comment ks'), 0, cr'⟩ ∧ (ks' = [] ↔ ks = [] ∧ p = e) ∧ ∀ k ∈ ks', IsTok k := by
  intro d
  induction d with
  | zero =>
    intro p f ks cr hd hp hn hok htk
    have : p = e := by omega
    subst this
    have hb : Best t dollar p p := best_test (by
      rcases he with he | he
      · simp [← he]
      · simp [he])
    have hm := rxMatch_best (ps := []) (qs := [emailPat word, urlPat word, alertPat word]) (by simp) hb hlen
    have h := parse_match (noAct := IA.none) (rs := rules word .comment) (dl := dflt .comment) (r := rule dollar .comment (some ⟨1, []⟩))
      (q := p) (i := 0) (c := []) hm rfl
    obtain ⟨cr', h'⟩ := leave (word := word) (l := .comment) (ns := ns) (cr := cr) (p := p) (ks := ks) h (by simp [slice]) rfl rfl hok
    exact ⟨ks, cr', h', by simp, htk⟩
  | succ d ih =>
    intro p f ks cr hd hp hn hok htk
    by_cases hpe : p = e
    · exact ih p f ks cr (by omega) hp hn hok htk
    have hend : Starts ((rules word .comment).map (·.pat)) t e :=
      ⟨dollar, by simp [rules, rule], e, dollar_mat.2 ⟨rfl, by rcases he with he | he; exact Or.inl (by omega); exact Or.inr he⟩⟩
    obtain ⟨m, hm⟩ : ∃ m, rxSearch ((rules word .comment).map (·.pat)) t p false = some m := by
      cases h : rxSearch ((rules word .comment).map (·.pat)) t p false with
      | some m => exact ⟨m, rfl⟩
      | none => exact absurd hend ((C70_none _ _ _).1 h e hp hlen)
    have hall : ∀ i, p ≤ i → i < m.start → ¬ Starts ((rules word .comment).map (·.pat)) t i := by
      intro i h1 h2
      simp only [rxSearch, Bool.false_eq_true, if_false] at hm
      have h3 := rxScan_some hm
      have := rxMatch_some h3.2.1
      exact (rxMatch_none (by omega)).1 (h3.2.2 i h1 h2)
    obtain ⟨g1, g2, g3, _, g5, _⟩ := rxSearch_some hm
    have hms : rxMatch ((rules word .comment).map (·.pat)) t m.start = some m := by
      rcases g5 with ⟨g5, _⟩ | g5
      · cases g5
      · exact g5
    have hse : m.start ≤ e := by
      by_cases h : m.start ≤ e
      · exact h
      · exact absurd hend (hall e hp (by omega))
    by_cases hsp : m.start = p
    · -- a special text
      rw [hsp] at hms
      obtain ⟨a, cs, h1, ⟨_, x, h2, _⟩, _⟩ := match_wins hms
      have hmat := (C70_way a t _ _).1 ⟨x, cs, h2⟩
      rw [hsp] at hmat
      have hdol : m.rest.index ≠ 0 := by
        intro h0
        rw [h0] at h1
        simp only [rules, rule, List.map_cons, List.getElem?_cons_zero, Option.some.injEq] at h1
        subst h1
        rcases (dollar_mat.1 hmat).2 with h | h
        · omega
        · exact hn p (Nat.le_refl _) (by omega) h
      have hspec : ∃ pat act, (rules word .comment)[m.rest.index]? = some (rule pat act) ∧ pat.Consumes ∧ Avoids 10 pat ∧ pat = a := by
        obtain ⟨c1, c2, c3⟩ := special_consumes (word := word)
        obtain ⟨a1, a2, a3⟩ := special_avoids hw
        match hi : m.rest.index with
        | 0 => exact absurd hi hdol
        | 1 =>
          rw [hi] at h1
          simp only [rules, rule, List.map_cons, List.getElem?_cons_succ, List.getElem?_cons_zero, Option.some.injEq] at h1
          exact ⟨_, _, rfl, c1, a1, h1⟩
        | 2 =>
          rw [hi] at h1
          simp only [rules, rule, List.map_cons, List.getElem?_cons_succ, List.getElem?_cons_zero, Option.some.injEq] at h1
          exact ⟨_, _, rfl, c2, a2, h1⟩
        | 3 =>
          rw [hi] at h1
          simp only [rules, rule, List.map_cons, List.getElem?_cons_succ, List.getElem?_cons_zero, Option.some.injEq] at h1
          exact ⟨_, _, rfl, c3, a3, h1⟩
        | n + 4 =>
          rw [hi] at h1
          simp [rules, rule] at h1
      obtain ⟨pat, act, hr, hc, ha, rfl⟩ := hspec
      have hlt : p < m.stop := hc _ _ _ hmat
      have hle : m.stop ≤ e := by
        rcases he with he | he
        · omega
        · by_cases h : m.stop ≤ e
          · exact h
          · exact absurd he (avoids_mat pat ha _ _ hmat e hp (by omega))
      have hdrop : t.drop p = slice t p m.stop ++ t.drop m.stop := by
        unfold slice
        rw [List.drop_take]
        have : t.drop m.stop = (t.drop p).drop (m.stop - p) := by rw [List.drop_drop]; congr 1; omega
        rw [this, List.take_append_drop]
      have hsl : p + (slice t p m.stop).length = m.stop := by
        simp only [slice, List.length_drop, List.length_take]
        omega
      obtain ⟨st, sp, ⟨idx, caps⟩⟩ := m
      simp only at hsp
      subst hsp
      simp only at *
      have hne : slice t st sp ≠ [] := by
        intro h; rw [h] at hsl; simp at hsl; omega
      have hstep := hit_tok (word := word) (l := .comment) (ks := ks) (ns := ns) (n := f) (cr := cr) (c := caps) hdrop hne
        (by rw [hsl]; exact hms) hr
      rw [hsl] at hstep
      obtain ⟨ks', cr', h1, h2, h3⟩ := ih sp 0 (ks ++ [tk st (slice t st sp) act]) cr (by omega) hle (fun i hi1 hi2 => hn i (by omega) hi2)
        (Or.inr ⟨rfl, by simp⟩) (isTok_append htk _ _ _)
      exact ⟨ks', cr', hstep.trans h1, by simp at h2; simp [h2, hpe], h3⟩
    · -- other text
      have hdrop : t.drop p = slice t p m.start ++ t.drop m.start := by
        unfold slice
        rw [List.drop_take]
        have : t.drop m.start = (t.drop p).drop (m.start - p) := by rw [List.drop_drop]; congr 1; omega
        rw [this, List.take_append_drop]
      have hsl : p + (slice t p m.start).length = m.start := by
        simp only [slice, List.length_drop, List.length_take]
        omega
      have hne : slice t p m.start ≠ [] := by
        intro h; rw [h] at hsl; simp at hsl; omega
      have hstep := gap_tok (word := word) (l := .comment) (ks := ks) (ns := ns) (n := f) (cr := cr) (a := .comment) rfl hdrop hne
        (by rw [hsl]; exact hall) (by rw [hsl]; exact hms)
      rw [hsl] at hstep
      obtain ⟨ks', cr', h1, h2, h3⟩ := ih m.start 0 (ks ++ [tk p (slice t p m.start) .comment]) cr (by omega) hse
        (fun i hi1 hi2 => hn i (by omega) hi2) (Or.inr ⟨rfl, by simp⟩) (isTok_append htk _ _ _)
      exact ⟨ks', cr', hstep.trans h1, by simp at h2; simp [h2, hpe], h3⟩

end Parce.Ini

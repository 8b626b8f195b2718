import Verif.Lemmas.IniBlock
/-!
# Lexing INI texts ends
-/
namespace Parce.Ini
variable {word : Nat → Bool} {t : List Nat}

theorem slice_drop {p q : Nat} (h : p ≤ q) : t.drop p = slice t p q ++ t.drop q := by
  unfold slice
  rw [List.drop_take]
  have : t.drop q = (t.drop p).drop (q - p) := by rw [List.drop_drop]; congr 1; omega
  rw [this, List.take_append_drop]

theorem slice_stop {p q : Nat} (h : p ≤ q) (hq : q ≤ t.length) : p + (slice t p q).length = q := by
  simp only [slice, List.length_drop, List.length_take]
  omega

/-- Where the lexer can be between two steps. -/
inductive Stable (p : Nat) : FS → Prop
  | root {ns : List Nd} : Stable p ⟨p, R ns, 0, []⟩
  | value {l : IL} {ks ns : List Nd} {f : Nat} {cr : List (Nat × Nat × Nat)} : Vl l → Ok f ks → Stable p ⟨p, In l ks ns, f, cr⟩
  | section {ks ns : List Nd} {f : Nat} {cr : List (Nat × Nat × Nat)} : Ok f ks → Stable p ⟨p, In .section ks ns, f, cr⟩
  | comment {ks ns : List Nd} {f : Nat} {cr : List (Nat × Nat × Nat)} : Ok f ks → (∀ k ∈ ks, IsTok k) → Stable p ⟨p, In .comment ks ns, f, cr⟩

/-- At the end of the text. -/
inductive AtEnd (t : List Nat) : FS → Prop
  | root {ns : List Nd} {cr : List (Nat × Nat × Nat)} : AtEnd t ⟨t.length, R ns, 0, cr⟩
  | inside {l : IL} {ks ns : List Nd} {f : Nat} {cr : List (Nat × Nat × Nat)} : l ≠ .comment → l ≠ .root → Ok f ks →
      AtEnd t ⟨t.length, In l ks ns, f, cr⟩

theorem none_at_end (l : IL) (hl : l ≠ .comment) : ¬ Starts ((rules word l).map (·.pat)) t t.length := by
  have hno : ∀ f : Nat → Bool, ∀ q, ¬ (Pat.set f).mat t t.length q := by
    rintro f q ⟨_, x, h, _⟩
    have := (List.getElem?_eq_some_iff.1 h).1
    omega
  rintro ⟨a, ha, q, hq⟩
  cases l with
  | comment => exact hl rfl
  | root =>
    simp only [rules, rule, List.map_cons, List.map_nil, List.mem_cons, List.not_mem_nil, or_false] at ha
    rcases ha with rfl | rfl | rfl <;> exact hno _ _ hq
  | «section» =>
    simp only [rules, rule, List.map_cons, List.map_nil, List.mem_cons, List.not_mem_nil, or_false] at ha
    subst ha; exact hno _ _ hq
  | key =>
    simp only [rules, valueRules, rule, List.map_cons, List.map_nil, List.mem_cons, List.not_mem_nil, or_false] at ha
    rcases ha with rfl | rfl <;> (obtain ⟨r, hr, _⟩ := hq; exact hno _ _ hr)
  | value =>
    simp only [rules, valueRules, rule, List.map_cons, List.map_nil, List.mem_cons, List.not_mem_nil, or_false] at ha
    rcases ha with rfl | rfl <;> (obtain ⟨r, hr, _⟩ := hq; exact hno _ _ hr)

theorem end_parse (l : IL) (hl : l ≠ .comment) : parseNext IA.none ((lang word).ld l) t (.at t.length false) = none := by
  have hne : rules word l ≠ [] := by cases l <;> simp [rules, valueRules]
  have hs : rxSearch ((rules word l).map (·.pat)) t t.length false = none :=
    (C70_none _ _ _).2 (fun i h1 h2 => by
      have : i = t.length := by omega
      subst this
      exact none_at_end l hl)
  have hm : rxMatch ((rules word l).map (·.pat)) t t.length = none := (rxMatch_none (Nat.le_refl _)).2 (none_at_end l hl)
  rw [ld_eq, compile_cons _ _ _ hne]
  cases l <;> simp only [dflt, parseNext, hs, hm, tailTok, Nat.lt_irrefl, if_false]

theorem end_step {x : FS} (hx : AtEnd t x) (s : LState IL RM) (b : BState Nat IL IA) (h : FAt (lang word) t x s b) :
    lexStep (lang word) t s = none := by
  obtain ⟨h1, h2, _, _, _⟩ := h
  unfold lexStep
  rw [h1]
  cases hx with
  | root =>
    simp only [BState.stack] at h2 ⊢
    rw [h2]
    have := end_parse (word := word) (t := t) .root (by simp)
    have this' : parseNext (lang word).noAct ((lang word).ld IL.root) t (.at t.length false) = none := this
    simp only [R, this']
  | @inside l _ _ _ _ hl _ _ =>
    simp only [BState.stack] at h2 ⊢
    rw [h2]
    have := end_parse (word := word) (t := t) _ hl
    have this' : parseNext (lang word).noAct ((lang word).ld l) t (.at t.length false) = none := this
    simp only [In, this']

/-- The first line end from a position. -/
theorem line_end {p : Nat} (hp : p ≤ t.length) : ∃ e, p ≤ e ∧ e ≤ t.length ∧ LineEnd t e ∧ ∀ i, p ≤ i → i < e → t[i]? ≠ some 10 := by
  obtain ⟨d, hd⟩ : ∃ d, t.length = p + d := ⟨t.length - p, by omega⟩
  induction d generalizing p with
  | zero => exact ⟨p, Nat.le_refl _, hp, Or.inl (by omega), fun i h1 h2 => by omega⟩
  | succ d ih =>
    by_cases h : t[p]? = some 10
    · exact ⟨p, Nat.le_refl _, hp, Or.inr h, fun i h1 h2 => by omega⟩
    · obtain ⟨e, h1, h2, h3, h4⟩ := ih (p := p + 1) (by omega) (by omega)
      refine ⟨e, by omega, h2, h3, fun i h5 h6 => ?_⟩
      by_cases hip : i = p
      · rw [hip]; exact h
      · exact h4 i (by omega) h6

theorem newline_plain : plain 10 = false := by decide

theorem newline_escape {p : Nat} (h : t[p]? = some 10) : Fails t escapePat p := escape_fails (by rw [h]; simp)

/-- From a position where nothing matches in a key, in the root. -/
theorem root_step {p c : Nat} {ns : List Nd} {cr : List (Nat × Nat × Nat)} (hp : t[p]? = some c) (h1 : plain c = false)
    (hf : Fails t escapePat p) : ∃ y, G word t ⟨p, R ns, 0, cr⟩ y ∧ Stable (p + 1) y := by
  by_cases h : c = 91 ∨ c = 59 ∨ c = 35 ∨ c = 61
  · refine ⟨_, go_enter hp h, ?_⟩
    rcases h with rfl | rfl | rfl | rfl
    · exact .section (Or.inl ⟨rfl, rfl⟩)
    · exact .comment (Or.inl ⟨rfl, rfl⟩) (by simp)
    · exact .comment (Or.inl ⟨rfl, rfl⟩) (by simp)
    · exact .value (Or.inr rfl) (Or.inl ⟨rfl, rfl⟩)
  · exact ⟨_, go_junk hp (by omega) h1 hf, .value (Or.inl rfl) (Or.inl ⟨rfl, rfl⟩)⟩

theorem vl_consumes {l : IL} (hl : Vl l) {p : Nat} {m : Mtch RM} (h : rxMatch ((rules word l).map (·.pat)) t p = some m) : p < m.stop := by
  obtain ⟨a, cs, h1, ⟨_, x, h2, _⟩, _⟩ := match_wins h
  have hmat := (C70_way a t _ _).1 ⟨x, cs, h2⟩
  rw [(rxMatch_some h).1] at hmat
  have ha := List.mem_of_getElem? h1
  rw [vl_rules hl] at ha
  simp only [valueRules, rule, List.map_cons, List.map_nil, List.mem_cons, List.not_mem_nil, or_false] at ha
  rcases ha with rfl | rfl
  · exact Json.cat_consumes_left (Json.set_consumes _) _ _ _ hmat
  · exact Json.cat_consumes_left (Json.set_consumes _) _ _ _ hmat

theorem value_step {l : IL} (hl : Vl l) {p f : Nat} {ks ns : List Nd} {cr : List (Nat × Nat × Nat)} (hp : p < t.length) (hok : Ok f ks) :
    ∃ q y, p < q ∧ q ≤ t.length ∧ G word t ⟨p, In l ks ns, f, cr⟩ y ∧ Stable q y := by
  have hc : t[p]? = some t[p] := List.getElem?_eq_getElem hp
  cases hm : rxMatch ((rules word l).map (·.pat)) t p with
  | some m =>
    have hlt := vl_consumes hl hm
    have hb := rxMatch_some hm
    obtain ⟨st, sp, ⟨idx, caps⟩⟩ := m
    simp only at hlt hb
    obtain ⟨hst, _, hb⟩ := hb
    subst hst
    have hsl := slice_stop (t := t) (Nat.le_of_lt hlt) hb
    obtain ⟨pat, a, hr⟩ : ∃ pat a, (rules word l)[idx]? = some (rule pat a) := by
      obtain ⟨a, cs, h1, _, _⟩ := match_wins hm
      rw [vl_rules hl] at h1 ⊢
      simp only at h1
      match idx, h1 with
      | 0, _ => exact ⟨_, _, rfl⟩
      | 1, _ => exact ⟨_, _, rfl⟩
      | n + 2, h1 => simp [valueRules, rule] at h1
    have := hit_tok (word := word) (ks := ks) (ns := ns) (n := f) (cr := cr) (c := caps) (slice_drop (Nat.le_of_lt hlt))
      (fun h => by rw [h, List.length_nil] at hsl; omega) (by rw [hsl]; exact hm) hr
    rw [hsl] at this
    exact ⟨sp, _, hlt, hb, this, .value hl (Or.inr ⟨rfl, by simp⟩)⟩
  | none =>
    have hno := (rxMatch_none (Nat.le_of_lt hp)).1 hm
    rw [vl_rules hl] at hno
    have hf : Fails t escapePat p := fun q hq => hno ⟨escapePat, by simp [valueRules, rule], q, hq⟩
    have hpl : plain t[p] = false := by
      cases h : plain t[p] with
      | false => rfl
      | true =>
        exact absurd ⟨.plus (.set plain), by simp [valueRules, rule], p + 1, p + 1, ⟨rfl, _, hc, h⟩, .refl⟩ hno
    obtain ⟨cr', h1⟩ := go_leave (word := word) hl (ns := ns) (cr := cr) hc hpl hf hok
    obtain ⟨y, h2, h3⟩ := root_step (word := word) (ns := ns ++ closed l ks) (cr := cr') hc hpl hf
    exact ⟨p + 1, y, by omega, hp, h1.trans h2, h3⟩

theorem stable_step (hw : word 10 = false) {p : Nat} {x : FS} (hp : p < t.length) (hx : Stable p x) :
    (∃ q y, p < q ∧ q ≤ t.length ∧ G word t x y ∧ Stable q y) ∨ ∃ y, G word t x y ∧ AtEnd t y := by
  have hc : t[p]? = some t[p] := List.getElem?_eq_getElem hp
  cases hx with
  | @root ns =>
    left
    by_cases h : t[p] = 91 ∨ t[p] = 59 ∨ t[p] = 35 ∨ t[p] = 61
    · have hpl : plain t[p] = false := by
        cases h' : plain t[p] with
        | false => rfl
        | true => have := plain_iff.1 h'; omega
      obtain ⟨y, h2, h3⟩ := root_step (word := word) (ns := ns) (cr := []) hc hpl (escape_fails (by
        rw [hc]
        simp only [Option.some.injEq, ne_eq]
        omega))
      exact ⟨p + 1, y, by omega, hp, h2, h3⟩
    · obtain ⟨q, y, h1, h2, h3, h4⟩ := value_step (word := word) (l := .key) (Or.inl rfl) (ns := ns) (cr := [(p, 1, 1)]) hp (Or.inl ⟨rfl, rfl⟩)
      exact ⟨q, y, h1, h2, (go_key hc (by omega)).trans h3, h4⟩
  | value hl hok => exact Or.inl (value_step hl hp hok)
  | @«section» ks ns f cr hok =>
    by_cases h : ∃ i, p ≤ i ∧ i ≤ t.length ∧ Starts ((rules word .section).map (·.pat)) t i
    · left
      cases hm : rxSearch ((rules word .section).map (·.pat)) t p false with
      | none =>
        obtain ⟨i, h1, h2, h3⟩ := h
        exact absurd h3 ((C70_none _ _ _).1 hm i h1 h2)
      | some m =>
        simp only [rxSearch, Bool.false_eq_true, if_false] at hm
        obtain ⟨h1, h2, h3⟩ := rxScan_some hm
        have hb := rxMatch_some h2
        have h93 : t[m.start]? = some 93 := by
          rw [← stop_starts (word := word)]
          exact Classical.byContradiction fun h => by rw [(rxMatch_none (by omega)).2 h] at h2; cases h2
        have hlt := (List.getElem?_eq_some_iff.1 h93).1
        by_cases hsp : m.start = p
        · rw [hsp] at h93
          exact ⟨p + 1, _, by omega, hp, go_stop h93, .root⟩
        · have hsl := slice_stop (t := t) h1 (Nat.le_of_lt hlt)
          have := (gap_tok (word := word) (ks := ks) (ns := ns) (n := f) (cr := cr) (l := .section) rfl (slice_drop h1)
            (fun h => by rw [h] at hsl; simp at hsl; omega)
            (by rw [hsl]; exact fun i hi1 hi2 => (rxMatch_none (by omega)).1 (h3 i hi1 hi2)) (by rw [hsl]; exact stop_match h93))
          rw [hsl] at this
          exact ⟨m.start + 1, _, by omega, hlt, this.trans (go_stop h93), .root⟩
    · right
      have := rest_tok (word := word) (ks := ks) (ns := ns) (n := f) (cr := cr) (l := .section) rfl hp
        (fun i h1 h2 h3 => h ⟨i, h1, h2, h3⟩)
      exact ⟨_, this, .inside (by simp) (by simp) (Or.inr ⟨rfl, by simp⟩)⟩
  | @comment ks ns f cr hok htk =>
    obtain ⟨e, h1, h2, h3, h4⟩ := line_end (t := t) (Nat.le_of_lt hp)
    obtain ⟨ks', cr', h5, _, _⟩ := go_comment hw h3 h2 (ns := ns) (e - p) p f ks cr (Nat.le_refl _) h1 h4 hok htk
    rcases h3 with rfl | h3
    · exact Or.inr ⟨_, h5, .root⟩
    · left
      have hlt := (List.getElem?_eq_some_iff.1 h3).1
      obtain ⟨y, h6, h7⟩ := root_step (word := word) (ns := ns ++ closed .comment ks') (cr := cr') h3 newline_plain (newline_escape h3)
      exact ⟨e + 1, y, by omega, hlt, h5.trans h6, h7⟩

theorem stable_end (hw : word 10 = false) : ∀ (d p : Nat) (x : FS), t.length - p ≤ d → p ≤ t.length → Stable p x →
    ∃ y, G word t x y ∧ AtEnd t y := by
  have last : ∀ x, Stable t.length x → ∃ y, G word t x y ∧ AtEnd t y := by
    intro x hx
    cases hx with
    | root => exact ⟨_, .refl _, .root⟩
    | @value l ks ns f cr hl hok =>
      have hne : l ≠ .comment ∧ l ≠ .root := by rcases hl with rfl | rfl <;> simp
      exact ⟨_, .refl _, .inside hne.1 hne.2 hok⟩
    | «section» hok => exact ⟨_, .refl _, .inside (by simp) (by simp) hok⟩
    | @comment ks ns f cr hok htk =>
      obtain ⟨ks', cr', h5, _, _⟩ := go_comment hw (Or.inl rfl) (Nat.le_refl _) (ns := ns) 0 t.length f ks cr (by omega) (Nat.le_refl _)
        (fun i h1 h2 => by omega) hok htk
      exact ⟨_, h5, .root⟩
  intro d
  induction d with
  | zero =>
    intro p x h1 h2 hx
    have : p = t.length := by omega
    subst this
    exact last x hx
  | succ d ih =>
    intro p x h1 h2 hx
    by_cases hp : p = t.length
    · subst hp; exact last x hx
    · rcases stable_step (t := t) hw (p := p) (by omega) hx with ⟨q, y, g1, g2, g3, g4⟩ | h
      · obtain ⟨z, g5, g6⟩ := ih q y (by omega) g2 g4
        exact ⟨z, g3.trans g5, g6⟩
      · exact h

/-- The tree at the end. -/
def endNodes (x : FS) : List Nd :=
  match x.tree.up with
  | [] => x.tree.cur.kids
  | f :: _ => f.kids ++ closed x.tree.cur.lex x.tree.cur.kids

theorem end_tree {x : FS} (h : G word t ⟨0, R [], 0, []⟩ x) (hx : AtEnd t x) :
    ∃ k evs, lexRun (lang word) t k (LState.start [.root] 0) = (evs, none) ∧ buildEvents .root evs = .ctx .root (endNodes x) := by
  have key : ∃ b' : BState Nat IL IA, x.tree.frames.drop x.fresh = b'.frames ∧ b'.close = .ctx .root (endNodes x) := by
    cases hx with
    | @root ns cr => exact ⟨R ns, rfl, rfl⟩
    | @inside l ks ns f cr h1 h2 hok =>
      rcases hok with ⟨rfl, rfl⟩ | ⟨rfl, hk⟩
      · refine ⟨R ns, rfl, ?_⟩
        simp [endNodes, In, closed, R, BState.close]
      · refine ⟨In l ks ns, rfl, ?_⟩
        simp [endNodes, In, closed, hk, BState.close]
  obtain ⟨b', h1, h2⟩ := key
  obtain ⟨k, evs, h3, h4⟩ := fgoes_finish h h1 (fun s b hat => end_step hx s b hat)
  exact ⟨k, evs, h3, by rw [h4, h2]⟩

theorem finishes (hw : word 10 = false) (t : List Nat) : ∃ n, RB.Finished (lang word) .root t n := by
  obtain ⟨y, h1, h2⟩ := stable_end (word := word) (t := t) hw t.length 0 ⟨0, R [], 0, []⟩ (by omega) (Nat.zero_le _) .root
  obtain ⟨k, evs, h3, _⟩ := end_tree h1 h2
  exact ⟨k, by unfold RB.Finished; rw [h3]; rfl⟩

end Parce.Ini

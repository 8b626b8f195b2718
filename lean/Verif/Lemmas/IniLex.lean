import Verif.Spec.Ini
import Verif.Lemmas.GoesFresh
import Verif.Lemmas.ReBest
import Verif.Props.Re
/-!
# How INI texts are lexed
-/
namespace Parce.Ini
variable {word : Nat → Bool} {t : List Nat}

abbrev Nd := Node Nat IL IA
abbrev FS := FSit Nat IL IA

/-- In the root. -/
def R (ns : List Nd) : BState Nat IL IA := ⟨⟨.root, ns⟩, []⟩

/-- In a context of the root. -/
def In (l : IL) (ks ns : List Nd) : BState Nat IL IA := ⟨⟨l, ks⟩, [⟨.root, ns⟩]⟩

def tk (p : Nat) (w : List Nat) (a : IA) : Nd := .tok ⟨p, w, a, none⟩

/-- A context that is closed; without children it was not made. -/
def closed (l : IL) (ks : List Nd) : List Nd := if ks = [] then [] else [.ctx l ks]

/-- Either the context is only in the pending target, or it has children. -/
def Ok (f : Nat) (ks : List Nd) : Prop := (f = 1 ∧ ks = []) ∨ (f = 0 ∧ ks ≠ [])

abbrev G (word : Nat → Bool) (t : List Nat) := FGoes (lang word) t

/-! ### One step -/

theorem ld_eq (l : IL) : (lang word).ld l = compile .none (rules word l) (dflt l) := rfl

/-- A match with text. -/
theorem parse_hit {l : IL} {p i : Nat} {c : Caps} {w post : List Nat} {pat : Pat Nat} {a : IA} {tg : Option (Target IL)}
    (hd : t.drop p = w ++ post) (hm : rxMatch ((rules word l).map (·.pat)) t p = some ⟨p, p + w.length, ⟨i, c⟩⟩)
    (hr : (rules word l)[i]? = some (rule pat a tg)) :
    ∃ m ps', parseNext IA.none ((lang word).ld l) t (.at p false) = some (⟨p, w, m, a, tg⟩, .at (p + w.length) ps') := by
  rw [ld_eq, parse_match hm hr, slice_here hd]
  exact ⟨_, _, rfl⟩

theorem hit_tok {l : IL} {p i n : Nat} {c : Caps} {w post : List Nat} {pat : Pat Nat} {a : IA} {ks ns : List Nd} {cr : List (Nat × Nat × Nat)}
    (hd : t.drop p = w ++ post) (hw : w ≠ []) (hm : rxMatch ((rules word l).map (·.pat)) t p = some ⟨p, p + w.length, ⟨i, c⟩⟩)
    (hr : (rules word l)[i]? = some (rule pat a)) :
    G word t ⟨p, In l ks ns, n, cr⟩ ⟨p + w.length, In l (ks ++ [tk p w a]) ns, 0, cr⟩ := by
  have h := parse_match (noAct := IA.none) (dl := dflt l) hm hr
  rw [slice_here hd] at h
  have hb : (p == p + w.length) = false := by
    have := List.length_pos_iff.2 hw
    simp only [beq_eq_false_iff_ne, ne_eq]
    omega
  rw [hb] at h
  exact fgoes_tok (lang := lang word) (B := In l ks ns) h hw rfl rfl rfl

theorem hit_target {l : IL} {p i n : Nat} {c : Caps} {w post : List Nat} {pat : Pat Nat} {a : IA} {B : BState Nat IL IA} {tg : Target IL}
    {cr : List (Nat × Nat × Nat)} (hl : B.cur.lex = l)
    (hd : t.drop p = w ++ post) (hw : w ≠ []) (hm : rxMatch ((rules word l).map (·.pat)) t p = some ⟨p, p + w.length, ⟨i, c⟩⟩)
    (hr : (rules word l)[i]? = some (rule pat a (some tg))) (hp : tg.pop ≤ B.up.length) :
    G word t ⟨p, B, n, cr⟩ ⟨p + w.length, (B.addTok p w a).target (some tg), tg.push.length, []⟩ := by
  subst hl
  have h := parse_match (noAct := IA.none) (dl := dflt B.cur.lex) hm hr
  rw [slice_here hd] at h
  have hc : (tg.push.getLast?.map (lang word).consume).getD false = false := by
    cases tg.push.getLast? <;> rfl
  exact fgoes_target (lang := lang word) h hw rfl (by simp [lang, patLang]) hp hc

/-- Where no rule matches, the default target is followed. -/
theorem parse_default {l : IL} {p : Nat} {tg : Target IL} (hp : p < t.length) (hd : dflt l = .target tg)
    (hm : rxMatch ((rules word l).map (·.pat)) t p = none) :
    parseNext IA.none ((lang word).ld l) t (.at p false) = some (⟨p, [], none, .none, some tg⟩, .stop) := by
  have hne : rules word l ≠ [] := by cases l <;> simp [rules, valueRules]
  rw [ld_eq, compile_cons _ _ _ hne, hd]
  simp only [parseNext, hm, tailTok, hp, if_true]

theorem leave {l : IL} {p f : Nat} {ks ns : List Nd} {cr : List (Nat × Nat × Nat)} {tok : Tok Nat IL IA RM} {ps' : PS RM}
    (h : parseNext IA.none ((lang word).ld l) t (.at p false) = some (tok, ps')) (ht : tok.text = []) (hg : tok.tgt = some ⟨1, []⟩)
    (hp : tok.pos = p) (hok : Ok f ks) :
    ∃ cr', G word t ⟨p, In l ks ns, f, cr⟩ ⟨p, R (ns ++ closed l ks), 0, cr'⟩ := by
  rcases hok with ⟨rfl, rfl⟩ | ⟨rfl, hk⟩
  · have := fgoes_pop_fresh (lang := lang word) (t := t) (f := ⟨.root, ns⟩) (up := []) (k := []) (n := 0) (c := cr) h ht hg hp
    rw [show ns ++ closed l [] = ns by simp [closed]]
    exact ⟨_, this⟩
  · have := fgoes_pop (lang := lang word) (t := t) (B := In l ks ns) (c := cr) h ht hg hp (Nat.le_refl _)
    rw [show ns ++ closed l ks = ns ++ [.ctx l ks] by simp [closed, hk]]
    exact ⟨_, this⟩

/-! ### Keys and values -/

theorem plain_iff {c : Nat} : plain c = true ↔ c ≠ 10 ∧ c ≠ 91 ∧ c ≠ 92 ∧ c ≠ 59 ∧ c ≠ 61 ∧ c ≠ 35 ∧ c ≠ 58 := by
  have : str "[\\;=#:" = [91, 92, 59, 61, 35, 58] := by decide
  simp only [plain, this, List.contains_eq_mem, List.mem_cons, List.not_mem_nil, or_false, Bool.not_eq_true', decide_eq_false_iff_not,
    not_or]

/-- A key or a value. -/
def Vl (l : IL) : Prop := l = .key ∨ l = .value

def act : IL → IA
  | .key => .ident
  | _ => .data

theorem vl_rules {l : IL} (h : Vl l) : rules word l = valueRules (act l) := by
  rcases h with rfl | rfl <;> rfl

theorem vl_dflt {l : IL} (h : Vl l) : dflt l = .target ⟨1, []⟩ := by
  rcases h with rfl | rfl <;> rfl

theorem escape_fails {p : Nat} (h : t[p]? ≠ some 92) : Fails t escapePat p := by
  rintro q ⟨r, ⟨_, x, h1, h2⟩, _⟩
  simp only [beq_iff_eq] at h2
  exact h (by rw [h1, h2])

theorem plain_fails {p : Nat} (h : ∀ c, t[p]? = some c → plain c = false) : Fails t (.plus (.set plain)) p := by
  rintro q ⟨r, ⟨_, x, h1, h2⟩, _⟩
  rw [h x h1] at h2
  cases h2

/-- A run of characters. -/
theorem go_run {l : IL} (hl : Vl l) {p n : Nat} {w post : List Nat} {ks ns : List Nd} {cr : List (Nat × Nat × Nat)}
    (hd : t.drop p = w ++ post) (hw : w ≠ []) (h1 : ∀ c ∈ w, plain c = true) (h2 : ∀ c, post.head? = some c → plain c = false) :
    G word t ⟨p, In l ks ns, n, cr⟩ ⟨p + w.length, In l (ks ++ [tk p w (act l)]) ns, 0, cr⟩ := by
  obtain ⟨x, w', rfl⟩ := List.exists_cons_of_ne_nil hw
  have hx := drop_get hd
  have hf : Fails t escapePat p := escape_fails (by
    rw [hx]
    intro h
    cases h
    have := plain_iff.1 (h1 92 (List.mem_cons_self ..))
    omega)
  have hm := rxMatch_best (ps := [escapePat]) (qs := []) (by simpa using hf) (best_plus hd hw h1 h2)
    (by have := drop_le hd hw; omega)
  refine hit_tok (i := 1) (c := []) hd hw ?_ (pat := .plus (.set plain)) ?_
  · rw [vl_rules hl]; exact hm
  · rw [vl_rules hl]; rfl

theorem hex_iff {c : Nat} : isHex c = true ↔ IsHexDigit c := by
  simp only [isHex, IsHexDigit, Bool.or_eq_true, Bool.and_eq_true, decide_eq_true_eq]
  omega

theorem escaped_iff {c : Nat} : escaped c = true ↔ c ∈ full.esc := by
  have : str "\\'\"0abtrn;#=:" = [92, 39, 34, 48, 97, 98, 116, 114, 110, 59, 35, 61, 58] := by decide
  simp only [escaped, this, full, letters, List.contains_eq_mem, List.mem_cons, List.not_mem_nil, or_false, decide_eq_true_eq,
    List.mem_append, List.map_cons, List.map_nil]
  omega

theorem best_escape {p : Nat} {e : Piece} {post : List Nat} (hd : t.drop p = e.text ++ post) (he : e.ok full) (hc : ∀ c, e ≠ .char c) :
    Best t escapePat p (p + e.text.length) := by
  cases e with
  | char c => exact absurd rfl (hc c)
  | esc c =>
    have h0 := drop_get hd
    have h1 : t.drop (p + 1) = c :: post := by rw [← List.drop_drop, hd]; rfl
    exact (best_set (f := fun x => x == 92) h0 rfl).cat (Best.alt (best_set (drop_get h1) (escaped_iff.2 he)))
  | hex x a b c d =>
    obtain ⟨hx, ha, hb, hc', hd'⟩ := he
    have h0 := drop_get hd
    have h1 : t.drop (p + 1) = x :: a :: b :: c :: d :: post := by rw [← List.drop_drop, hd]; rfl
    have h2 : t.drop (p + 1 + 1) = a :: b :: c :: d :: post := by rw [← List.drop_drop, h1]; rfl
    have h3 : t.drop (p + 1 + 1 + 1) = b :: c :: d :: post := by rw [← List.drop_drop, h2]; rfl
    have h4 : t.drop (p + 1 + 1 + 1 + 1) = c :: d :: post := by rw [← List.drop_drop, h3]; rfl
    have h5 : t.drop (p + 1 + 1 + 1 + 1 + 1) = d :: post := by rw [← List.drop_drop, h4]; rfl
    have hf : Fails t (.set escaped) (p + 1) := by
      rintro q ⟨_, y, hy, hy2⟩
      rw [drop_get h1] at hy
      cases hy
      rcases hx with rfl | rfl <;> exact absurd hy2 (by decide)
    exact (best_set (f := fun x => x == 92) h0 rfl).cat (Best.alt' hf ((best_set (f := fun c => c == 120 || c == 88) (drop_get h1)
      (by rcases hx with rfl | rfl <;> rfl)).cat ((best_set (drop_get h2) (hex_iff.2 ha)).cat ((best_set (drop_get h3) (hex_iff.2 hb)).cat
        ((best_set (drop_get h4) (hex_iff.2 hc')).cat ((best_set (drop_get h5) (hex_iff.2 hd')).cat (best_eps _)))))))

/-- An escape. -/
theorem go_escape {l : IL} (hl : Vl l) {p n : Nat} {e : Piece} {post : List Nat} {ks ns : List Nd} {cr : List (Nat × Nat × Nat)}
    (hd : t.drop p = e.text ++ post) (he : e.ok full) (hc : ∀ c, e ≠ .char c) :
    G word t ⟨p, In l ks ns, n, cr⟩ ⟨p + e.text.length, In l (ks ++ [tk p e.text .escape]) ns, 0, cr⟩ := by
  have hw : e.text ≠ [] := by cases e <;> simp [Piece.text]
  have hm := rxMatch_best (ps := []) (qs := [.plus (.set plain)]) (by simp) (best_escape hd he hc)
    (by have := drop_le hd hw; omega)
  refine hit_tok (i := 0) (c := []) hd hw ?_ (pat := escapePat) ?_
  · rw [vl_rules hl]; exact hm
  · rw [vl_rules hl]; rfl

/-- Where a key or a value ends. -/
theorem vl_none {l : IL} (hl : Vl l) {p : Nat} (hp : p ≤ t.length) (h : ∀ c, t[p]? = some c → plain c = false) (hf : Fails t escapePat p) :
    rxMatch ((rules word l).map (·.pat)) t p = none := by
  rw [rxMatch_none hp]
  rintro ⟨a, ha, q, hq⟩
  rw [vl_rules hl] at ha
  simp only [valueRules, rule, List.map_cons, List.map_nil, List.mem_cons, List.not_mem_nil, or_false] at ha
  rcases ha with rfl | rfl
  · exact hf q hq
  · exact plain_fails h q hq

/-- Leaving a key or a value. -/
theorem go_leave {l : IL} (hl : Vl l) {p f : Nat} {ks ns : List Nd} {cr : List (Nat × Nat × Nat)} {c : Nat} (hp : t[p]? = some c)
    (h : plain c = false) (hf : Fails t escapePat p) (hok : Ok f ks) :
    ∃ cr', G word t ⟨p, In l ks ns, f, cr⟩ ⟨p, R (ns ++ closed l ks), 0, cr'⟩ := by
  have hlt := (List.getElem?_eq_some_iff.1 hp).1
  exact leave (parse_default hlt (vl_dflt hl) (vl_none hl (Nat.le_of_lt hlt) (fun c' h' => by rw [hp] at h'; cases h'; exact h) hf))
    rfl rfl rfl hok

/-! ### The root -/

theorem root_none {p : Nat} {c : Nat} (hp : t[p]? = some c) (h : c ≠ 91 ∧ c ≠ 59 ∧ c ≠ 35 ∧ c ≠ 61) :
    rxMatch ((rules word .root).map (·.pat)) t p = none := by
  have hlt := (List.getElem?_eq_some_iff.1 hp).1
  rw [rxMatch_none (Nat.le_of_lt hlt)]
  rintro ⟨a, ha, q, hq⟩
  simp only [rules, rule, List.map_cons, List.map_nil, List.mem_cons, List.not_mem_nil, or_false] at ha
  rcases ha with rfl | rfl | rfl
  · obtain ⟨_, x, h1, h2⟩ := hq
    rw [hp] at h1
    cases h1
    simp only [beq_iff_eq] at h2
    exact h.1 h2
  · obtain ⟨_, x, h1, h2⟩ := hq
    rw [hp] at h1
    cases h1
    have : str ";#" = [59, 35] := by decide
    simp only [this, List.contains_eq_mem, List.mem_cons, List.not_mem_nil, or_false, decide_eq_true_eq] at h2
    omega
  · obtain ⟨_, x, h1, h2⟩ := hq
    rw [hp] at h1
    cases h1
    simp only [beq_iff_eq] at h2
    exact h.2.2.2 h2

/-- What is entered with a character of the root. -/
def entry : Nat → IL × IA
  | 91 => (.section, .start)
  | 61 => (.value, .assign)
  | _ => (.comment, .comment)

theorem drop_one {p c : Nat} (hp : t[p]? = some c) : t.drop p = [c] ++ t.drop (p + 1) := by
  obtain ⟨h1, h2⟩ := List.getElem?_eq_some_iff.1 hp
  rw [List.drop_eq_getElem_cons h1, h2]; rfl

theorem go_enter {p n c : Nat} {ns : List Nd} {cr : List (Nat × Nat × Nat)} (hp : t[p]? = some c) (h : c = 91 ∨ c = 59 ∨ c = 35 ∨ c = 61) :
    G word t ⟨p, R ns, n, cr⟩ ⟨p + 1, In (entry c).1 [] (ns ++ [tk p [c] (entry c).2]), 1, []⟩ := by
  have hlt := (List.getElem?_eq_some_iff.1 hp).1
  have hd := drop_one hp
  have key : ∀ (i : Nat) (pat : Pat Nat), rxMatch ((rules word .root).map (·.pat)) t p = some ⟨p, p + [c].length, ⟨i, []⟩⟩ →
      (rules word .root)[i]? = some (rule pat (entry c).2 (some ⟨0, [(entry c).1]⟩)) →
      G word t ⟨p, R ns, n, cr⟩ ⟨p + 1, In (entry c).1 [] (ns ++ [tk p [c] (entry c).2]), 1, []⟩ := by
    intro i pat h1 h2
    exact hit_target (B := R ns) rfl hd (by simp) h1 h2 (Nat.zero_le _)
  have f91 : c ≠ 91 → Fails t (Pat.str (str "[")) p := by
    rintro hc q ⟨_, x, h1, h2⟩
    rw [hp] at h1; cases h1
    simp only [beq_iff_eq] at h2
    exact hc h2
  have f59 : c ≠ 59 → c ≠ 35 → Fails t (.set fun c => (str ";#").contains c) p := by
    rintro hc hc' q ⟨_, x, h1, h2⟩
    rw [hp] at h1; cases h1
    have : str ";#" = [59, 35] := by decide
    simp only [this, List.contains_eq_mem, List.mem_cons, List.not_mem_nil, or_false, decide_eq_true_eq] at h2
    omega
  rcases h with rfl | rfl | rfl | rfl
  · exact key 0 _ (rxMatch_best (ps := []) (by simp) (best_set hp rfl) (Nat.le_of_lt hlt)) rfl
  · exact key 1 _ (rxMatch_best (ps := [Pat.str (str "[")]) (by simpa using f91 (by omega)) (best_set hp (by decide)) (Nat.le_of_lt hlt)) rfl
  · exact key 1 _ (rxMatch_best (ps := [Pat.str (str "[")]) (by simpa using f91 (by omega)) (best_set hp (by decide)) (Nat.le_of_lt hlt)) rfl
  · exact key 2 _ (rxMatch_best (ps := [Pat.str (str "["), _]) (fun b hb => by
        simp only [List.mem_cons, List.not_mem_nil, or_false] at hb
        rcases hb with rfl | rfl
        · exact f91 (by omega)
        · exact f59 (by omega) (by omega))
      (best_set hp rfl) (Nat.le_of_lt hlt)) rfl

/-- From the root to a key. -/
theorem go_key {p c : Nat} {ns : List Nd} (hp : t[p]? = some c) (h : c ≠ 91 ∧ c ≠ 59 ∧ c ≠ 35 ∧ c ≠ 61) :
    G word t ⟨p, R ns, 0, []⟩ ⟨p, In .key [] ns, 1, [(p, 1, 1)]⟩ :=
  fgoes_push (lang := lang word) (B := R ns) (ls := [.key]) (n := 0)
    (parse_default (List.getElem?_eq_some_iff.1 hp).1 rfl (root_none hp h)) rfl rfl rfl (by simp)

/-- A character that is nothing: it is skipped. -/
theorem go_junk {p c : Nat} {ns : List Nd} {cr : List (Nat × Nat × Nat)} (hp : t[p]? = some c) (h : c ≠ 91 ∧ c ≠ 59 ∧ c ≠ 35 ∧ c ≠ 61)
    (h1 : plain c = false) (hf : Fails t escapePat p) :
    G word t ⟨p, R ns, 0, cr⟩ ⟨p + 1, In .key [] ns, 1, []⟩ := by
  have hlt := (List.getElem?_eq_some_iff.1 hp).1
  have hroot := parse_default (word := word) (l := .root) hlt rfl (root_none hp h)
  have hkey := parse_default (word := word) (l := .key) hlt rfl
    (vl_none (Or.inl rfl) (Nat.le_of_lt hlt) (fun c' h' => by rw [hp] at h'; cases h'; exact h1) hf)
  have skip : ∀ cr : List (Nat × Nat × Nat), (p, 1, 1) ∈ cr → G word t ⟨p, R ns, 0, cr⟩ ⟨p + 1, In .key [] ns, 1, []⟩ := by
    intro cr hm
    exact fgoes_push_again (lang := lang word) (B := R ns) (ls := [.key]) (n := 0) hroot rfl rfl rfl hlt (by simp) hm
  have push : ∀ cr : List (Nat × Nat × Nat), (p, 1, 1) ∉ cr → G word t ⟨p, R ns, 0, cr⟩ ⟨p, In .key [] ns, 1, (p, 1, 1) :: cr⟩ := by
    intro cr hm
    exact fgoes_push (lang := lang word) (B := R ns) (ls := [.key]) (n := 0) hroot rfl rfl rfl hm
  have pop : ∀ cr : List (Nat × Nat × Nat), G word t ⟨p, In .key [] ns, 1, cr⟩ ⟨p, R ns, 0, circNext (p, 1, 0) cr⟩ := by
    intro cr
    exact fgoes_pop_fresh (lang := lang word) (t := t) (f := ⟨.root, ns⟩) (up := []) (k := []) (n := 0) (c := cr) hkey rfl rfl rfl
  have once : G word t ⟨p, R ns, 0, []⟩ ⟨p + 1, In .key [] ns, 1, []⟩ :=
    (push [] (by simp)).trans ((pop _).trans (skip _ (by simp [circNext])))
  by_cases hm : (p, 1, 1) ∈ cr
  · exact skip cr hm
  · refine (push cr hm).trans ((pop _).trans ?_)
    by_cases hm' : (p, 1, 0) ∈ (p, 1, 1) :: cr
    · rw [circNext, if_pos hm']
      exact once
    · rw [circNext, if_neg hm']
      exact skip _ (by simp)

end Parce.Ini

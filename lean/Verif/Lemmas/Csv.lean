import Verif.Lemmas.GoesGroup
import Verif.Lemmas.JsonEnd
import Verif.Spec.Csv
/-!
# The tokens of CSV
-/
namespace Parce.Csv
variable {sp : Nat → Bool} {t : List Nat}

abbrev CGoes (sp : Nat → Bool) (t : List Nat) := Goes (ρ := RM) (lang sp) t

/-- What comes after a field. -/
def Stop (post : List Nat) : Prop := ∀ c, post.head? = some c → c = 44 ∨ c = 10

theorem drop_le' {p : Nat} {w : List Nat} (h : t.drop p = w) (hw : w ≠ []) : p + w.length ≤ t.length :=
  drop_le (w := w) (post := []) (by simpa using h) hw

theorem best_look {α : Type} {t : List α} {a : Pat α} {p q : Nat} (h : Best t a p q) : Best t (.look false a) p p := by
  intro c
  obtain ⟨r, hr⟩ := h c
  exact ⟨[], by simp only [Pat.run, hr]⟩

theorem set_fails {α : Type} {t : List α} {f : α → Bool} {p : Nat} (h : ∀ x, t[p]? = some x → f x = false) : Fails t (.set f) p := by
  rintro q ⟨_, x, h1, h2⟩
  rw [h x h1] at h2
  cases h2

theorem dollar_fails {p : Nat} {c : Nat} (h : t[p]? = some c) (hc : c ≠ 10) : Fails t dollar p := by
  rintro q ⟨_, h2⟩
  have : p < t.length := (List.getElem?_eq_some_iff.1 h).1
  simp [h, hc] at h2
  omega

theorem eol_fails {p : Nat} {c : Nat} (h : t[p]? = some c) (hc : c ≠ 10) : Fails t eolPat p := by
  rintro q ⟨r, h1, _⟩
  exact dollar_fails h hc r h1

theorem best_dollar {p : Nat} (h : ∀ c, t[p]? = some c → c = 10) : Best t dollar p p := by
  refine best_test ?_
  cases hc : t[p]? with
  | none => simp [List.getElem?_eq_none_iff.1 hc]
  | some c => simp [h c hc]

theorem best_chr {c p : Nat} (h : t[p]? = some c) : Best t (Pat.chr c) p (p + 1) := best_set h (by simp)

theorem name_fails {p : Nat} {c : Nat} (h : t[p]? = some c) (hc : c = 44 ∨ c = 34 ∨ c = 10) : Fails t namePat p := by
  rintro q ⟨r, ⟨s, ⟨_, x, h1, h2⟩, _⟩, _⟩
  rw [h] at h1
  cases h1
  rcases hc with rfl | rfl | rfl <;> cases h2

theorem best_name {p : Nat} {w post : List Nat} (ht : t.drop p = w ++ post) (hw : w ≠ []) (h : ∀ c ∈ w, c ≠ 44 ∧ c ≠ 34 ∧ c ≠ 10)
    (hs : Stop post) : Best t namePat p (p + w.length) := by
  have hd := drop_add ht
  have hh := drop_head hd
  refine (best_plus ht hw (fun x hx => ?_) (fun x hx => ?_)).cat ?_
  · have := h x hx
    simp [this.1, this.2.1, this.2.2]
  · rcases hs x hx with rfl | rfl <;> rfl
  · cases hc : post.head? with
    | none =>
      rw [hc] at hh
      exact best_look (Best.alt (best_dollar (fun c h => by rw [hh] at h; cases h)))
    | some c =>
      rw [hc] at hh
      rcases hs c hc with rfl | rfl
      · exact best_look (Best.alt' (dollar_fails hh (by decide)) (Best.alt (best_chr hh)))
      · exact best_look (Best.alt (best_dollar (fun c h => by rw [hh] at h; cases h; rfl)))

theorem blank_stop {p : Nat} {c : Nat} (h : t[p]? = some c) (hc : blank c = false) : Best t (.star (.set blank)) p p := by
  have hd : t.drop p = [] ++ t.drop p := rfl
  have := best_star (f := blank) [] hd (by simp) (fun x hx => by
    rw [List.head?_drop, h] at hx
    cases hx
    exact hc)
  simpa using this

theorem open_fails {p : Nat} {c : Nat} (h : t[p]? = some c) (hb : blank c = false) (hj : junk sp c = false) (hc : c ≠ 34) :
    Fails t (openPat sp) p := by
  rintro q ⟨r, h1, s, h2, h3⟩
  have hr : r = p := by
    cases Relation.ReflTransGen.cases_head h1 with
    | inl h => exact h.symm
    | inr h' =>
      obtain ⟨x, ⟨_, y, h4, h5⟩, _⟩ := h'
      rw [h] at h4
      cases h4
      rw [hb] at h5
      cases h5
  subst hr
  rcases h2 with ⟨x, ⟨y, ⟨z, ⟨_, v, h4, h5⟩, _⟩, _⟩, _⟩ | h2
  · rw [h] at h4
    cases h4
    rw [hj] at h5
    cases h5
  · have : r = s := h2
    subst this
    obtain ⟨_, v, h4, h5⟩ := h3
    rw [h] at h4
    cases h4
    simp at h5
    exact hc h5

theorem best_open {p : Nat} (h : t[p]? = some 34) : BestC t (openPat sp) p (p + 1) [(2, p, p + 1)] := by
  have h1 := (blank_stop h rfl).toC
  have h2 : Best t (.opt (.grp 1 (.plus (.cat (.plus (.set (junk sp))) (.star (.set blank)))))) p p := by
    refine best_opt_none ?_
    rintro q ⟨y, ⟨z, ⟨x, ⟨_, v, h4, h5⟩, _⟩, _⟩, _⟩
    rw [h] at h4
    cases h4
    simp [junk] at h5
  exact h1.cat (h2.toC.cat ((best_chr h).grp 2))

theorem best_close (hsp : sp 10 = true) {p : Nat} {post : List Nat} (ht : t.drop p = 34 :: post) (hs : Stop post) :
    BestC t (closePat sp) p (p + 1) [(1, p, p + 1)] := by
  have hd : t.drop (p + 1) = post := drop_add (w := [34]) ht
  have hh := drop_head hd
  have h1 : Best t (.star (.set blank)) (p + 1) (p + 1) := by
    have := best_star (f := blank) [] (t := t) (p := p + 1) (post := post) hd (by simp) (fun x hx => by
      rcases hs x hx with rfl | rfl <;> rfl)
    simpa using this
  have h2 : Best t (.opt (.grp 2 (.plus (.set (junk sp))))) (p + 1) (p + 1) := by
    refine best_opt_none ?_
    rintro q ⟨y, ⟨_, v, h4, h5⟩, _⟩
    rw [h4] at hh
    rcases hs v hh.symm with rfl | rfl <;> simp [junk, hsp] at h5
  exact ((best_chr (drop_get ht)).grp 1).cat ((h1.cat h2).toC)

/-! ### Steps -/

theorem slice_one {p : Nat} {c : Nat} {post : List Nat} (h : t.drop p = c :: post) : slice t p (p + 1) = [c] :=
  slice_here (w := [c]) h

theorem slice_some {p q : Nat} {w : List Nat} (h : slice t p q = w) (hw : w ≠ []) : slice t p q ≠ [] := by rw [h]; exact hw

theorem step_name {p : Nat} {w post : List Nat} {K : List (Node Nat CL CA)} {up : List (Frame Nat CL CA)} {o : Bool}
    (ht : t.drop p = w ++ post) (hw : w ≠ []) (h : ∀ c ∈ w, c ≠ 44 ∧ c ≠ 34 ∧ c ≠ 10) (hs : Stop post) :
    CGoes sp t ⟨p, ⟨⟨.record, K⟩, up⟩, o⟩ ⟨p + w.length, ⟨⟨.record, K ++ [.tok ⟨p, w, .name, none⟩]⟩, up⟩, true⟩ := by
  have hle := drop_le ht hw
  have hm := rxMatch_best (ps := [eolPat]) (qs := [openPat sp, Pat.str [44]]) (fun b hb => by
    simp only [List.mem_cons, List.not_mem_nil, or_false] at hb
    subst hb
    obtain ⟨c, w', rfl⟩ := List.exists_cons_of_ne_nil hw
    exact eol_fails (drop_get (post := w' ++ post) ht) (h c (by simp)).2.2) (best_name ht hw h hs) (by omega)
  have hp := parse_match (noAct := CA.none) (rs := rules sp .record) (dl := dflt .record) hm rfl
  have hsl := slice_here ht
  rw [hsl] at hp
  exact goes_tok (lang := lang sp) (B := ⟨⟨.record, K⟩, up⟩) (a := .name) hp hw rfl rfl (Nat.le_refl _) (by
    have : (p == p + w.length) = false := by
      have := List.length_pos_iff.2 hw
      simp; omega
    rw [this])

theorem step_sep {p : Nat} {post : List Nat} {K : List (Node Nat CL CA)} {up : List (Frame Nat CL CA)} {o : Bool}
    (ht : t.drop p = 44 :: post) :
    CGoes sp t ⟨p, ⟨⟨.record, K⟩, up⟩, o⟩ ⟨p + 1, ⟨⟨.record, K ++ [.tok ⟨p, [44], .separator, none⟩]⟩, up⟩, true⟩ := by
  have hle := drop_le (w := [44]) ht (by simp)
  have hg := drop_get ht
  simp only [List.length_cons, List.length_nil] at hle
  have hm := rxMatch_best (ps := [eolPat, namePat, openPat sp]) (qs := []) (fun b hb => by
    simp only [List.mem_cons, List.not_mem_nil, or_false] at hb
    rcases hb with rfl | rfl | rfl
    · exact eol_fails hg (by decide)
    · exact name_fails hg (by simp)
    · exact open_fails hg rfl rfl (by decide)) (best_str [44] (p := p) (post := post) ht) (by omega)
  have hp := parse_match (noAct := CA.none) (rs := rules sp .record) (dl := dflt .record) hm rfl
  have hsl : slice t p (p + [44].length) = [44] := slice_one ht
  rw [hsl] at hp
  exact goes_tok (lang := lang sp) (B := ⟨⟨.record, K⟩, up⟩) (a := .separator) hp (by simp) rfl rfl (Nat.le_refl _) (by
    have : (p == p + [44].length) = false := by simp
    rw [this])

theorem step_eol {p : Nat} {post : List Nat} {K K' : List (Node Nat CL CA)} {l' : CL} {up : List (Frame Nat CL CA)} {o : Bool}
    (ht : t.drop p = 10 :: post) (hk : K ≠ []) :
    CGoes sp t ⟨p, ⟨⟨.record, K⟩, ⟨l', K'⟩ :: up⟩, o⟩ ⟨p + 1, ⟨⟨l', K' ++ [.ctx .record K]⟩, up⟩, true⟩ := by
  have hle := drop_le (w := [10]) ht (by simp)
  simp only [List.length_cons, List.length_nil] at hle
  have hg := drop_get ht
  have hb : Best t eolPat p (p + 1) := (best_dollar (fun c h => by rw [hg] at h; cases h; rfl)).cat (Best.opt (best_chr hg))
  have hm := rxMatch_best (ps := []) (qs := [namePat, openPat sp, Pat.str [44]]) (by simp) hb (by omega)
  have hp := parse_match (noAct := CA.none) (rs := rules sp .record) (dl := dflt .record) hm rfl
  rw [slice_one ht] at hp
  exact goes_skip_pop (lang := lang sp) (B := ⟨⟨.record, K⟩, ⟨l', K'⟩ :: up⟩) hp (by simp) rfl rfl (by simp) hk

theorem step_end {p : Nat} {K K' : List (Node Nat CL CA)} {l' : CL} {up : List (Frame Nat CL CA)}
    (ht : p = t.length) (hk : K ≠ []) :
    CGoes sp t ⟨p, ⟨⟨.record, K⟩, ⟨l', K'⟩ :: up⟩, true⟩ ⟨p, ⟨⟨l', K' ++ [.ctx .record K]⟩, up⟩, false⟩ := by
  have hg : t[p]? = none := List.getElem?_eq_none_iff.2 (by omega)
  have hb : Best t eolPat p p := (best_dollar (fun c h => by rw [hg] at h; cases h)).cat
    (best_opt_none (set_fails (fun x hx => by rw [hg] at hx; cases hx)))
  have hm := rxMatch_best (ps := []) (qs := [namePat, openPat sp, Pat.str [44]]) (by simp) hb (by omega)
  have hp := parse_match (noAct := CA.none) (rs := rules sp .record) (dl := dflt .record) hm rfl
  have hsl : slice t p p = [] := by unfold slice; simp
  rw [hsl] at hp
  exact goes_empty_pop (lang := lang sp) (B := ⟨⟨.record, K⟩, ⟨l', K'⟩ :: up⟩) hp rfl rfl rfl (by simp) hk

theorem step_root {p : Nat} {K : List (Node Nat CL CA)} {up : List (Frame Nat CL CA)} (hp : p < t.length) :
    CGoes sp t ⟨p, ⟨⟨.root, K⟩, up⟩, true⟩ ⟨p, ⟨⟨.record, []⟩, ⟨.root, K⟩ :: up⟩, false⟩ := by
  refine goes_default (lang := lang sp) (B := ⟨⟨.root, K⟩, up⟩) (tok := ⟨p, [], none, .none, some ⟨0, [.record]⟩⟩) (ps' := .stop) ?_ rfl rfl rfl
  show parseNext CA.none (compile CA.none [] (dflt .root)) t (.at p false) = _
  simp only [compile, parseNext, tailTok, dflt, hp, if_true]

theorem step_blank {p : Nat} {post : List Nat} {K : List (Node Nat CL CA)} {up : List (Frame Nat CL CA)} (ht : t.drop p = 10 :: post) :
    CGoes sp t ⟨p, ⟨⟨.root, K⟩, up⟩, true⟩ ⟨p + 1, ⟨⟨.root, K⟩, up⟩, true⟩ := by
  have hle := drop_le (w := [10]) ht (by simp)
  simp only [List.length_cons, List.length_nil] at hle
  have hg := drop_get ht
  have hlt : p < t.length := by omega
  have hb : Best t eolPat p (p + 1) := (best_dollar (fun c h => by rw [hg] at h; cases h; rfl)).cat (Best.opt (best_chr hg))
  have hm := rxMatch_best (ps := []) (qs := [namePat, openPat sp, Pat.str [44]]) (by simp) hb (by omega)
  have hp := parse_match (noAct := CA.none) (rs := rules sp .record) (dl := dflt .record) hm rfl
  rw [slice_one ht] at hp
  refine goes_through (lang := lang sp) (B := ⟨⟨.root, K⟩, up⟩) (l := .record) (tok := ⟨p, [], none, .none, some ⟨0, [.record]⟩⟩) (ps' := .stop)
    ?_ rfl rfl rfl hp (by simp) rfl rfl
  show parseNext CA.none (compile CA.none [] (dflt .root)) t (.at p false) = _
  simp only [compile, parseNext, tailTok, dflt, hlt, if_true]

theorem step_open {p : Nat} {post : List Nat} {K : List (Node Nat CL CA)} {up : List (Frame Nat CL CA)} {o : Bool}
    (ht : t.drop p = 34 :: post) :
    CGoes sp t ⟨p, ⟨⟨.record, K⟩, up⟩, o⟩ ⟨p + 1, ⟨⟨.string, [.tok ⟨p, [34], .start, none⟩]⟩, ⟨.record, K⟩ :: up⟩, true⟩ := by
  have hle := drop_le (w := [34]) ht (by simp)
  simp only [List.length_cons, List.length_nil] at hle
  have hg := drop_get ht
  have hm := rxMatch_bestC (ps := [eolPat, namePat]) (qs := [Pat.str [44]]) (fun b hb => by
    simp only [List.mem_cons, List.not_mem_nil, or_false] at hb
    rcases hb with rfl | rfl
    · exact eol_fails hg (by decide)
    · exact name_fails hg (by simp)) (best_open (sp := sp) hg) (by omega)
  have hp := parse_match (noAct := CA.none) (rs := rules sp .record) (dl := dflt .record) hm rfl
  rw [slice_one ht] at hp
  refine goes_consume (lang := lang sp) (B := ⟨⟨.record, K⟩, up⟩) (a := .start) hp (by simp) rfl ?_ rfl
  simp [lang, grpLang, groups, rule, groupLexemes, groupLexeme, groupOf, Caps.rel, List.zipIdx, slice]

theorem hit_close (hsp : sp 10 = true) {p : Nat} {post : List Nat} (ht : t.drop p = 34 :: post) (hs : Stop post) :
    rxMatch ((rules sp .string).map (·.pat)) t p = some ⟨p, p + 1, ⟨1, [(1, 0, 1)]⟩⟩ := by
  have hle := drop_le (w := [34]) ht (by simp)
  simp only [List.length_cons, List.length_nil] at hle
  have hm := rxMatch_bestC (ps := [Pat.str [34, 34]]) (qs := []) (fun b hb => by
    simp only [List.mem_cons, List.not_mem_nil, or_false] at hb
    subst hb
    intro q hq
    obtain ⟨_, post', h2⟩ := str_mat _ hq
    rw [ht] at h2
    simp only [List.cons_append, List.nil_append, List.cons.injEq, true_and] at h2
    have := hs 34 (by rw [h2]; rfl)
    omega) (best_close hsp ht hs) (by omega)
  have hrel : Caps.rel p [(1, p, p + 1)] = [(1, 0, 1)] := by simp [Caps.rel]
  rw [hrel] at hm
  exact hm

theorem step_close (hsp : sp 10 = true) {p : Nat} {post : List Nat} {K K' : List (Node Nat CL CA)} {l' : CL} {up : List (Frame Nat CL CA)} {o : Bool}
    (ht : t.drop p = 34 :: post) (hs : Stop post) :
    CGoes sp t ⟨p, ⟨⟨.string, K⟩, ⟨l', K'⟩ :: up⟩, o⟩
      ⟨p + 1, ⟨⟨l', K' ++ [.ctx .string (K ++ [.tok ⟨p, [34], .stop, none⟩])]⟩, up⟩, true⟩ := by
  have hp := parse_match (noAct := CA.none) (rs := rules sp .string) (dl := dflt .string) (hit_close hsp ht hs) rfl
  rw [slice_one ht] at hp
  refine goes_target (lang := lang sp) (B := ⟨⟨.string, K⟩, ⟨l', K'⟩ :: up⟩) (a := .stop) hp (by simp) rfl ?_ (by simp) rfl
  simp [lang, grpLang, groups, rule, groupLexemes, groupLexeme, groupOf, List.zipIdx, slice]

theorem hit_escape {p : Nat} {post : List Nat} (ht : t.drop p = [34, 34] ++ post) :
    rxMatch ((rules sp .string).map (·.pat)) t p = some ⟨p, p + 2, ⟨0, []⟩⟩ := by
  have hle := drop_le ht (by simp)
  simp only [List.length_cons, List.length_nil] at hle
  exact rxMatch_best (ps := []) (qs := [closePat sp]) (by simp) (best_str [34, 34] ht) (by omega)

theorem step_escape {p : Nat} {post : List Nat} {K : List (Node Nat CL CA)} {up : List (Frame Nat CL CA)} {o : Bool}
    (ht : t.drop p = [34, 34] ++ post) :
    CGoes sp t ⟨p, ⟨⟨.string, K⟩, up⟩, o⟩ ⟨p + 2, ⟨⟨.string, K ++ [.tok ⟨p, [34, 34], .escape, none⟩]⟩, up⟩, true⟩ := by
  have hp := parse_match (noAct := CA.none) (rs := rules sp .string) (dl := dflt .string) (hit_escape (sp := sp) ht) rfl
  have hsl : slice t p (p + 2) = [34, 34] := slice_here ht
  rw [hsl] at hp
  exact goes_tok (lang := lang sp) (B := ⟨⟨.string, K⟩, up⟩) (a := .escape) hp (by simp) rfl rfl (Nat.le_refl _) (by
    have : (p == p + 2) = false := by simp
    rw [this]
    rfl)

theorem string_starts {p : Nat} {c : Nat} (h : t[p]? = some c) (hc : c ≠ 34) : ¬ Starts ((rules sp .string).map (·.pat)) t p := by
  rintro ⟨a, ha, q, hq⟩
  simp only [rules, rule, List.map_cons, List.map_nil, List.mem_cons, List.not_mem_nil, or_false] at ha
  rcases ha with rfl | rfl
  · exact chr_fails (by rw [h]; simpa using hc) q hq
  · obtain ⟨r, ⟨_, v, h4, h5⟩, _⟩ := hq
    rw [h] at h4
    cases h4
    simp at h5
    exact hc h5

/-! ### Strings -/

/-- The characters a token of a string stands for. -/
def part (x : TokN Nat CA) : List Nat := if x.act = .escape then [34] else x.text

theorem doubled_append (a b : List Nat) (h : ∀ c ∈ a, c ≠ 34) : doubled (a ++ b) = a ++ doubled b := by
  induction a with
  | nil => rfl
  | cons c a ih =>
    simp only [List.cons_append, doubled, if_neg (h c (by simp)), ih (fun x hx => h x (by simp [hx])), List.nil_append]

/-- The characters up to the next quote. -/
theorem quote_split (w : List Nat) : ∃ g r, w = g ++ r ∧ (∀ c ∈ g, c ≠ 34) ∧ (r = [] ∨ ∃ r', r = 34 :: r') := by
  induction w with
  | nil => exact ⟨[], [], rfl, by simp, Or.inl rfl⟩
  | cons c w ih =>
    by_cases hc : c = 34
    · subst hc
      exact ⟨[], _, rfl, by simp, Or.inr ⟨w, rfl⟩⟩
    · obtain ⟨g, r, rfl, h1, h2⟩ := ih
      refine ⟨c :: g, r, rfl, fun x hx => ?_, h2⟩
      rcases List.mem_cons.1 hx with rfl | hx
      · exact hc
      · exact h1 x hx

theorem goes_string (hsp : sp 10 = true) (n : Nat) : ∀ (w : List Nat), w.length ≤ n →
    ∀ (K K' : List (Node Nat CL CA)) (l' : CL) (up : List (Frame Nat CL CA)) (p : Nat) (post : List Nat) (o : Bool),
    t.drop p = doubled w ++ (34 :: post) → Stop post →
    ∃ ts : List (TokN Nat CA), (∀ x ∈ ts, x.act = .escape ∨ x.act = .string) ∧ ts.flatMap part = w ∧
      CGoes sp t ⟨p, ⟨⟨.string, K⟩, ⟨l', K'⟩ :: up⟩, o⟩ ⟨p + (doubled w).length + 1,
        ⟨⟨l', K' ++ [.ctx .string (K ++ (ts ++ [(⟨p + (doubled w).length, [34], .stop, none⟩ : TokN Nat CA)]).map .tok)]⟩, up⟩, true⟩ := by
  induction n with
  | zero =>
    intro w hn K K' l' up p post o ht hs
    have : w = [] := List.length_eq_zero_iff.1 (by omega)
    subst this
    exact ⟨[], by simp, rfl, step_close hsp ht hs⟩
  | succ n ih =>
    -- what comes after the plain characters
    have hmain : ∀ (w : List Nat), w.length ≤ n + 1 → (w = [] ∨ ∃ w', w = 34 :: w') →
        ∀ (K K' : List (Node Nat CL CA)) (l' : CL) (up : List (Frame Nat CL CA)) (p : Nat) (post : List Nat) (o : Bool),
        t.drop p = doubled w ++ (34 :: post) → Stop post →
        (∃ m, rxMatch ((rules sp .string).map (·.pat)) t p = some m) ∧
        ∃ ts : List (TokN Nat CA), (∀ x ∈ ts, x.act = .escape ∨ x.act = .string) ∧ ts.flatMap part = w ∧
        CGoes sp t ⟨p, ⟨⟨.string, K⟩, ⟨l', K'⟩ :: up⟩, o⟩ ⟨p + (doubled w).length + 1,
          ⟨⟨l', K' ++ [.ctx .string (K ++ (ts ++ [(⟨p + (doubled w).length, [34], .stop, none⟩ : TokN Nat CA)]).map .tok)]⟩, up⟩, true⟩ := by
      intro w hn h K K' l' up p post o ht hs
      rcases h with rfl | ⟨w', rfl⟩
      · exact ⟨⟨_, hit_close hsp ht hs⟩, [], by simp, rfl, step_close hsp ht hs⟩
      · have ht' : t.drop p = [34, 34] ++ (doubled w' ++ (34 :: post)) := by rw [ht]; simp [doubled]
        refine ⟨⟨_, hit_escape ht'⟩, ?_⟩
        obtain ⟨ts, h1, h2, h3⟩ := ih w' (by simpa using hn) (K ++ [.tok ⟨p, [34, 34], .escape, none⟩]) K' l' up (p + 2) post true
          (drop_add ht') hs
        refine ⟨⟨p, [34, 34], .escape, none⟩ :: ts, ?_, by simp [part, h2] , ?_⟩
        · intro x hx
          rcases List.mem_cons.1 hx with rfl | hx
          · exact Or.inl rfl
          · exact h1 x hx
        · have hlen : (doubled (34 :: w')).length = 2 + (doubled w').length := by simp [doubled]; omega
          have := (step_escape (sp := sp) (K := K) (up := ⟨l', K'⟩ :: up) (o := o) ht').trans h3
          rw [hlen]
          simpa [List.append_assoc, Nat.add_assoc] using this
    intro w hn K K' l' up p post o ht hs
    obtain ⟨g, r, rfl, h1, h2⟩ := quote_split w
    by_cases hg : g = []
    · subst hg
      exact (hmain r hn h2 K K' l' up p post o ht hs).2
    · rw [doubled_append _ _ h1, List.append_assoc] at ht
      simp only [List.length_append] at hn
      obtain ⟨⟨m, hm⟩, ts, h3, h4, h5⟩ := hmain r (by omega) h2 (K ++ [.tok ⟨p, g, .string, none⟩]) K' l' up (p + g.length) post true (drop_add ht) hs
      refine ⟨⟨p, g, .string, none⟩ :: ts, ?_, by simp [part, h4], ?_⟩
      · intro x hx
        rcases List.mem_cons.1 hx with rfl | hx
        · exact Or.inr rfl
        · exact h3 x hx
      have hgap := goes_gap' (lang := lang sp) (rs := rules sp .string) (f := fun _ => .string) (B := ⟨⟨.string, K⟩, ⟨l', K'⟩ :: up⟩) (o := o) rfl
        (fun _ _ => rfl) ht hg (fun i hi1 hi2 => ?_) hm
      · have : CGoes sp t _ _ := Goes.trans (lang := lang sp) hgap h5
        rw [doubled_append _ _ h1]
        simpa [List.append_assoc, Nat.add_assoc] using this
      · obtain ⟨c, h6, h7⟩ := Json.drop_mem ht hi1 hi2
        exact string_starts h7 (h1 c h6)

theorem toksOf_toks (ts : List (TokN Nat CA)) : toksOf (itmL env false (ts.map .tok)) = ts := by
  induction ts with
  | nil => rfl
  | cons x ts ih => simp only [List.map_cons, itmL, Node.itm, List.cons_append, List.nil_append, toksOf, ih]

/-- The value of a string. -/
theorem stringOf_toks (a z : TokN Nat CA) (ts : List (TokN Nat CA)) (ha : a.act = .start) (hz : z.act = .stop)
    (h : ∀ x ∈ ts, x.act = .escape ∨ x.act = .string) :
    stringOf (itmL env false ((a :: (ts ++ [z])).map .tok)) = .str (ts.flatMap part) := by
  have h1 : (a :: (ts ++ [z])).dropWhile (fun t => t.act == .invalid || t.act == .start) = ts ++ [z] := by
    rw [List.dropWhile_cons_of_pos (by simp [ha])]
    cases ts with
    | nil => simp [hz]
    | cons x ts =>
      have := h x (by simp)
      rw [List.cons_append, List.dropWhile_cons_of_neg (by rcases this with h | h <;> simp [h])]
  have h2 : (ts ++ [z]).reverse.dropWhile (fun t => t.act == .stop || t.act == .invalid) = ts.reverse := by
    rw [List.reverse_append, List.reverse_singleton, List.singleton_append, List.dropWhile_cons_of_pos (by simp [hz])]
    cases hr : ts.reverse with
    | nil => rfl
    | cons x xs =>
      have hx : x ∈ ts := by rw [← List.mem_reverse, hr]; simp
      have := h x hx
      rw [List.dropWhile_cons_of_neg (by rcases this with h | h <;> simp [h])]
  unfold stringOf
  rw [toksOf_toks, h1]
  cases he : ts ++ [z] with
  | nil => simp at he
  | cons x xs =>
    simp only
    rw [← he, h2, List.reverse_reverse]
    rfl

/-! ### Fields and records -/

theorem stop_cons {post : List Nat} {c : Nat} (h : c = 44 ∨ c = 10) : Stop (c :: post) := by
  intro x hx
  cases hx
  exact h

/-- A field gives nothing, or one item with its value. -/
theorem goes_field (hsp : sp 10 = true) {f : Field} (hf : f.ok [10]) (K : List (Node Nat CL CA)) (up : List (Frame Nat CL CA)) (p : Nat)
    (post : List Nat) (o : Bool) (ht : t.drop p = f.text ++ post) (hs : Stop post) :
    (f = .plain [] ∧ f.text = []) ∨ f ≠ .plain [] ∧ f.text ≠ [] ∧ ∃ n x, itmL env false [n] = [x] ∧ isComma x = false ∧ fieldOf [x] = f.value ∧
      failed [x] = false ∧
      CGoes sp t ⟨p, ⟨⟨.record, K⟩, up⟩, o⟩ ⟨p + f.text.length, ⟨⟨.record, K ++ [n]⟩, up⟩, true⟩ := by
  cases f with
  | plain w =>
    cases w with
    | nil => exact Or.inl ⟨rfl, rfl⟩
    | cons c w =>
      have hw : ∀ x ∈ c :: w, x ≠ 44 ∧ x ≠ 34 ∧ x ≠ 10 := by
        intro x hx
        have := hf x hx
        exact ⟨this.1, this.2.1, by simpa using this.2.2⟩
      refine Or.inr ⟨by simp, List.cons_ne_nil c w, _, .tok ⟨p, c :: w, .name, none⟩, rfl, ?_, rfl, rfl, step_name ht (List.cons_ne_nil c w) hw hs⟩
      have := (hw c (by simp)).1
      simp [isComma, this]
  | quoted w =>
    refine Or.inr ⟨by simp, by simp [Field.text], ?_⟩
    simp only [Field.text] at ht ⊢
    rw [List.append_assoc, List.append_assoc] at ht
    have h1 := step_open (sp := sp) (K := K) (up := up) (o := o) ht
    obtain ⟨ts, h2, h3, h4⟩ := goes_string (sp := sp) hsp w.length w (Nat.le_refl _) [.tok ⟨p, [34], .start, none⟩] K .record up (p + 1) post true
      (drop_add (w := [34]) ht) hs
    refine ⟨.ctx .string ((⟨p, [34], .start, none⟩ :: (ts ++ [⟨p + 1 + (doubled w).length, [34], .stop, none⟩])).map .tok),
      .item .string (stringOf (itmL env false ((⟨p, [34], .start, none⟩ :: (ts ++ [⟨p + 1 + (doubled w).length, [34], .stop, none⟩])).map .tok))),
      rfl, rfl, ?_, ?_, ?_⟩
    rotate_left 2
    · have := h1.trans h4
      have e : p + ([34] ++ doubled w ++ [34]).length = p + 1 + (doubled w).length + 1 := by simp; omega
      rw [e]
      exact this
    · show stringOf (itmL env false ((⟨p, [34], .start, none⟩ :: (ts ++ [⟨p + 1 + (doubled w).length, [34], .stop, none⟩])).map .tok)) = .str w
      rw [stringOf_toks _ _ ts rfl rfl h2, h3]
    · show (failed [.item _ (stringOf (itmL env false ((⟨p, [34], .start, none⟩ :: (ts ++ [⟨p + 1 + (doubled w).length, [34], .stop, none⟩])).map .tok)))]) = false
      rw [stringOf_toks _ _ ts rfl rfl h2]
      rfl

theorem failed_append (a b : List Itm) : failed (a ++ b) = (failed a || failed b) := by simp [failed]

/-- The fields of a record. -/
theorem goes_rec (hsp : sp 10 = true) {fs : List Field} {w : List Nat} (h : Rec [10] fs w) : ∀ (K : List (Node Nat CL CA))
    (up : List (Frame Nat CL CA)) (p : Nat) (post : List Nat) (o : Bool), t.drop p = w ++ post → (∀ c, post.head? = some c → c = 10) →
    (fs = [.plain []] ∧ w = []) ∨ fs ≠ [.plain []] ∧ w ≠ [] ∧ ∃ ns, ns ≠ [] ∧ (splitItems (itmL env false ns)).map fieldOf = fs.map Field.value ∧
      failed (itmL env false ns) = false ∧
      CGoes sp t ⟨p, ⟨⟨.record, K⟩, up⟩, o⟩ ⟨p + w.length, ⟨⟨.record, K ++ ns⟩, up⟩, true⟩ := by
  induction h with
  | one hf =>
    intro K up p post o ht hs
    rcases goes_field hsp hf K up p post o ht (fun c hc => Or.inr (hs c hc)) with ⟨rfl, h1⟩ | ⟨h1, h2, n, x, h3, h4, h5, h6, h7⟩
    · exact Or.inl ⟨rfl, rfl⟩
    · refine Or.inr ⟨by simpa using h1, h2, [n], by simp, ?_, by rw [h3, h6], h7⟩
      rw [h3]
      simp [splitItems, h4, h5]
  | @cons f fs w hf hr ih =>
    intro K up p post o ht hs
    refine Or.inr ⟨?_, by simp, ?_⟩
    · intro h
      simp only [List.cons.injEq] at h
      rw [h.2] at hr
      cases hr
    rw [List.append_assoc, List.append_assoc] at ht
    -- the field and the comma
    have h1 : ∃ ns o', (ns = [] ∧ f.value = .none ∨ ∃ n x, ns = [n] ∧ itmL env false [n] = [x] ∧ isComma x = false ∧ fieldOf [x] = f.value ∧
        failed [x] = false) ∧
        CGoes sp t ⟨p, ⟨⟨.record, K⟩, up⟩, o⟩ ⟨p + f.text.length, ⟨⟨.record, K ++ ns⟩, up⟩, o'⟩ := by
      rcases goes_field hsp hf K up p _ o ht (stop_cons (Or.inl rfl)) with ⟨rfl, h1⟩ | ⟨h1, h2, n, x, h3, h4, h5, h6, h7⟩
      · exact ⟨[], o, Or.inl ⟨rfl, rfl⟩, by simpa [Field.text] using Goes.refl _⟩
      · exact ⟨[n], true, Or.inr ⟨n, x, rfl, h3, h4, h5, h6⟩, h7⟩
    obtain ⟨ns, o', hns, hg⟩ := h1
    have hd := drop_add ht
    have h2 := step_sep (sp := sp) (K := K ++ ns) (up := up) (o := o') hd
    have hd2 : t.drop (p + f.text.length + 1) = w ++ post := drop_add (w := [44]) hd
    have hsplit : ∀ is, splitItems (itmL env false ns ++ (.tok ⟨p + f.text.length, [44], .separator, none⟩ :: is)) =
        itmL env false ns :: splitItems is := by
      intro is
      have hc : isComma (.tok ⟨p + f.text.length, [44], .separator, none⟩) = true := rfl
      rcases hns with ⟨rfl, _⟩ | ⟨n, x, rfl, h3, h4, _⟩
      · simp [itmL, splitItems, isComma]
      · rw [h3]; simp only [List.cons_append, List.nil_append, splitItems, h4, hc, if_true, Bool.false_eq_true, if_false]
    have hval : fieldOf (itmL env false ns) = f.value := by
      rcases hns with ⟨rfl, h⟩ | ⟨n, x, rfl, h3, _, h5, _⟩
      · rw [h]; rfl
      · rw [h3, h5]
    have hfail : failed (itmL env false ns) = false := by
      rcases hns with ⟨rfl, h⟩ | ⟨n, x, rfl, h3, _, _, h6⟩
      · rfl
      · rw [h3, h6]
    have hlen : p + (f.text ++ [44] ++ w).length = p + f.text.length + 1 + w.length := by
      simp only [List.length_append, List.length_cons, List.length_nil]; omega
    rcases ih (K ++ ns ++ [.tok ⟨p + f.text.length, [44], .separator, none⟩]) up (p + f.text.length + 1) post true hd2 hs with
      ⟨rfl, rfl⟩ | ⟨h3, h4, ns', h5, h6, h7, h8⟩
    · refine ⟨ns ++ [.tok ⟨p + f.text.length, [44], .separator, none⟩], by simp, ?_, ?_, ?_⟩
      · rw [itmL_append]
        show (splitItems (itmL env false ns ++ [.tok _])).map fieldOf = _
        rw [hsplit, List.map_cons, hval]
        rfl
      · rw [itmL_append, failed_append, hfail]; rfl
      · rw [hlen, ← List.append_assoc]
        exact hg.trans h2
    · refine ⟨ns ++ (.tok ⟨p + f.text.length, [44], .separator, none⟩ :: ns'), by simp, ?_, ?_, ?_⟩
      · rw [itmL_append]
        show (splitItems (itmL env false ns ++ (.tok _ :: itmL env false ns'))).map fieldOf = _
        rw [hsplit, List.map_cons, hval, h6]
        rfl
      · rw [itmL_append, failed_append, hfail]
        show failed (itmL env false ns') = false
        exact h7
      · rw [hlen]
        have := (hg.trans h2).trans h8
        simpa [List.append_assoc] using this

/-! ### The table -/

/-- The items of the records. -/
def recItems (rs : List (List Field)) : List Itm := rs.map (fun r => .item .record (.tuple (r.map Field.value)))

theorem goes_table (hsp : sp 10 = true) {rs : List (List Field)} {w : List Nat} (h : Table [10] rs w) :
    ∀ (K : List (Node Nat CL CA)) (p : Nat), t.drop p = w →
    ∃ ns o q, t.length ≤ q ∧ itmL env false ns = recItems (rs.filter (· ≠ [.plain []])) ∧
      CGoes sp t ⟨p, ⟨⟨.root, K⟩, []⟩, true⟩ ⟨q, ⟨⟨.root, K ++ ns⟩, []⟩, o⟩ := by
  induction h with
  | nil =>
    intro K p ht
    exact ⟨[], true, p, List.drop_eq_nil_iff.1 ht, rfl, by simpa using Goes.refl _⟩
  | @last r w hr =>
    intro K p ht
    have ht' : t.drop p = w ++ [] := by simpa using ht
    rcases goes_rec hsp hr [] [⟨.root, K⟩] p [] false ht' (by simp) with ⟨rfl, rfl⟩ | ⟨h1, h2, ns, h3, h4, h5, h6⟩
    · exact ⟨[], true, p, List.drop_eq_nil_iff.1 ht, rfl, by simpa using Goes.refl _⟩
    · have hle := drop_le ht' h2
      have hpos := List.length_pos_iff.2 h2
      have hge : t.length ≤ p + w.length := List.drop_eq_nil_iff.1 (drop_add ht')
      refine ⟨[.ctx .record ns], false, p + w.length, hge, ?_, ?_⟩
      · show [TItm.item CL.record (recordOf (itmL env false ns))] = _
        unfold recordOf
        rw [h5, h4, List.filter_cons_of_pos (by simpa using h1)]
        rfl
      · exact ((step_root (by omega)).trans h6).trans (step_end (by omega) (by simpa using h3))
  | @cons r rs w ws hr _ ih =>
    intro K p ht
    have ht' : t.drop p = w ++ (10 :: ws) := by simpa using ht
    rcases goes_rec hsp hr [] [⟨.root, K⟩] p (10 :: ws) false ht' (by simp) with ⟨rfl, rfl⟩ | ⟨h1, h2, ns, h3, h4, h5, h6⟩
    · obtain ⟨ns', o, q, h7, h8, h9⟩ := ih K (p + 1) (drop_add (w := [10]) ht')
      exact ⟨ns', o, q, h7, by rw [h8, List.filter_cons_of_neg (by simp)], (step_blank ht').trans h9⟩
    · have hle := drop_le ht' h2
      have hpos := List.length_pos_iff.2 h2
      have hd := drop_add ht'
      obtain ⟨ns', o, q, h7, h8, h9⟩ := ih (K ++ [.ctx .record ns]) (p + w.length + 1) (drop_add (w := [10]) hd)
      refine ⟨.ctx .record ns :: ns', o, q, h7, ?_, ?_⟩
      · show TItm.item CL.record (recordOf (itmL env false ns)) :: itmL env false ns' = _
        unfold recordOf
        rw [h5, h4, h8, List.filter_cons_of_pos (by simpa using h1)]
        rfl
      · have := (((step_root (sp := sp) (K := K) (up := []) (by omega)).trans h6).trans (step_eol hd (by simpa using h3))).trans h9
        simpa [List.append_assoc] using this

theorem root_end {s : LState CL RM} {b B : BState Nat CL CA} {q : Nat} {o : Bool} (hB : B.cur.lex = .root) (hq : t.length ≤ q)
    (h : At (lang sp) t ⟨q, B, o⟩ s b) : lexStep (lang sp) t s = none := by
  obtain ⟨h1, h2, _, _⟩ := h
  unfold lexStep
  rw [h1]
  simp only [BState.stack] at h2 ⊢
  rw [h2, hB]
  have : parseNext (lang sp).noAct ((lang sp).ld .root) t (.at q false) = none := by
    show parseNext CA.none (compile CA.none [] (dflt .root)) t (.at q false) = none
    simp only [compile, parseNext, tailTok]
    rw [if_neg (by omega)]
  rw [this]

theorem objs_recs (rs : List (List Field)) : rootOf (recItems rs) = tableValue rs := by
  have h1 : objs (recItems rs) = rs.map fun r => .tuple (r.map Field.value) := by
    induction rs with
    | nil => rfl
    | cons r rs ih =>
      have : objs (recItems (r :: rs)) = .tuple (r.map Field.value) :: objs (recItems rs) := rfl
      rw [this, ih]; rfl
  have h2 : failed (recItems rs) = false := by
    simp [failed, recItems, CV.isError]
  unfold rootOf tableValue
  rw [h2, h1]
  rfl

theorem env_meth (l : CL) : env.meth l ≠ none := by simp [TrEnv.meth, env]

theorem no_raw : NoRaw env := Or.inr env_meth

end Parce.Csv

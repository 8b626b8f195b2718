import Verif.Lemmas.XmlItem
import Verif.Spec.Toml
/-!
# Steps of the lexer in TOML texts

As `Verif.Lemmas.XmlStep`, for the language Toml and for one text, so that what is before a position can be known.
-/
namespace Parce.Toml
open Parce.Json (Uni str)
open Parce.CssL (PBest PFail)
open Parce.Xml (PC shift rel_shift)
variable {u : Uni} {t : List Nat}

/-! ### Views -/

abbrev Itm := BItm Nat TA V TL

def vit : V → Itm
  | .tok w a => .tok w a
  | .ctx l cs => .item l (.ctx l cs)

def unvit : Itm → V
  | .tok w a => .tok w a
  | .item _ v => v

theorem unvit_vit (v : V) : unvit (vit v) = v := by cases v <;> rfl

theorem map_unvit (vs : List V) : (vs.map vit).map unvit = vs := by
  rw [List.map_map]
  conv => rhs; rw [← List.map_id vs]
  congr 1
  funext v
  exact unvit_vit v

/-- What a context becomes. -/
def mk (l : TL) (vs : List V) : V := .ctx l vs

def meths : Meths Nat TL TA V := fun l => some fun is => mk l (is.map unvit)

theorem done_vit (l : TL) (vs : List V) : done meths l (vs.map vit) = [vit (mk l vs)] := by
  simp only [done, meths, map_unvit]
  rfl

mutual
theorem node_its : ∀ n : Node Nat TL TA, its meths [n] = [vit (view n)]
  | .tok t => rfl
  | .ctx l cs => by
    rw [its_ctx, nodes_its cs, done_vit]
    rfl
theorem nodes_its : ∀ ns : List (Node Nat TL TA), its meths ns = (views ns).map vit
  | [] => rfl
  | n :: ns => by
    rw [show n :: ns = [n] ++ ns from rfl, its_append, node_its n, nodes_its ns]
    simp [views]
end

/-! ### Situations -/

abbrev Fr := TL × List V

structure St where
  rest : List Nat
  frames : List Fr
  fresh : Nat
  ok : Bool

def conv (fs : List Fr) : List (TL × List Itm) := fs.map fun f => (f.1, f.2.map vit)

def Go (u : Uni) (t : List Nat) (x y : St) : Prop :=
  ∀ p, t.drop p = x.rest → p ≤ t.length → ∃ q, t.drop q = y.rest ∧ q ≤ t.length ∧
    IGoes (lang u) meths t ⟨p, conv x.frames, x.fresh, x.ok⟩ ⟨q, conv y.frames, y.fresh, y.ok⟩

theorem Go.refl (x : St) : Go u t x x := fun p h1 h2 => ⟨p, h1, h2, .refl _⟩

theorem Go.trans {x y z : St} (h1 : Go u t x y) (h2 : Go u t y z) : Go u t x z := by
  intro p h3 h4
  obtain ⟨q, h5, h6, h7⟩ := h1 p h3 h4
  obtain ⟨r, h8, h9, h10⟩ := h2 q h5 h6
  exact ⟨r, h8, h9, h7.trans h10⟩

/-! ### Matches -/

def pats (u : Uni) (l : TL) : List (Pat Nat) := (rules u l).map (·.pat)

/-- The text of the groups. -/
def texts (w : List Nat) (g : Caps) : List (Nat × List Nat) := g.map fun c => (c.1, slice w c.2.1 c.2.2)

/-- A rule of the lexicon matches the text `w`, when `post` is after it. -/
structure Hits (u : Uni) (t : List Nat) (l : TL) (w post : List Nat) (a : TA) (tg : Option (Target TL)) (g : Caps) : Prop where
  ne : w ≠ []
  hit : ∀ p, t.drop p = w ++ post → ∃ i r, rxMatch (pats u l) t p = some ⟨p, p + w.length, ⟨i, g⟩⟩ ∧ (rules u l)[i]? = some r ∧
    r.out w (texts w g) = (a, tg)

theorem hits_parse {l : TL} {w post : List Nat} {a : TA} {tg : Option (Target TL)} {g : Caps} (h : Hits u t l w post a tg g) {p : Nat}
    (ht : t.drop p = w ++ post) : ∃ m : Mtch RM, m.rest.caps = g ∧ parseNext TA.none ((lang u).ld l) t (.at p false) =
      some (⟨p, w, some m, a, tg⟩, .at (p + w.length) false) := by
  obtain ⟨i, r, h1, h2, h3⟩ := h.hit p ht
  refine ⟨⟨p, p + w.length, ⟨i, g⟩⟩, rfl, ?_⟩
  · have := parse_match (noAct := TA.none) (dl := dflt l) h1 h2
    have hs := slice_here ht
    have hb : (p == p + w.length) = false := by
      have := List.length_pos_iff.2 h.ne
      simp only [beq_eq_false_iff_ne, ne_eq]
      omega
    have hg : groupTexts t ⟨p, p + w.length, ⟨i, g⟩⟩ = texts w g := by
      simp only [groupTexts, texts, hs]
    rw [hs, hb, hg, h3] at this
    exact this

/-- The nodes for a match. -/
def expV (a : TA) (w : List Nat) (g : Caps) : List V :=
  match groups a with
  | some as => (as.zipIdx 1).flatMap fun x => match groupOf g x.2 with
    | none => []
    | some (s, e) => if x.1 == .skip then [] else if slice w s e = [] then [] else [.tok (slice w s e) x.1]
  | none => if a == .skip then [] else [.tok w a]

theorem expand_expV (p : Nat) (w : List Nat) (m : Mtch RM) (a : TA) (tg : Option (Target TL)) :
    (toks ((lang u).expand ⟨p, w, some m, a, tg⟩) : List Itm) = (expV a w m.rest.caps).map vit := by
  unfold lang grpLang expV
  simp only
  cases groups a with
  | none =>
    simp only
    by_cases h : a == TA.skip
    · simp [h, toks]
    · simp [h, toks, vit]
  | some as =>
    simp only [groupLexemes, toks, List.map_flatMap]
    congr 1
    funext x
    simp only [groupLexeme]
    cases groupOf m.rest.caps x.2 with
    | none => rfl
    | some se =>
      obtain ⟨s, e⟩ := se
      simp only
      by_cases h : x.1 == TA.skip
      · simp [h]
      · by_cases h' : slice w s e = []
        · simp [h, h']
        · simp [h, h', vit]

theorem expand_ne {p : Nat} {w : List Nat} {m : Mtch RM} {a : TA} {tg : Option (Target TL)} (h : expV a w m.rest.caps ≠ []) :
    (lang u).expand ⟨p, w, some m, a, tg⟩ ≠ [] := by
  intro he
  have := expand_expV (u := u) p w m a tg
  rw [he] at this
  simp only [toks, List.map_nil] at this
  exact h (List.map_eq_nil_iff.1 this.symm)

/-! ### Steps -/

section
variable {l : TL} {w post : List Nat} {is vs : List V} {fs : List Fr} {n : Nat} {o : Bool} {a : TA} {g : Caps}

theorem conv_cons (l : TL) (is : List V) (fs : List Fr) : conv ((l, is) :: fs) = (l, is.map vit) :: conv fs := rfl

theorem s_toks (h : Hits u t l w post a none g) (hv : expV a w g = vs) (hne : vs ≠ []) :
    Go u t ⟨w ++ post, (l, is) :: fs, n, o⟩ ⟨post, (l, is ++ vs) :: fs, 0, true⟩ := by
  intro p ht hp
  obtain ⟨m, rfl, hm⟩ := hits_parse h ht
  have h1 := i_toks (lang := lang u) (m := meths) (n := n) (is := is.map vit) (fs := conv fs) (o := o) hm rfl h.ne rfl
    (expand_ne (by rw [hv]; exact hne)) rfl
  rw [expand_expV, hv] at h1
  refine ⟨p + w.length, drop_add ht, drop_le ht h.ne, ?_⟩
  simpa [conv_cons] using h1

theorem s_skip (h : Hits u t l w post .skip none g) : Go u t ⟨w ++ post, (l, is) :: fs, n, o⟩ ⟨post, (l, is) :: fs, n, true⟩ := by
  intro p ht hp
  obtain ⟨m, rfl, hm⟩ := hits_parse h ht
  exact ⟨p + w.length, drop_add ht, drop_le ht h.ne, i_skip (lang := lang u) hm rfl h.ne rfl rfl rfl⟩

theorem s_enter {l' : TL} (h : Hits u t l w post a (some ⟨0, [l']⟩) g) (hv : expV a w g = vs) (hne : vs ≠ []) :
    Go u t ⟨w ++ post, (l, is) :: fs, n, o⟩ ⟨post, (l', []) :: (l, is ++ vs) :: fs, 1, true⟩ := by
  intro p ht hp
  obtain ⟨m, rfl, hm⟩ := hits_parse h ht
  have h1 := i_target (lang := lang u) (m := meths) (n := n) (is := is.map vit) (fs := conv fs) (o := o) hm rfl h.ne rfl
    (expand_ne (by rw [hv]; exact hne)) (Nat.zero_le _) rfl
  rw [expand_expV, hv] at h1
  refine ⟨p + w.length, drop_add ht, drop_le ht h.ne, ?_⟩
  simpa [conv_cons, closeN] using h1

theorem s_leave {l0 : TL} {is0 : List V} (h : Hits u t l w post a (some ⟨1, []⟩) g) (hv : expV a w g = vs) (hne : vs ≠ []) :
    Go u t ⟨w ++ post, (l, is) :: (l0, is0) :: fs, n, o⟩ ⟨post, (l0, is0 ++ [mk l (is ++ vs)]) :: fs, 0, true⟩ := by
  intro p ht hp
  obtain ⟨m, rfl, hm⟩ := hits_parse h ht
  have h1 := i_target (lang := lang u) (m := meths) (n := n) (is := is.map vit) (fs := conv ((l0, is0) :: fs)) (o := o) hm rfl h.ne rfl
    (expand_ne (by rw [hv]; exact hne)) (by simp [conv]) rfl
  rw [expand_expV, hv, ← List.map_append] at h1
  refine ⟨p + w.length, drop_add ht, drop_le ht h.ne, ?_⟩
  simp only [closeN, closeF, done_vit, conv_cons, List.reverse_nil, List.reverse_cons, List.map_nil, List.map_cons, List.nil_append,
    List.cons_append] at h1
  simp only [conv_cons, List.map_append, List.map_cons, List.map_nil]
  exact h1

theorem s_switch {l0 l' : TL} {is0 : List V} (h : Hits u t l w post a (some ⟨1, [l']⟩) g) (hv : expV a w g = vs) (hne : vs ≠ []) :
    Go u t ⟨w ++ post, (l, is) :: (l0, is0) :: fs, n, o⟩ ⟨post, (l', []) :: (l0, is0 ++ [mk l (is ++ vs)]) :: fs, 1, true⟩ := by
  intro p ht hp
  obtain ⟨m, rfl, hm⟩ := hits_parse h ht
  have h1 := i_target (lang := lang u) (m := meths) (n := n) (is := is.map vit) (fs := conv ((l0, is0) :: fs)) (o := o) hm rfl h.ne rfl
    (expand_ne (by rw [hv]; exact hne)) (by simp [conv]) rfl
  rw [expand_expV, hv, ← List.map_append] at h1
  refine ⟨p + w.length, drop_add ht, drop_le ht h.ne, ?_⟩
  simp only [closeN, closeF, done_vit, conv_cons, List.reverse_nil, List.reverse_cons, List.map_nil, List.map_cons, List.nil_append,
    List.cons_append] at h1
  simp only [conv_cons, List.map_append, List.map_cons, List.map_nil]
  exact h1

/-- A rule that leaves two contexts. -/
theorem s_leave2 {l0 l1 : TL} {is0 is1 : List V} (h : Hits u t l w post a (some ⟨2, []⟩) g) (hv : expV a w g = vs) (hne : vs ≠ []) :
    Go u t ⟨w ++ post, (l, is) :: (l0, is0) :: (l1, is1) :: fs, n, o⟩
      ⟨post, (l1, is1 ++ [mk l0 (is0 ++ [mk l (is ++ vs)])]) :: fs, 0, true⟩ := by
  intro p ht hp
  obtain ⟨m, rfl, hm⟩ := hits_parse h ht
  have h1 := i_target (lang := lang u) (m := meths) (n := n) (is := is.map vit) (fs := conv ((l0, is0) :: (l1, is1) :: fs)) (o := o) hm rfl h.ne rfl
    (expand_ne (by rw [hv]; exact hne)) (by simp [conv]) rfl
  rw [expand_expV, hv, ← List.map_append] at h1
  refine ⟨p + w.length, drop_add ht, drop_le ht h.ne, ?_⟩
  simp only [closeN, closeF, done_vit, conv_cons, List.reverse_nil, List.reverse_cons, List.map_nil, List.map_cons, List.nil_append,
    List.cons_append] at h1
  have e : is0.map vit ++ [vit (mk l (is ++ vs))] = (is0 ++ [mk l (is ++ vs)]).map vit := by simp
  rw [e] at h1
  simp only [done_vit] at h1
  simp only [conv_cons, List.map_append, List.map_cons, List.map_nil]
  simpa only [List.map_append, List.map_cons, List.map_nil, List.length_nil] using h1

/-- A rule matches here. -/
def Begins (u : Uni) (t : List Nat) (l : TL) (rest : List Nat) : Prop := ∀ p, t.drop p = rest → ∃ m, rxMatch (pats u l) t p = some m

theorem Hits.begins {tg : Option (Target TL)} (h : Hits u t l w post a tg g) : Begins u t l (w ++ post) := by
  intro p ht
  obtain ⟨i, r, h1, _⟩ := h.hit p ht
  exact ⟨_, h1⟩

/-- No rule matches. -/
def Misses (u : Uni) (t : List Nat) (l : TL) (rest : List Nat) : Prop := ∀ p, t.drop p = rest → ¬ Starts (pats u l) t p

theorem rules_ne (l : TL) : rules u l ≠ [] := by
  cases l <;> simp [rules]

theorem plain_expand {f : List Nat → TA} (hg : groups (f w) = none) (hs : f w ≠ .skip) (p : Nat) :
    (lang u).expand ⟨p, w, none, f w, none⟩ = [⟨p, w, f w⟩] := by
  simp [lang, grpLang, hg, hs]

/-- Text with the default action, up to the next match or up to the end. -/
theorem s_text {f : List Nat → TA} (hd : dflt l = .action f) (hg : groups (f w) = none) (hs : f w ≠ .skip) (hw : w ≠ [])
    (hn : ∀ i < w.length, Misses u t l (w.drop i ++ post)) (hp : post = [] ∧ Misses u t l [] ∨ Begins u t l post) :
    Go u t ⟨w ++ post, (l, is) :: fs, n, o⟩ ⟨post, (l, is ++ [.tok w (f w)]) :: fs, 0, true⟩ := by
  intro p ht hpl
  have hlw : 0 < w.length := List.length_pos_iff.2 hw
  simp only at ht
  have hmiss : ∀ i, p ≤ i → i < p + w.length → ¬ Starts (pats u l) t i := by
    intro i h1 h2
    refine hn (i - p) (by omega) i ?_
    rw [show t.drop i = (t.drop p).drop (i - p) by rw [List.drop_drop]; congr 1; omega, ht, List.drop_append_of_le_length (by omega)]
  have hld : (lang u).ld l = .regex (rxSearch (pats u l)) (rxMatch (pats u l)) (ruleOut .none (rules u l)) (.action f) := by
    show compile .none (rules u l) (dflt l) = _
    rw [compile_cons _ _ _ (rules_ne l), hd]
    rfl
  refine ⟨p + w.length, drop_add ht, drop_le ht hw, ?_⟩
  have key : ∃ ps', parseNext TA.none ((lang u).ld l) t (.at p false) = some (⟨p, w, none, f w, none⟩, ps') ∧
      parseNext TA.none ((lang u).ld l) t ps' = parseNext TA.none ((lang u).ld l) t (.at (p + w.length) false) := by
    rcases hp with ⟨rfl, hp⟩ | hp
    · rw [List.append_nil] at ht
      have hlen : p + w.length = t.length := by
        have := congrArg List.length ht
        simp only [List.length_drop] at this
        omega
      have hend := hp t.length (List.drop_length ..)
      have hs1 : rxSearch (pats u l) t p false = none := (C70_none _ _ _).2 (fun i h1 h2 => by
        by_cases h : i < p + w.length
        · exact hmiss i h1 h
        · have : i = t.length := by omega
          subst this
          exact hend)
      have hs2 : rxSearch (pats u l) t t.length false = none := (C70_none _ _ _).2 (fun i h1 h2 => by
        have : i = t.length := by omega
        subst this
        exact hend)
      refine ⟨.stop, ?_, ?_⟩
      · rw [hld]
        have : p < t.length := by omega
        simp only [parseNext, hs1, tailTok, this, if_true, ht]
      · rw [hld]
        simp only [parseNext, hlen, hs2, tailTok, Nat.lt_irrefl, if_false]
    · obtain ⟨m, hm⟩ := hp (p + w.length) (drop_add ht)
      have hst := (rxMatch_some hm).1
      refine ⟨.pend m, ?_, ?_⟩
      · rw [hld]
        simp only [parseNext, search_first (Nat.le_add_right _ _) hmiss hm, hst]
        rw [if_pos (by omega), slice_here ht]
      · rw [hld]
        simp only [parseNext, search_here hm, hst]
        rw [if_neg (by omega)]
  obtain ⟨ps', h1, h2⟩ := key
  have := i_tok (lang := lang u) (m := meths) (n := n) (is := is.map vit) (fs := conv fs) (o := o) (a := f w) h1 rfl hw rfl (plain_expand hg hs p) h2
  simpa [conv_cons, vit] using this

end

/-- Text that no rule takes, in a lexicon that skips it. -/
theorem s_gap {l : TL} {w post : List Nat} {is : List V} {fs : List Fr} {n : Nat} {o : Bool} (hd : dflt l = .skip) (hw : w ≠ [])
    (hn : ∀ i < w.length, Misses u t l (w.drop i ++ post)) (hp : Begins u t l post) :
    Go u t ⟨w ++ post, (l, is) :: fs, n, o⟩ ⟨post, (l, is) :: fs, n, true⟩ := by
  intro p ht hpl
  have hlw : 0 < w.length := List.length_pos_iff.2 hw
  simp only at ht
  have hmiss : ∀ i, p ≤ i → i < p + w.length → ¬ Starts (pats u l) t i := by
    intro i h1 h2
    refine hn (i - p) (by omega) i ?_
    rw [show t.drop i = (t.drop p).drop (i - p) by rw [List.drop_drop]; congr 1; omega, ht, List.drop_append_of_le_length (by omega)]
  have hld : (lang u).ld l = .regex (rxSearch (pats u l)) (rxMatch (pats u l)) (ruleOut .none (rules u l)) .skip := by
    show compile .none (rules u l) (dflt l) = _
    rw [compile_cons _ _ _ (rules_ne l), hd]
    rfl
  refine ⟨p + w.length, drop_add ht, drop_le ht hw, ?_⟩
  obtain ⟨m, hm⟩ := hp (p + w.length) (drop_add ht)
  refine i_gap ?_ (by omega)
  show parseNext _ ((lang u).ld l) _ _ = parseNext _ ((lang u).ld l) _ _
  rw [hld]
  simp only [parseNext, search_first (Nat.le_add_right _ _) hmiss hm, search_here hm]

/-- The default target. -/
theorem s_push {l l' : TL} {c : Nat} {post : List Nat} {is : List V} {fs : List Fr} {n : Nat} (hd : dflt l = .target ⟨0, [l']⟩)
    (hn : Misses u t l (c :: post)) :
    Go u t ⟨c :: post, (l, is) :: fs, n, true⟩ ⟨c :: post, (l', []) :: (l, is) :: fs, n + 1, true⟩ := by
  intro p ht hpl
  simp only at ht
  have hlen : p < t.length := by
    have := congrArg List.length ht
    simp only [List.length_drop, List.length_cons] at this
    omega
  have hm : rxMatch (pats u l) t p = none := (rxMatch_none (by omega)).2 (hn p ht)
  have hld : (lang u).ld l = .regex (rxSearch (pats u l)) (rxMatch (pats u l)) (ruleOut .none (rules u l)) (.target ⟨0, [l']⟩) := by
    show compile .none (rules u l) (dflt l) = _
    rw [compile_cons _ _ _ (rules_ne l), hd]
    rfl
  refine ⟨p, ht, hpl, ?_⟩
  have h : parseNext (lang u).noAct ((lang u).ld l) t (.at p false) = some (⟨p, [], none, TA.none, some ⟨0, [l']⟩⟩, .stop) := by
    rw [hld]
    simp only [parseNext, hm, tailTok, hlen, if_true]
    rfl
  exact i_push (lang := lang u) (m := meths) h rfl rfl rfl

/-- A match of no text that leaves the context. -/
theorem s_pop {l l0 : TL} {post : List Nat} {is is0 : List V} {fs : List Fr} {o : Bool} {a : TA} {i : Nat} {r : TRule}
    (h1 : ∀ p, t.drop p = post → p ≤ t.length → rxMatch (pats u l) t p = some ⟨p, p, ⟨i, []⟩⟩) (h2 : (rules u l)[i]? = some r)
    (h3 : r.out [] [] = (a, some ⟨1, []⟩)) :
    Go u t ⟨post, (l, is) :: (l0, is0) :: fs, 0, o⟩ ⟨post, (l0, is0 ++ [mk l is]) :: fs, 0, false⟩ := by
  intro p ht hpl
  refine ⟨p, ht, hpl, ?_⟩
  have := parse_match (noAct := TA.none) (dl := dflt l) (h1 p ht hpl) h2
  have hs : slice t p p = [] := by simp [slice]
  rw [hs] at this
  simp only [groupTexts, List.map_nil, h3] at this
  have h := i_pop (lang := lang u) (m := meths) (p := p) (l := l) (is := is.map vit) (f := (l0, is0.map vit)) (fs := conv fs) (o := o) this rfl rfl rfl
  rw [done_vit] at h
  simpa [conv_cons] using h

/-! ### Which rules may match -/

/-- For ASCII. -/
def uni0 : Uni := CssL.uni0

theorem leads_ascii (hu : u.Ascii) {c : Nat} (hc : c < 128) (l : TL) : leads (rules u l) (some c) = leads (rules uni0 l) (some c) := by
  have h1 := hu.digit c hc
  have h2 := hu.space c hc
  have h3 := hu.word c hc
  cases l <;> simp only [leads, rules, keys, values, closeRule, rule, datePat, partialTimePat, offsetPat, timePat, dateTimePat, digitPat, radixPat,
    digitsPat, decPat, dotPat, openPat, escapePat, badEscapePat, endPat, openEndPat, blanks, oneOf,
    List.map_cons, List.map_nil, List.cons_append, List.nil_append, chr, Ini.emailPat, Ini.urlPat, Ini.alertPat, Ini.wordOr,
    Pat.opt, Pat.plus, Pat.times, Pat.bound, Pat.alts,
    Pat.can, Pat.fst, Pat.nul, Option.map_some, Option.getD_some, h1, h2, h3, uni0, CssL.uni0]

/-- Before the rule `i`, only the rules in `ex` may match text that starts with this character. -/
def onlyAt (l : TL) (i : Nat) (ex : List Nat) (c : Nat) : Bool :=
  ((leads (rules uni0 l) (some c)).take i).zipIdx.all (fun x => !x.1 || ex.contains x.2)

theorem hits (hu : u.Ascii) (i : Nat) (ex : List Nat) {l : TL} {c : Nat} {w post : List Nat} {r : TRule} {a : TA} {tg : Option (Target TL)} {g : Caps}
    (hr : (rules u l)[i]? = some r) (hout : r.out (c :: w) (texts (c :: w) g) = (a, tg)) (hc : c < 128) (hl : onlyAt l i ex c = true)
    (hx : ∀ j ∈ ex, ∀ r, (rules u l)[j]? = some r → PFail r.pat (c :: w ++ post)) (hb : PC r.pat (c :: w) post g) :
    Hits u t l (c :: w) post a tg g := by
  refine ⟨by simp, fun p ht => ⟨i, r, ?_, hr, hout⟩⟩
  have hg : t[p]? = some c := drop_get ht
  have hp := (List.getElem?_eq_some_iff.1 hg).1
  have := match_rule (g := shift p g) hr (leads_fail' ex ?_ (fun j hj r hr => hx j hj r hr t p ht)) (hb t p ht) (by omega)
  · rwa [rel_shift] at this
  · rw [hg, leads_ascii hu hc]
    exact hl

theorem misses (hu : u.Ascii) (ex : List Nat) {l : TL} {c : Nat} {post : List Nat} (hc : c < 128) (hl : onlyAt l (rules u l).length ex c = true)
    (hx : ∀ j ∈ ex, ∀ r, (rules u l)[j]? = some r → PFail r.pat (c :: post)) : Misses u t l (c :: post) := by
  rintro p ht ⟨a, ha, q, hq⟩
  obtain ⟨r, hr, rfl⟩ := List.mem_map.1 ha
  have hg : t[p]? = some c := drop_get ht
  refine leads_fail' (i := (rules u l).length) ex ?_ (fun j hj r hr => hx j hj r hr t p ht) r (by rwa [List.take_length]) q hq
  rw [hg, leads_ascii hu hc]
  exact hl

end Parce.Toml

import Verif.Lemmas.CssPat
import Verif.Spec.Xml
/-!
# Steps of the lexer in XML texts

As `Verif.Lemmas.CssStep`, but with groups in the expressions, and with the views of the nodes in the open contexts.
-/
namespace Parce
variable {α L A R ρ : Type} [DecidableEq α] {lang : Lang α L A ρ} {m : Meths α L A R} {t : List α}

/-- Tokens, without a target. -/
theorem fgoes_toks {p n : Nat} {B : BState α L A} {c : List (Nat × Nat × Nat)} {tok : Tok α L A ρ} {ps' : PS ρ}
    (h : parseNext lang.noAct (lang.ld B.cur.lex) t (.at p false) = some (tok, ps')) (ht : tok.text ≠ []) (hg : tok.tgt = none)
    (he : lang.expand tok ≠ [])
    (hf : parseNext lang.noAct (lang.ld B.cur.lex) t ps' =
      parseNext lang.noAct (lang.ld B.cur.lex) t (.at (tok.pos + tok.text.length) false)) :
    FGoes lang t ⟨p, B, n, c⟩ ⟨tok.pos + tok.text.length, B.putToks (lang.expand tok), 0, c⟩ := by
  intro s b hat
  obtain ⟨h1, h2, h3, h4, h5⟩ := hat
  obtain ⟨l, ls, hl⟩ := List.exists_cons_of_ne_nil he
  have hstep : lexStep lang t s = some ({ s with fac := s.fac.get.2, ps := ps' }, [⟨s.fac.get.1, lang.expand tok⟩]) := by
    unfold lexStep
    rw [h1]
    simp only [BState.stack]
    simp only at h2
    rw [h2, h]
    simp [hg, ht, emit, hl]
  refine ⟨1, _, by rw [lexRun_one hstep], ?_⟩
  rw [lexRun_one hstep]
  refine ⟨h1, hf, h3, ?_, by rw [get_snd]; rfl⟩
  simp only [get_snd, init_get, List.foldl_cons, List.foldl_nil, BState.event]
  simp only at h4
  rw [h4]
  rfl

theorem i_toks {p n : Nat} {l : L} {is : List (BItm α A R L)} {fs : List (L × List (BItm α A R L))} {o : Bool} {tok : Tok α L A ρ} {ps' : PS ρ}
    (h : parseNext lang.noAct (lang.ld l) t (.at p false) = some (tok, ps')) (hp : tok.pos = p) (ht : tok.text ≠ []) (hg : tok.tgt = none)
    (he : lang.expand tok ≠ [])
    (hf : parseNext lang.noAct (lang.ld l) t ps' = parseNext lang.noAct (lang.ld l) t (.at (p + tok.text.length) false)) :
    IGoes lang m t ⟨p, (l, is) :: fs, n, o⟩ ⟨p + tok.text.length, (l, is ++ toks (lang.expand tok)) :: fs, 0, true⟩ := by
  intro B c h1 h2
  have hl := frs_cur h1
  subst hl hp
  have := List.length_pos_iff.2 ht
  exact ⟨_, c, frs_putToks m B _ h1, cok_later h2 (by simp only; omega), fgoes_toks h ht hg he hf⟩

end Parce

namespace Parce.Xml
open Parce.Json (Uni str)
open Parce.CssL (PBest PFail)
variable {u : Uni}

/-! ### Expressions with groups -/

def shift (k : Nat) (g : Caps) : Caps := g.map fun x => (x.1, x.2.1 + k, x.2.2 + k)

/-- The expression takes `w`, with these groups. -/
def PC (a : Pat Nat) (w post : List Nat) (g : Caps) : Prop := ∀ t p, t.drop p = w ++ post → BestC t a p (p + w.length) (shift p g)

theorem rel_shift (p : Nat) (g : Caps) : Caps.rel p (shift p g) = g := by
  induction g with
  | nil => rfl
  | cons x g ih =>
    obtain ⟨i, s, e⟩ := x
    simp only [shift, Caps.rel, List.map_cons, Nat.add_sub_cancel, List.cons.injEq, true_and] at ih ⊢
    exact ih

theorem shift_shift (p k : Nat) (g : Caps) : shift p (shift k g) = shift (p + k) g := by
  simp only [shift, List.map_map]
  congr 1
  funext x
  simp only [Function.comp, Prod.mk.injEq, true_and]
  omega

theorem PC.of {a : Pat Nat} {w post : List Nat} (h : PBest a w post) : PC a w post [] := fun t p ht => (h t p ht).toC

theorem PC.grp {a : Pat Nat} {w post : List Nat} (i : Nat) (h : PBest a w post) : PC (.grp i a) w post [(i, 0, w.length)] := by
  intro t p ht
  have := (h t p ht).grp i
  simpa [shift, Nat.add_comm] using this

theorem PC.cat {a b : Pat Nat} {v w post : List Nat} {g g' : Caps} (h1 : PC a v (w ++ post) g) (h2 : PC b w post g') :
    PC (.cat a b) (v ++ w) post (shift v.length g' ++ g) := by
  intro t p ht
  rw [List.append_assoc] at ht
  have := (h1 t p ht).cat (h2 t (p + v.length) (drop_add ht))
  rw [List.length_append, ← Nat.add_assoc]
  have e : shift p (shift v.length g' ++ g) = shift (p + v.length) g' ++ shift p g := by
    rw [← shift_shift]; simp [shift]
  rw [e]
  exact this

theorem PC.opt {a : Pat Nat} {w post : List Nat} {g : Caps} (h : PC a w post g) : PC a.opt w post g := by
  intro t p ht c
  obtain ⟨r, hr⟩ := h t p ht c
  exact ⟨r ++ [(p, c)], by simp only [Pat.opt, Pat.run, hr, List.cons_append]⟩

theorem pc_none {a : Pat Nat} {post : List Nat} (h : PFail a post) : PC a.opt [] post [] := .of (CssL.pbest_none h)

/-- `[...]*?` takes what it must. -/
theorem pc_lazy {f : Nat → Bool} {b : Pat Nat} {w post : List Nat} {g : Caps} (hb : PC b w post g) :
    ∀ (v : List Nat), (∀ c ∈ v, f c = true) → (∀ i < v.length, PFail b (v.drop i ++ (w ++ post))) →
    PC (.cat (.lazy (.set f)) b) (v ++ w) post (shift v.length g) := by
  suffices h : ∀ (v : List Nat) (t : List Nat) (fuel p : Nat) (c : Caps), t.drop p = v ++ (w ++ post) → v.length ≤ fuel → (∀ c ∈ v, f c = true) →
      (∀ i < v.length, PFail b (v.drop i ++ (w ++ post))) →
      ∃ r, (lazyRun ((Pat.set f).run t) fuel p c).flatMap (fun r => b.run t r.1 r.2) = (p + v.length + w.length, shift (p + v.length) g ++ c) :: r by
    intro v h1 h2 t p ht c
    rw [List.append_assoc] at ht
    have hl := congrArg List.length ht
    simp only [List.length_drop, List.length_append] at hl
    obtain ⟨r, hr⟩ := h v t (t.length - p) p c ht (by omega) h1 h2
    refine ⟨r, ?_⟩
    simp only [Pat.run] at hr ⊢
    rw [hr, shift_shift, List.length_append, Nat.add_assoc]
  intro v t
  induction v with
  | nil =>
    intro fuel p c ht hf h1 h2
    obtain ⟨r, hr⟩ := hb t p ht c
    have : ∃ x, lazyRun ((Pat.set f).run t) fuel p c = (p, c) :: x := by
      cases fuel with
      | zero => exact ⟨[], rfl⟩
      | succ n => exact ⟨_, rfl⟩
    obtain ⟨x, hx⟩ := this
    rw [hx, List.flatMap_cons]
    simp only [List.length_nil, Nat.add_zero]
    rw [hr]
    exact ⟨_, rfl⟩
  | cons x v ih =>
    intro fuel p c ht hf h1 h2
    cases fuel with
    | zero => simp at hf
    | succ n =>
      have hx := drop_get ht
      have hd : t.drop (p + 1) = v ++ (w ++ post) := by rw [← List.drop_drop, ht]; rfl
      have h0 : b.run t p c = [] := (h2 0 (by simp) t p ht).run c
      obtain ⟨r, hr⟩ := ih n (p + 1) c hd (by simpa using hf) (fun y hy => h1 y (by simp [hy])) (fun i hi => h2 (i + 1) (by simpa using hi))
      refine ⟨r, ?_⟩
      simp only [lazyRun, List.flatMap_cons, h0, List.nil_append]
      have hs : (Pat.set f).run t p c = [(p + 1, c)] := by simp [Pat.run, hx, h1 x (by simp)]
      rw [hs]
      simp only [List.flatMap_cons, List.flatMap_nil, List.append_nil, Nat.lt_add_one, if_true]
      rw [hr]
      simp only [List.length_cons, Nat.add_assoc, Nat.add_comm 1, Nat.add_left_comm]

/-- White space, and then something that is not there. -/
theorem pfail_run {f : Nat → Bool} {a b : Pat Nat} {v post : List Nat} (ha : a = .star (.set f) ∨ a = .lazy (.set f))
    (h1 : ∀ c, post.head? = some c → f c = false) (h2 : ∀ i ≤ v.length, PFail b (v.drop i ++ post)) : PFail (.cat a b) (v ++ post) := by
  rintro t p ht q ⟨r, h3, h4⟩
  have h3' : Relation.ReflTransGen ((Pat.set f).mat t) p r := by
    rcases ha with rfl | rfl <;> exact h3
  have h5 := Ini.rtg_avoids (P := fun j => ∃ c, t[j]? = some c ∧ f c = true) (R := (Pat.set f).mat t) (by
    rintro a b ⟨rfl, x, hx, hx'⟩ j hj1 hj2
    have : j = a := by omega
    subst this
    exact ⟨x, hx, hx'⟩) h3'
  have hpr : p ≤ r := (mat_bounds t _ _ _ h3).1
  have hle : r ≤ p + v.length := by
    by_cases h : r ≤ p + v.length
    · exact h
    · obtain ⟨c, hc, hc'⟩ := h5 (p + v.length) (by omega) (by omega)
      have hd := drop_add ht
      rw [drop_head hd] at hc
      rw [h1 c hc] at hc'
      cases hc'
  refine h2 (r - p) (by omega) t r ?_ q h4
  rw [show t.drop r = (t.drop p).drop (r - p) by rw [List.drop_drop]; congr 1; omega, ht, List.drop_append_of_le_length (by omega)]

/-! ### Views -/

abbrev Itm := BItm Nat XA V XL

mutual
def vtext : V → List Nat
  | .tok w _ => w
  | .comment w => w
  | .ctx _ cs => vtexts cs
def vtexts : List V → List Nat
  | [] => []
  | v :: vs => vtext v ++ vtexts vs
end

/-- What a context becomes. -/
def mk (l : XL) (vs : List V) : V := if l = .comment then .comment (vs.flatMap vtext) else .ctx l vs

def vit : V → Itm
  | .tok w a => .tok w a
  | .ctx l cs => .item l (.ctx l cs)
  | .comment w => .item .comment (.comment w)

def unvit : Itm → V
  | .tok w a => .tok w a
  | .item _ v => v

theorem unvit_vit (v : V) : unvit (vit v) = v := by cases v <;> rfl

theorem map_unvit (vs : List V) : (vs.map vit).map unvit = vs := by
  rw [List.map_map]
  conv => rhs; rw [← List.map_id vs]
  congr 1
  funext v
  exact unvit_vit v

def meths : Meths Nat XL XA V := fun l => some fun is => mk l (is.map unvit)

theorem done_vit (l : XL) (vs : List V) : done meths l (vs.map vit) = [vit (mk l vs)] := by
  simp only [done, meths, map_unvit]
  by_cases h : l = .comment
  · subst h; rfl
  · simp [mk, h, vit]

theorem vtexts_flat (vs : List V) : vtexts vs = vs.flatMap vtext := by
  induction vs with
  | nil => rfl
  | cons v vs ih => simp [vtexts, ih]

theorem its_tok (t : TokN Nat XA) : its meths [.tok t] = [.tok t.text t.act] := rfl

mutual
theorem node_text : ∀ n : Node Nat XL XA, vtext (view n) = nodeText n
  | .tok t => by simp [view, vtext, nodeText]
  | .ctx l cs => by
    simp only [view, nodeText]
    split
    · rfl
    · simp [vtext, nodes_text cs]
theorem nodes_text : ∀ ns : List (Node Nat XL XA), vtexts (views ns) = nodesText ns
  | [] => rfl
  | n :: ns => by simp [views, nodesText, vtexts, node_text n, nodes_text ns]
end

mutual
theorem node_its : ∀ n : Node Nat XL XA, its meths [n] = [vit (view n)]
  | .tok t => by simp [its_tok, view, vit]
  | .ctx l cs => by
    rw [its_ctx, nodes_its cs, done_vit]
    simp only [view, mk]
    split
    · rw [← vtexts_flat, nodes_text]
    · rfl
theorem nodes_its : ∀ ns : List (Node Nat XL XA), its meths ns = (views ns).map vit
  | [] => rfl
  | n :: ns => by
    rw [show n :: ns = [n] ++ ns from rfl, its_append, node_its n, nodes_its ns]
    simp [views]
end

/-! ### Situations -/

abbrev Fr := XL × List V

structure St where
  rest : List Nat
  frames : List Fr
  fresh : Nat
  ok : Bool

def conv (fs : List Fr) : List (XL × List Itm) := fs.map fun f => (f.1, f.2.map vit)

def Go (u : Uni) (x y : St) : Prop :=
  ∀ t p, t.drop p = x.rest → p ≤ t.length → ∃ q, t.drop q = y.rest ∧ q ≤ t.length ∧
    IGoes (lang u) meths t ⟨p, conv x.frames, x.fresh, x.ok⟩ ⟨q, conv y.frames, y.fresh, y.ok⟩

theorem Go.refl (x : St) : Go u x x := fun _ p h1 h2 => ⟨p, h1, h2, .refl _⟩

theorem Go.trans {x y z : St} (h1 : Go u x y) (h2 : Go u y z) : Go u x z := by
  intro t p h3 h4
  obtain ⟨q, h5, h6, h7⟩ := h1 t p h3 h4
  obtain ⟨r, h8, h9, h10⟩ := h2 t q h5 h6
  exact ⟨r, h8, h9, h7.trans h10⟩

/-! ### Matches -/

def pats (u : Uni) (l : XL) : List (Pat Nat) := (rules u l).map (·.pat)

/-- The text of the groups. -/
def texts (w : List Nat) (g : Caps) : List (Nat × List Nat) := g.map fun c => (c.1, slice w c.2.1 c.2.2)

/-- A rule of the lexicon matches the text `w`, when `post` is after it. -/
structure Hits (u : Uni) (l : XL) (w post : List Nat) (a : XA) (tg : Option (Target XL)) (g : Caps) : Prop where
  ne : w ≠ []
  hit : ∀ t p, t.drop p = w ++ post → ∃ i r, rxMatch (pats u l) t p = some ⟨p, p + w.length, ⟨i, g⟩⟩ ∧ (rules u l)[i]? = some r ∧
    r.out w (texts w g) = (a, tg)

theorem hits_parse {l : XL} {w post : List Nat} {a : XA} {tg : Option (Target XL)} {g : Caps} (h : Hits u l w post a tg g) {t : List Nat} {p : Nat}
    (ht : t.drop p = w ++ post) : ∃ m : Mtch RM, m.rest.caps = g ∧ parseNext XA.none ((lang u).ld l) t (.at p false) =
      some (⟨p, w, some m, a, tg⟩, .at (p + w.length) false) := by
  obtain ⟨i, r, h1, h2, h3⟩ := h.hit t p ht
  refine ⟨⟨p, p + w.length, ⟨i, g⟩⟩, rfl, ?_⟩
  · have := parse_match (noAct := XA.none) (dl := dflt u l) h1 h2
    have hs := slice_here ht
    have hb : (p == p + w.length) = false := by
      have := List.length_pos_iff.2 h.ne
      simp only [beq_eq_false_iff_ne, ne_eq]
      omega
    have hg : groupTexts t ⟨p, p + w.length, ⟨i, g⟩⟩ = texts w g := by
      simp only [groupTexts, texts, hs]
    rw [hs, hb, hg, h3] at this
    exact this

/-- The nodes for a match. -/
def expV (a : XA) (w : List Nat) (g : Caps) : List V :=
  match groups a with
  | some as => (as.zipIdx 1).flatMap fun x => match groupOf g x.2 with
    | none => []
    | some (s, e) => if x.1 == .skip then [] else if slice w s e = [] then [] else [.tok (slice w s e) x.1]
  | none => if a == .skip then [] else [.tok w a]

theorem expand_expV (p : Nat) (w : List Nat) (m : Mtch RM) (a : XA) (tg : Option (Target XL)) :
    (toks ((lang u).expand ⟨p, w, some m, a, tg⟩) : List Itm) = (expV a w m.rest.caps).map vit := by
  unfold lang grpLang expV
  simp only
  cases groups a with
  | none =>
    simp only
    by_cases h : a == XA.skip
    · simp [h, toks]
    · simp [h, toks, vit]
  | some as =>
    simp only [groupLexemes, toks, List.map_flatMap]
    congr 1
    funext x
    simp only [groupLexeme]
    cases groupOf m.rest.caps x.2 with
    | none => rfl
    | some se =>
      obtain ⟨s, e⟩ := se
      simp only
      by_cases h : x.1 == XA.skip
      · simp [h]
      · by_cases h' : slice w s e = []
        · simp [h, h']
        · simp [h, h', vit]

theorem expand_ne {p : Nat} {w : List Nat} {m : Mtch RM} {a : XA} {tg : Option (Target XL)} (h : expV a w m.rest.caps ≠ []) :
    (lang u).expand ⟨p, w, some m, a, tg⟩ ≠ [] := by
  intro he
  have := expand_expV (u := u) p w m a tg
  rw [he] at this
  simp only [toks, List.map_nil] at this
  exact h (List.map_eq_nil_iff.1 this.symm)

/-! ### Steps -/

section
variable {l : XL} {w post : List Nat} {is vs : List V} {fs : List Fr} {n : Nat} {o : Bool} {a : XA} {g : Caps}

theorem conv_cons (l : XL) (is : List V) (fs : List Fr) : conv ((l, is) :: fs) = (l, is.map vit) :: conv fs := rfl

theorem s_toks (h : Hits u l w post a none g) (hv : expV a w g = vs) (hne : vs ≠ []) :
    Go u ⟨w ++ post, (l, is) :: fs, n, o⟩ ⟨post, (l, is ++ vs) :: fs, 0, true⟩ := by
  intro t p ht hp
  obtain ⟨m, rfl, hm⟩ := hits_parse h ht
  have h1 := i_toks (lang := lang u) (m := meths) (n := n) (is := is.map vit) (fs := conv fs) (o := o) hm rfl h.ne rfl
    (expand_ne (by rw [hv]; exact hne)) rfl
  rw [expand_expV, hv] at h1
  refine ⟨p + w.length, drop_add ht, drop_le ht h.ne, ?_⟩
  simpa [conv_cons] using h1

theorem s_skip (h : Hits u l w post .skip none g) : Go u ⟨w ++ post, (l, is) :: fs, n, o⟩ ⟨post, (l, is) :: fs, n, true⟩ := by
  intro t p ht hp
  obtain ⟨m, rfl, hm⟩ := hits_parse h ht
  exact ⟨p + w.length, drop_add ht, drop_le ht h.ne, i_skip (lang := lang u) hm rfl h.ne rfl rfl rfl⟩

theorem s_enter {l' : XL} (h : Hits u l w post a (some ⟨0, [l']⟩) g) (hv : expV a w g = vs) (hne : vs ≠ []) :
    Go u ⟨w ++ post, (l, is) :: fs, n, o⟩ ⟨post, (l', []) :: (l, is ++ vs) :: fs, 1, true⟩ := by
  intro t p ht hp
  obtain ⟨m, rfl, hm⟩ := hits_parse h ht
  have h1 := i_target (lang := lang u) (m := meths) (n := n) (is := is.map vit) (fs := conv fs) (o := o) hm rfl h.ne rfl
    (expand_ne (by rw [hv]; exact hne)) (Nat.zero_le _) rfl
  rw [expand_expV, hv] at h1
  refine ⟨p + w.length, drop_add ht, drop_le ht h.ne, ?_⟩
  simpa [conv_cons, closeN] using h1

theorem s_leave {l0 : XL} {is0 : List V} (h : Hits u l w post a (some ⟨1, []⟩) g) (hv : expV a w g = vs) (hne : vs ≠ []) :
    Go u ⟨w ++ post, (l, is) :: (l0, is0) :: fs, n, o⟩ ⟨post, (l0, is0 ++ [mk l (is ++ vs)]) :: fs, 0, true⟩ := by
  intro t p ht hp
  obtain ⟨m, rfl, hm⟩ := hits_parse h ht
  have h1 := i_target (lang := lang u) (m := meths) (n := n) (is := is.map vit) (fs := conv ((l0, is0) :: fs)) (o := o) hm rfl h.ne rfl
    (expand_ne (by rw [hv]; exact hne)) (by simp [conv]) rfl
  rw [expand_expV, hv, ← List.map_append] at h1
  refine ⟨p + w.length, drop_add ht, drop_le ht h.ne, ?_⟩
  simp only [closeN, closeF, done_vit, conv_cons, List.reverse_nil, List.reverse_cons, List.map_nil, List.map_cons, List.nil_append,
    List.cons_append] at h1
  simp only [conv_cons, List.map_append, List.map_cons, List.map_nil]
  exact h1

theorem s_switch {l0 l' : XL} {is0 : List V} (h : Hits u l w post a (some ⟨1, [l']⟩) g) (hv : expV a w g = vs) (hne : vs ≠ []) :
    Go u ⟨w ++ post, (l, is) :: (l0, is0) :: fs, n, o⟩ ⟨post, (l', []) :: (l0, is0 ++ [mk l (is ++ vs)]) :: fs, 1, true⟩ := by
  intro t p ht hp
  obtain ⟨m, rfl, hm⟩ := hits_parse h ht
  have h1 := i_target (lang := lang u) (m := meths) (n := n) (is := is.map vit) (fs := conv ((l0, is0) :: fs)) (o := o) hm rfl h.ne rfl
    (expand_ne (by rw [hv]; exact hne)) (by simp [conv]) rfl
  rw [expand_expV, hv, ← List.map_append] at h1
  refine ⟨p + w.length, drop_add ht, drop_le ht h.ne, ?_⟩
  simp only [closeN, closeF, done_vit, conv_cons, List.reverse_nil, List.reverse_cons, List.map_nil, List.map_cons, List.nil_append,
    List.cons_append] at h1
  simp only [conv_cons, List.map_append, List.map_cons, List.map_nil]
  exact h1

/-- A rule matches here. -/
def Begins (u : Uni) (l : XL) (rest : List Nat) : Prop := ∀ t p, t.drop p = rest → ∃ m, rxMatch (pats u l) t p = some m

theorem Hits.begins {tg : Option (Target XL)} (h : Hits u l w post a tg g) : Begins u l (w ++ post) := by
  intro t p ht
  obtain ⟨i, r, h1, _⟩ := h.hit t p ht
  exact ⟨_, h1⟩

/-- No rule matches. -/
def Misses (u : Uni) (l : XL) (rest : List Nat) : Prop := ∀ t p, t.drop p = rest → ¬ Starts (pats u l) t p

theorem rules_ne (l : XL) : rules u l ≠ [] := by
  cases l <;> simp [rules, contentRules]

theorem plain_expand {f : List Nat → XA} (hg : groups (f w) = none) (hs : f w ≠ .skip) (p : Nat) :
    (lang u).expand ⟨p, w, none, f w, none⟩ = [⟨p, w, f w⟩] := by
  simp [lang, grpLang, hg, hs]

/-- Text with the default action, up to the next match or up to the end. -/
theorem s_text {f : List Nat → XA} (hd : dflt u l = .action f) (hg : groups (f w) = none) (hs : f w ≠ .skip) (hw : w ≠ [])
    (hn : ∀ i < w.length, Misses u l (w.drop i ++ post)) (hp : post = [] ∧ Misses u l [] ∨ Begins u l post) :
    Go u ⟨w ++ post, (l, is) :: fs, n, o⟩ ⟨post, (l, is ++ [.tok w (f w)]) :: fs, 0, true⟩ := by
  intro t p ht hpl
  have hlw : 0 < w.length := List.length_pos_iff.2 hw
  simp only at ht
  have hmiss : ∀ i, p ≤ i → i < p + w.length → ¬ Starts (pats u l) t i := by
    intro i h1 h2
    refine hn (i - p) (by omega) t i ?_
    rw [show t.drop i = (t.drop p).drop (i - p) by rw [List.drop_drop]; congr 1; omega, ht, List.drop_append_of_le_length (by omega)]
  have hld : (lang u).ld l = .regex (rxSearch (pats u l)) (rxMatch (pats u l)) (ruleOut .none (rules u l)) (.action f) := by
    show compile .none (rules u l) (dflt u l) = _
    rw [compile_cons _ _ _ (rules_ne l), hd]
    rfl
  refine ⟨p + w.length, drop_add ht, drop_le ht hw, ?_⟩
  have key : ∃ ps', parseNext XA.none ((lang u).ld l) t (.at p false) = some (⟨p, w, none, f w, none⟩, ps') ∧
      parseNext XA.none ((lang u).ld l) t ps' = parseNext XA.none ((lang u).ld l) t (.at (p + w.length) false) := by
    rcases hp with ⟨rfl, hp⟩ | hp
    · rw [List.append_nil] at ht
      have hlen : p + w.length = t.length := by
        have := congrArg List.length ht
        simp only [List.length_drop] at this
        omega
      have hend := hp t t.length (List.drop_length ..)
      have hs1 : rxSearch (pats u l) t p false = none := (C70_none _ _ _).2 (fun i h1 h2 => by
        by_cases h : i < p + w.length
        · exact hmiss i h1 h
        · have : i = t.length := by omega
          subst this
          exact hend)
      have hs2 : rxSearch (pats u l) t t.length false = none := (C70_none _ _ _).2 (fun i h1 h2 => by
        have : i = t.length := by omega
        subst this
        exact hend)
      refine ⟨.stop, ?_, ?_⟩
      · rw [hld]
        have : p < t.length := by omega
        simp only [parseNext, hs1, tailTok, this, if_true, ht]
      · rw [hld]
        simp only [parseNext, hlen, hs2, tailTok, Nat.lt_irrefl, if_false]
    · obtain ⟨m, hm⟩ := hp t (p + w.length) (drop_add ht)
      have hst := (rxMatch_some hm).1
      refine ⟨.pend m, ?_, ?_⟩
      · rw [hld]
        simp only [parseNext, search_first (Nat.le_add_right _ _) hmiss hm, hst]
        rw [if_pos (by omega), slice_here ht]
      · rw [hld]
        simp only [parseNext, search_here hm, hst]
        rw [if_neg (by omega)]
  obtain ⟨ps', h1, h2⟩ := key
  have := i_tok (lang := lang u) (m := meths) (n := n) (is := is.map vit) (fs := conv fs) (o := o) (a := f w) h1 rfl hw rfl (plain_expand hg hs p) h2
  simpa [conv_cons, vit] using this

end

/-! ### Which rules may match -/

/-- For ASCII. -/
def uni0 : Uni := CssL.uni0

theorem leads_ascii (hu : u.Ascii) {c : Nat} (hc : c < 128) (l : XL) : leads (rules u l) (some c) = leads (rules uni0 l) (some c) := by
  have h1 := hu.digit c hc
  have h2 := hu.space c hc
  have h3 := hu.word c hc
  cases l <;> simp only [leads, rules, contentRules, stringRules, rule,
    List.map_cons, List.map_nil, List.cons_append, List.nil_append,
    cdataPat, doctypePat, ppPat, closePat, openPat, refPat, piAttrPat, namePat, spaces, spacesLazy, chr, Ini.emailPat, Ini.urlPat, Ini.alertPat, Ini.wordOr,
    Pat.opt, Pat.plus, Pat.times, Pat.bound, Pat.alts,
    Pat.can, Pat.fst, Pat.nul, Option.map_some, Option.getD_some, h1, h2, h3, uni0, CssL.uni0]

/-- Before the rule `i`, only the rules in `ex` may match text that starts with this character. -/
def onlyAt (l : XL) (i : Nat) (ex : List Nat) (c : Nat) : Bool :=
  ((leads (rules uni0 l) (some c)).take i).zipIdx.all (fun x => !x.1 || ex.contains x.2)

theorem hits (hu : u.Ascii) (i : Nat) (ex : List Nat) {l : XL} {c : Nat} {w post : List Nat} {r : XRule} {a : XA} {tg : Option (Target XL)} {g : Caps}
    (hr : (rules u l)[i]? = some r) (hout : r.out (c :: w) (texts (c :: w) g) = (a, tg)) (hc : c < 128) (hl : onlyAt l i ex c = true)
    (hx : ∀ j ∈ ex, ∀ r, (rules u l)[j]? = some r → PFail r.pat (c :: w ++ post)) (hb : PC r.pat (c :: w) post g) :
    Hits u l (c :: w) post a tg g := by
  refine ⟨by simp, fun t p ht => ⟨i, r, ?_, hr, hout⟩⟩
  have hg : t[p]? = some c := drop_get ht
  have hp := (List.getElem?_eq_some_iff.1 hg).1
  have := match_rule (g := shift p g) hr (leads_fail' ex ?_ (fun j hj r hr => hx j hj r hr t p ht)) (hb t p ht) (by omega)
  · rwa [rel_shift] at this
  · rw [hg, leads_ascii hu hc]
    exact hl

/-- The first rule matches. -/
theorem hits_first {l : XL} {w post : List Nat} {r : XRule} {a : XA} {tg : Option (Target XL)} {g : Caps} (hw : w ≠ [])
    (hr : (rules u l)[0]? = some r) (hout : r.out w (texts w g) = (a, tg)) (hb : PC r.pat w post g) : Hits u l w post a tg g := by
  refine ⟨hw, fun t p ht => ⟨0, r, ?_, hr, hout⟩⟩
  have hp : p ≤ t.length := by
    have := drop_le ht hw
    omega
  have := match_rule (g := shift p g) hr (by simp) (hb t p ht) hp
  rwa [rel_shift] at this

theorem misses_of {l : XL} {rest : List Nat} (h : ∀ r ∈ rules u l, r.pat.can rest.head? = false) : Misses u l rest := by
  rintro t p ht ⟨a, ha, q, hq⟩
  obtain ⟨r, hr, rfl⟩ := List.mem_map.1 ha
  exact CssL.pfail_can (h r hr) t p ht q hq

end Parce.Xml

import Verif.Lemmas.NumbersFeed
import Verif.Lemmas.GoesFresh
import Verif.Spec.Transform
/-!
# The lexer for numbers does what the machine does
-/
namespace Parce.Num
variable {u : Uni} {g : Tongue} {t : List Char}

/-! ### Tokens -/

theorem parse_miss {l : NL} {p : Nat} (h : rxMatch ((rules u g l).map (·.pat)) t p = none) (hp : p < t.length) (hl : l ≠ .root) :
    parseNext (lang u g).noAct ((lang u g).ld l) t (.at p false) = some (⟨p, [], none, .none, some ⟨1, []⟩⟩, .stop) := by
  show parseNext NA.none (compile NA.none (rules u g l) (dflt l)) t (.at p false) = _
  have hd : dflt l = .target ⟨1, []⟩ := by cases l <;> first | rfl | exact absurd rfl hl
  rw [hd]
  cases hr : rules u g l with
  | nil => simp [compile, parseNext, tailTok, hp]
  | cons r rs =>
    rw [hr] at h
    simp only [compile, parseNext]
    rw [h]
    simp [tailTok, hp]

theorem parse_root {p : Nat} (hp : p < t.length) :
    parseNext (lang u g).noAct ((lang u g).ld .root) t (.at p false) =
      some (⟨p, [], none, .none, some ⟨0, [.number, .p6, .p3, .p2, .n99]⟩⟩, .stop) := by
  show parseNext NA.none (compile NA.none (rules u g .root) (dflt .root)) t (.at p false) = _
  simp [rules, dflt, compile, parseNext, tailTok, hp]

/-! ### The contexts in the tree -/

/-- A node with a value. -/
def NodeVal (u : Uni) (g : Tongue) (n : Node Char NL NA) (v : Nat) : Prop := ∃ l, n.itm (env u g) false = [.item l (.int v)]

/-- An open context of the tree is as the machine has it. -/
def FrameOK (u : Uni) (g : Tongue) (f : Frame Char NL NA) (x : NL × Option Nat) : Prop :=
  f.lex = x.1 ∧ match x.2 with
    | none => f.kids = []
    | some v => ∃ vs, objs (itmL (env u g) false f.kids) = some vs ∧ vs ≠ [] ∧ vs.sum = v

/-- The open contexts of the tree are as the machine has them. -/
def Rep (u : Uni) (g : Tongue) (d : List Nat) : Stk → List (Frame Char NL NA) → Prop
  | [], fr => ∃ r, fr = [r] ∧ r.lex = .root ∧ objs (itmL (env u g) false r.kids) = some d
  | x :: fs, fr => ∃ f fr', fr = f :: fr' ∧ FrameOK u g f x ∧ Rep u g d fs fr'

/-- The number of contexts that are only in the pending target. -/
def freshN (fs : Stk) : Nat := (fs.takeWhile (·.2.isNone)).length

theorem itmL_append (e : TrEnv Char NL NA NV Unit NL) (b : Bool) (ns ms : List (Node Char NL NA)) : itmL e b (ns ++ ms) = itmL e b ns ++ itmL e b ms := by
  induction ns with
  | nil => simp [itmL]
  | cons n ns ih => simp [itmL, ih]

theorem objs_append (is js : List Itm) {vs ws : List Nat} (h1 : objs is = some vs) (h2 : objs js = some ws) : objs (is ++ js) = some (vs ++ ws) := by
  induction is generalizing vs with
  | nil => simp only [objs, Option.some.injEq] at h1; subst h1; exact h2
  | cons i is ih =>
    match i, h1 with
    | .item l (.int n), h1 =>
      simp only [objs, Option.map_eq_some_iff] at h1
      obtain ⟨vs', h3, rfl⟩ := h1
      simp only [List.cons_append, objs, ih h3, Option.map_some]

theorem objs_add {ns : List (Node Char NL NA)} {n : Node Char NL NA} {vs : List Nat} {v : Nat} (h : objs (itmL (env u g) false ns) = some vs)
    (hn : NodeVal u g n v) : objs (itmL (env u g) false (ns ++ [n])) = some (vs ++ [v]) := by
  obtain ⟨l, hl⟩ := hn
  rw [itmL_append]
  refine objs_append _ _ h ?_
  simp [itmL, hl, objs]

theorem rep_len {d : List Nat} : ∀ {fs : Stk} {fr : List (Frame Char NL NA)}, Rep u g d fs fr → fr.length = fs.length + 1 := by
  intro fs
  induction fs with
  | nil => intro fr ⟨r, h, _⟩; simp [h]
  | cons x fs ih => intro fr ⟨f, fr', h, _, h2⟩; simp [h, ih h2]

/-- A node with a value is added to the current context. -/
theorem rep_add {d : List Nat} {fs : Stk} {f : Frame Char NL NA} {fr : List (Frame Char NL NA)} {n : Node Char NL NA} {v : Nat}
    (h : Rep u g d fs (f :: fr)) (hn : NodeVal u g n v) :
    Rep u g (addM v ⟨d, fs⟩).done (addM v ⟨d, fs⟩).fs (⟨f.lex, f.kids ++ [n]⟩ :: fr) := by
  cases fs with
  | nil =>
    obtain ⟨r, h1, h2, h3⟩ := h
    simp only [List.cons.injEq] at h1
    obtain ⟨rfl, rfl⟩ := h1
    exact ⟨_, rfl, h2, objs_add h3 hn⟩
  | cons x fs =>
    obtain ⟨f', fr', h1, h2, h3⟩ := h
    simp only [List.cons.injEq] at h1
    obtain ⟨rfl, rfl⟩ := h1
    obtain ⟨l, o⟩ := x
    refine ⟨_, _, rfl, ⟨h2.1, ?_⟩, h3⟩
    have h4 := h2.2
    cases o with
    | none =>
      simp only at h4
      obtain ⟨l', hl'⟩ := hn
      refine ⟨[v], ?_, by simp, by simp⟩
      simp [h4, itmL, hl', objs]
    | some w =>
      obtain ⟨vs, h5, h6, h7⟩ := h4
      exact ⟨vs ++ [v], objs_add h5 hn, by simp, by simp [h7]⟩

theorem factor_objs (f : Nat) {is : List Itm} : ∀ {vs ws : List Nat}, objs is = some ws → factorOf f vs is = .int (vs ++ ws).sum := by
  induction is with
  | nil => intro vs ws h; simp only [objs, Option.some.injEq] at h; subst h; simp [factorOf]
  | cons i is ih =>
    intro vs ws h
    match i, h with
    | .item l (.int n), h =>
      simp only [objs, Option.map_eq_some_iff] at h
      obtain ⟨ws', h3, rfl⟩ := h
      simp only [factorOf, ih h3]
      simp

theorem factor_tok (f : Nat) {is js : List Itm} {tk : TokN Char NA} : ∀ {vs ws : List Nat}, objs is = some ws →
    factorOf f vs (is ++ .tok tk :: js) = .int (if vs ++ ws = [] then f else f * (vs ++ ws).sum) := by
  induction is with
  | nil => intro vs ws h; simp only [objs, Option.some.injEq] at h; subst h; simp [factorOf]
  | cons i is ih =>
    intro vs ws h
    match i, h with
    | .item l (.int n), h =>
      simp only [objs, Option.map_eq_some_iff] at h
      obtain ⟨ws', h3, rfl⟩ := h
      simp only [List.cons_append, factorOf, ih h3]
      simp

/-- The value of a context that is left without a token. -/
theorem frame_val {f : Frame Char NL NA} {l : NL} {v : Nat} (h : FrameOK u g f (l, some v)) (h0 : rank l ≠ 0) (hr : l ≠ .root) :
    NodeVal u g (.ctx f.lex f.kids) v := by
  obtain ⟨h1, vs, h2, h3, h4⟩ := h
  simp only at h1
  subst h1
  refine ⟨f.lex, ?_⟩
  cases hl : f.lex <;> simp only [hl, rank] at h0 hr <;> first | exact absurd rfl h0 | exact absurd rfl hr | skip
  · show [TItm.item NL.number (numberOf (itmL (env u g) false f.kids))] = _
    simp [numberOf, h2, h4]
  · show [TItm.item NL.p2 (factorOf 100 [] (itmL (env u g) false f.kids))] = _
    simp [factor_objs 100 h2, h4]
  · show [TItm.item NL.p3 (factorOf 1000 [] (itmL (env u g) false f.kids))] = _
    simp [factor_objs 1000 h2, h4]
  · show [TItm.item NL.p6 (factorOf 1000000 [] (itmL (env u g) false f.kids))] = _
    simp [factor_objs 1000000 h2, h4]

theorem itmL_toks (ts : List (TokN Char NA)) : itmL (env u g) false (ts.map .tok) = ts.map .tok := by
  induction ts with
  | nil => rfl
  | cons a ts ih => simp [itmL, Node.itm, ih]

/-- The value of a context that is left with tokens. -/
theorem frame_hit {f : Frame Char NL NA} {l : NL} {o : Option Nat} {k : Kind} {ls : List NL} {ts : List (TokN Char NA)} (h : FrameOK u g f (l, o))
    (ha : accept l k = some ls) (ht : ts ≠ []) (h0 : rank l = 0 → o = none ∧ ∃ vs, texts u g.values (ts.map .tok) = some vs ∧ vs.sum = gain l none k) :
    NodeVal u g (.ctx f.lex (f.kids ++ ts.map .tok)) (gain l o k) := by
  obtain ⟨h1, h2⟩ := h
  simp only at h1
  subst h1
  refine ⟨f.lex, ?_⟩
  by_cases hr : rank f.lex = 0
  · obtain ⟨rfl, vs, h3, h4⟩ := h0 hr
    simp only at h2
    have hv : n99Of u g.values (itmL (env u g) false (f.kids ++ ts.map .tok)) = .int (gain f.lex none k) := by
      rw [h2, List.nil_append, itmL_toks]
      simp only [n99Of, h3, h4]
    cases hl : f.lex <;> simp only [hl, rank] at hr hv <;> try omega
    · show [TItm.item NL.n99 (n99Of u g.values (itmL (env u g) false (f.kids ++ ts.map .tok)))] = _
      rw [hv]
    · show [TItm.item NL.p1 (n99Of u g.values (itmL (env u g) false (f.kids ++ ts.map .tok)))] = _
      rw [hv]
  · obtain ⟨tk, ts, rfl⟩ := List.exists_cons_of_ne_nil ht
    have hf : ∀ F, factorOf F [] (itmL (env u g) false (f.kids ++ (tk :: ts).map .tok)) = .int (F * o.getD 1) := by
      intro F
      rw [itmL_append, itmL_toks, List.map_cons]
      cases o with
      | none =>
        simp only at h2
        rw [h2, factor_tok F (is := itmL (env u g) false []) (ws := []) rfl]
        simp
      | some v =>
        obtain ⟨vs, h3, h4, h5⟩ := h2
        rw [factor_tok F h3]
        simp [h4, h5]
    cases hl : f.lex <;> rw [hl] at ha hr <;> first | exact absurd rfl hr | (cases k <;> simp only [accept, reduceCtorEq] at ha) <;> skip
    · show [TItm.item NL.p2 (factorOf 100 [] (itmL (env u g) false (f.kids ++ (tk :: ts).map .tok)))] = _
      rw [hf]; rfl
    · show [TItm.item NL.p3 (factorOf 1000 [] (itmL (env u g) false (f.kids ++ (tk :: ts).map .tok)))] = _
      rw [hf]; rfl
    · show [TItm.item NL.p6 (factorOf 1000000 [] (itmL (env u g) false (f.kids ++ (tk :: ts).map .tok)))] = _
      rw [hf]; rfl

/-! ### Steps -/

abbrev Circ := List (Nat × Nat × Nat)

/-- The lexer goes from the position `p` with the machine `m` to `p'` and `m'`; `P` and `P'` are about the default
    targets that were followed. -/
def GM (u : Uni) (g : Tongue) (t : List Char) (p : Nat) (m : M) (P : Circ → Prop) (p' : Nat) (m' : M) (P' : Circ → Prop) : Prop :=
  ∀ (B : BState Char NL NA) (c : Circ), Rep u g m.done m.fs B.frames → P c →
    ∃ (B' : BState Char NL NA) (c' : Circ), Rep u g m'.done m'.fs B'.frames ∧ P' c' ∧
      FGoes (lang u g) t ⟨p, B, freshN m.fs, c⟩ ⟨p', B', freshN m'.fs, c'⟩

theorem GM.refl {p : Nat} {m : M} {P P' : Circ → Prop} (h : ∀ c, P c → P' c) : GM u g t p m P p m P' :=
  fun B c hB hc => ⟨B, c, hB, h c hc, .refl _⟩

theorem GM.trans {p p' p'' : Nat} {m m' m'' : M} {P P' P'' : Circ → Prop} (h1 : GM u g t p m P p' m' P') (h2 : GM u g t p' m' P' p'' m'' P'') :
    GM u g t p m P p'' m'' P'' := by
  intro B c hB hc
  obtain ⟨B', c', h3, h4, h5⟩ := h1 B c hB hc
  obtain ⟨B'', c'', h6, h7, h8⟩ := h2 B' c' h3 h4
  exact ⟨B'', c'', h6, h7, h5.trans h8⟩

theorem GM.mono {p p' : Nat} {m m' : M} {P P' Q Q' : Circ → Prop} (h1 : GM u g t p m P p' m' P') (h2 : ∀ c, Q c → P c) (h3 : ∀ c, P' c → Q' c) :
    GM u g t p m Q p' m' Q' := by
  intro B c hB hc
  obtain ⟨B', c', h4, h5, h6⟩ := h1 B c hB (h2 c hc)
  exact ⟨B', c', h4, h3 c' h5, h6⟩

/-- The machine when the value of the context before was `x`. -/
def phys (d : List Nat) (x : Option Nat) (fs : Stk) : M := match x with
  | none => ⟨d, fs⟩
  | some v => addM v ⟨d, fs⟩

theorem phys_cons (d : List Nat) (x : Option Nat) (l : NL) (o : Option Nat) (fs : Stk) : phys d x ((l, o) :: fs) = ⟨d, (l, plus o x) :: fs⟩ := by
  cases x with
  | none => simp [phys, plus_none]
  | some v => simp [phys, addM, addL]

theorem freshN_add (d : List Nat) (v : Nat) (fs : Stk) : freshN (addM v ⟨d, fs⟩).fs = 0 := by
  cases fs with
  | nil => rfl
  | cons x fs => obtain ⟨l, o⟩ := x; cases o <;> simp [freshN, addM, addL, plus]

theorem wf_pop {d : List Nat} {l : NL} {o : Option Nat} {fs : Stk} (h : Wf ((l, o) :: fs)) : Wf (phys d o fs).fs := by
  cases o with
  | none => exact wf_tail h
  | some v =>
    refine wf_addL (wf_tail h) ?_
    intro x hx
    have := (List.pairwise_cons.1 h.1).1 x hx
    simp only at this
    omega

/-- A context is left because none of its rules match. -/
theorem gm_pop {p : Nat} {d : List Nat} {l : NL} {o : Option Nat} {fs : Stk} (hw : Wf ((l, o) :: fs)) (hp : p < t.length)
    (hm : rxMatch ((rules u g l).map (·.pat)) t p = none) (P : Circ → Prop) :
    GM u g t p ⟨d, (l, o) :: fs⟩ P p (phys d o fs) (fun c' => ∃ c, P c ∧ c' = circNext (p, fs.length + 1, 0) c) := by
  intro B c hB hc
  obtain ⟨f, fr, hfr, hf, hrep⟩ := hB
  have hlr : l ≠ .root := hw.2.2 (l, o) (List.mem_cons_self ..)
  have hpn := parse_miss (u := u) (g := g) hm hp hlr
  have hlen := rep_len hrep
  obtain ⟨cur, up⟩ := B
  simp only [BState.frames, List.cons.injEq] at hfr
  obtain ⟨rfl, rfl⟩ := hfr
  obtain ⟨f', fr', rfl⟩ : ∃ f' fr', up = f' :: fr' := by
    cases up with
    | nil => simp at hlen
    | cons f' fr' => exact ⟨_, _, rfl⟩
  have hcl : cur.lex = l := hf.1
  cases o with
  | none =>
    refine ⟨⟨f', fr'⟩, _, hrep, ⟨c, hc, rfl⟩, ?_⟩
    have hk : cur.kids = [] := hf.2
    have := fgoes_pop_fresh (lang := lang u g) (t := t) (p := p) (n := freshN fs) (l := l) (f := f') (up := fr') (k := []) (c := c) hpn rfl rfl rfl
    have h1 : freshN ((l, none) :: fs) = freshN fs + 1 := by simp [freshN]
    have h2 : cur = ⟨l, []⟩ := by cases cur; simp only at hcl hk; rw [hcl, hk]
    simp only [List.length_cons] at hlen
    have h3 : fr'.length = fs.length := by omega
    rw [h3] at this
    show FGoes (lang u g) t ⟨p, _, freshN ((l, none) :: fs), c⟩ _
    rw [h1, h2]
    exact this
  | some v =>
    have h0 : rank l ≠ 0 := fun h => by have := hw.2.1 (l, some v) (List.mem_cons_self ..) h; simp at this
    have hval := frame_val hf h0 hlr
    refine ⟨(⟨cur, f' :: fr'⟩ : BState Char NL NA).leave, _, rep_add hrep hval, ⟨c, hc, rfl⟩, ?_⟩
    have := fgoes_pop (lang := lang u g) (t := t) (p := p) (B := ⟨cur, f' :: fr'⟩) (c := c) (by rw [hcl]; exact hpn) rfl rfl rfl (by simp)
    have h1 : freshN ((l, some v) :: fs) = 0 := by simp [freshN]
    rw [show (phys d (some v) fs).fs = (addM v ⟨d, fs⟩).fs from rfl, freshN_add]
    show FGoes (lang u g) t ⟨p, _, freshN ((l, some v) :: fs), c⟩ _
    rw [h1]
    simp only [List.length_cons] at hlen
    have h3 : fr'.length = fs.length := by omega
    have h4 : (⟨cur, f' :: fr'⟩ : BState Char NL NA).up.length = fs.length + 1 := by simp [h3]
    rw [h4] at this
    exact this

/-- In root, the contexts for a number are entered. -/
theorem gm_root {p : Nat} {d : List Nat} (hp : p < t.length) (P : Circ → Prop) (hP : ∀ c, P c → (p, 1, 5) ∉ c) :
    GM u g t p ⟨d, []⟩ P p ⟨d, fullFs⟩ (fun c' => ∃ c, P c ∧ c' = (p, 1, 5) :: c) := by
  intro B c hB hc
  obtain ⟨r, hr, hl, ho⟩ := hB
  obtain ⟨cur, up⟩ := B
  simp only [BState.frames, List.cons.injEq] at hr
  obtain ⟨rfl, rfl⟩ := hr
  have hpr : parseNext (lang u g).noAct ((lang u g).ld cur.lex) t (.at p false) =
      some (⟨p, [], none, .none, some ⟨0, [.number, .p6, .p3, .p2, .n99]⟩⟩, .stop) := by rw [hl]; exact parse_root hp
  refine ⟨_, _, ?_, ⟨c, hc, rfl⟩, fgoes_push (lang := lang u g) (t := t) (B := ⟨cur, []⟩) hpr rfl rfl rfl (hP c hc)⟩
  exact ⟨_, _, rfl, ⟨rfl, rfl⟩, _, _, rfl, ⟨rfl, rfl⟩, _, _, rfl, ⟨rfl, rfl⟩, _, _, rfl, ⟨rfl, rfl⟩, _, _, rfl, ⟨rfl, rfl⟩, _, rfl, hl, ho⟩

/-- In root, when that was done before, a character is skipped. -/
theorem gm_again {p : Nat} {d : List Nat} (hp : p < t.length) :
    GM u g t p ⟨d, []⟩ (fun c => (p, 1, 5) ∈ c) (p + 1) ⟨d, fullFs⟩ (· = []) := by
  intro B c hB hc
  obtain ⟨r, hr, hl, ho⟩ := hB
  obtain ⟨cur, up⟩ := B
  simp only [BState.frames, List.cons.injEq] at hr
  obtain ⟨rfl, rfl⟩ := hr
  have hpr : parseNext (lang u g).noAct ((lang u g).ld cur.lex) t (.at p false) =
      some (⟨p, [], none, .none, some ⟨0, [.number, .p6, .p3, .p2, .n99]⟩⟩, .stop) := by rw [hl]; exact parse_root hp
  refine ⟨_, _, ?_, rfl, fgoes_push_again (lang := lang u g) (t := t) (B := ⟨cur, []⟩) hpr rfl rfl rfl hp (by simp) hc⟩
  exact ⟨_, _, rfl, ⟨rfl, rfl⟩, _, _, rfl, ⟨rfl, rfl⟩, _, _, rfl, ⟨rfl, rfl⟩, _, _, rfl, ⟨rfl, rfl⟩, _, _, rfl, ⟨rfl, rfl⟩, _, rfl, hl, ho⟩

/-- What is read for a word: the lexicons that know it read it, others do not match. `soft` is for `p1`, which finds
    the units also at the start of other words. -/
structure ReadsAt (u : Uni) (g : Tongue) (t : List Char) (p : Nat) (w : List Char) (k : Kind) (soft : Prop) : Prop where
  lt : p < t.length
  hit : ∀ l ls, accept l k = some ls → ∃ tok ps', parseNext (lang u g).noAct ((lang u g).ld l) t (.at p false) = some (tok, ps') ∧
    tok.pos = p ∧ tok.text = w ∧ tok.tgt = some ⟨1, ls⟩ ∧ (lang u g).expand tok ≠ [] ∧
    (rank l = 0 → ∃ vs, texts u g.values ((makeTokens ((lang u g).expand tok)).map .tok) = some vs ∧ vs.sum = gain l none k)
  miss : ∀ l, l ≠ .root → accept l k = none → (l = .p1 → soft) → rxMatch ((rules u g l).map (·.pat)) t p = none
  ne : w ≠ []

theorem enters_list (ls : List NL) : ∀ B : BState Char NL NA, (ls.foldl BState.enter B).frames = ls.reverse.map (⟨·, []⟩) ++ B.frames := by
  induction ls with
  | nil => intro B; rfl
  | cons l ls ih =>
    intro B
    rw [List.foldl_cons, ih (B.enter l)]
    simp [BState.enter, BState.frames]

theorem rep_push {d : List Nat} {fs : Stk} {fr : List (Frame Char NL NA)} (h : Rep u g d fs fr) (ls : List NL) :
    Rep u g d (ls.map (·, none) ++ fs) (ls.map (⟨·, []⟩) ++ fr) := by
  induction ls with
  | nil => exact h
  | cons l ls ih => exact ⟨_, _, rfl, ⟨rfl, rfl⟩, ih⟩

/-- A token is read that leaves the context. -/
theorem gm_tok {p : Nat} {d : List Nat} {l : NL} {o : Option Nat} {fs : Stk} {ls : List NL} {tok : Tok Char NL NA RM} {ps' : PS RM} {v : Nat}
    (h1 : parseNext (lang u g).noAct ((lang u g).ld l) t (.at p false) = some (tok, ps')) (h2 : tok.pos = p) (h3 : tok.text ≠ [])
    (h4 : tok.tgt = some ⟨1, ls⟩) (h5 : (lang u g).expand tok ≠ [])
    (hv : ∀ f, FrameOK u g f (l, o) → NodeVal u g (.ctx f.lex (f.kids ++ (makeTokens ((lang u g).expand tok)).map .tok)) v) (P : Circ → Prop) :
    GM u g t p ⟨d, (l, o) :: fs⟩ P (p + tok.text.length) (pushM ls (addM v ⟨d, fs⟩)) (· = []) := by
  intro B c hB hc
  obtain ⟨f, fr, hfr, hf, hrep⟩ := hB
  have hlen := rep_len hrep
  obtain ⟨cur, up⟩ := B
  simp only [BState.frames, List.cons.injEq] at hfr
  obtain ⟨rfl, rfl⟩ := hfr
  obtain ⟨f', fr', rfl⟩ : ∃ f' fr', up = f' :: fr' := by
    cases up with
    | nil => simp at hlen
    | cons f' fr' => exact ⟨_, _, rfl⟩
  have hcl : cur.lex = l := hf.1
  have hval := hv cur hf
  have hgo := fgoes_target (lang := lang u g) (t := t) (p := p) (n := freshN ((l, o) :: fs)) (B := ⟨cur, f' :: fr'⟩) (c := c) (tok := tok) (ps' := ps')
    (tg := ⟨1, ls⟩) (by rw [hcl]; exact h1) h3 h4 h5 (by simp) (by
      cases hls : ls.getLast? <;> simp [lang, grpLang])
  rw [h2] at hgo
  refine ⟨((⟨cur, f' :: fr'⟩ : BState Char NL NA).putToks ((lang u g).expand tok)).target (some ⟨1, ls⟩), [], ?_, rfl, ?_⟩
  rotate_left
  · have hfn : freshN (pushM ls (addM v ⟨d, fs⟩)).fs = ls.length := by
      simp only [freshN, pushM]
      rw [List.takeWhile_append_of_pos (by intro x hx; obtain ⟨y, _, rfl⟩ := List.mem_map.1 hx; rfl), List.length_append]
      have := freshN_add d v fs
      unfold freshN at this
      rw [this]
      simp
    rw [hfn]
    exact hgo
  · show Rep u g _ _ (BState.frames ((ls.foldl BState.enter _)))
    rw [enters_list]
    exact rep_push (rep_add hrep hval) ls.reverse

theorem tokens_ne {tok : Tok Char NL NA RM} (h : (lang u g).expand tok ≠ []) : makeTokens ((lang u g).expand tok) ≠ [] := by
  intro h'
  have := makeTokens_length ((lang u g).expand tok)
  rw [h'] at this
  exact h (List.length_eq_zero_iff.1 this.symm)

/-- A word is read. -/
theorem gm_hit {p : Nat} {w : List Char} {k : Kind} {soft : Prop} (hR : ReadsAt u g t p w k soft) {d : List Nat} {l : NL} {o : Option Nat} {fs : Stk}
    {ls : List NL} (hw : Wf ((l, o) :: fs)) (ha : accept l k = some ls) (P : Circ → Prop) :
    GM u g t p ⟨d, (l, o) :: fs⟩ P (p + w.length) (pushM ls (addM (gain l o k) ⟨d, fs⟩)) (· = []) := by
  obtain ⟨tok, ps', h1, h2, h3, h4, h5, h6⟩ := hR.hit l ls ha
  have := gm_tok (u := u) (g := g) (t := t) (d := d) (o := o) (fs := fs) (v := gain l o k) h1 h2 (by rw [h3]; exact hR.ne) h4 h5
    (fun f hf => frame_hit hf ha (tokens_ne h5) (fun h0 => ⟨hw.2.1 (l, o) (List.mem_cons_self ..) h0, h6 h0⟩)) P
  rw [h3] at this
  exact this

/-- Contexts are left until the word can be read. -/
theorem gm_down {p : Nat} {w : List Char} {k : Kind} {soft : Prop} (hR : ReadsAt u g t p w k soft) {d : List Nat} {fs : Stk} :
    ∀ {x : Option Nat} {P : Circ → Prop}, Wf (phys d x fs).fs → (∀ y ∈ fs, y.1 = .p1 → soft) → (∀ c n, P c → P (circNext (p, n, 0) c)) →
    (∀ m, down d x k fs = .inl m → GM u g t p (phys d x fs) P (p + w.length) m (· = [])) ∧
    (∀ d', down d x k fs = .inr d' → GM u g t p (phys d x fs) P p ⟨d', []⟩ P) := by
  induction fs with
  | nil =>
    intro x P _ _ _
    refine ⟨fun m h => by simp [down] at h, fun d' h => ?_⟩
    simp only [down, Sum.inr.injEq] at h
    subst h
    have : phys d x [] = ⟨d ++ x.toList, []⟩ := by cases x <;> simp [phys, addM, addL]
    rw [this]
    exact .refl (fun _ h => h)
  | cons f fs ih =>
    intro x P hw hs hP
    obtain ⟨l, o⟩ := f
    rw [phys_cons] at hw ⊢
    cases ha : accept l k with
    | some ls =>
      refine ⟨fun m h => ?_, fun d' h => by simp [down, ha] at h⟩
      simp only [down, ha, Sum.inl.injEq] at h
      subst h
      exact gm_hit hR hw ha P
    | none =>
      have hlr : l ≠ .root := hw.2.2 (l, plus o x) (List.mem_cons_self ..)
      have hmiss := hR.miss l hlr ha (fun h => hs (l, o) (List.mem_cons_self ..) h)
      have h1 := (gm_pop (d := d) hw hR.lt hmiss P).mono (Q := P) (Q' := P) (fun _ h => h) (by
        rintro c' ⟨c, hc, rfl⟩
        exact hP c _ hc)
      have h2 := ih (x := plus o x) (P := P) (wf_pop hw) (fun y hy => hs y (List.mem_cons_of_mem _ hy)) hP
      have hd : down d x k ((l, o) :: fs) = down d (plus o x) k fs := by simp [down, ha]
      rw [hd]
      exact ⟨fun m h => h1.trans (h2.1 m h), fun d' h => h1.trans (h2.2 d' h)⟩

theorem full_p1 : ∀ y ∈ fullFs, y.1 ≠ .p1 := by decide

theorem full_all : ∀ z ∈ fullFs, z.2 = none := by decide

/-- The default targets that were followed are from before the position `p`. -/
def Before (p : Nat) (c : Circ) : Prop := ∀ e ∈ c, e.1 < p

theorem mem_circNext {e x : Nat × Nat × Nat} {c : Circ} (h : x ∈ circNext e c) : x = e ∨ x ∈ c := by
  unfold circNext at h
  split at h
  · cases h
  · exact List.mem_cons.1 h

/-- A word is read, wherever the lexer is. -/
theorem gm_word {p : Nat} {w : List Char} {k : Kind} {soft : Prop} (hR : ReadsAt u g t p w k soft) {m : M} (hw : Wf m.fs)
    (hs : ∀ y ∈ m.fs, y.1 = .p1 → soft) : GM u g t p m (Before p) (p + w.length) (feed m k) (· = []) := by
  have h0 : ∀ c, Before p c → (p, 1, 5) ∉ c := fun c hc h => Nat.lt_irrefl _ (hc _ h)
  have h1 := gm_down hR (d := m.done) (x := none) (P := fun c => (p, 1, 5) ∉ c) hw hs (by
    intro c n hc h
    rcases mem_circNext h with h | h
    · simp at h
    · exact hc h)
  unfold feed
  split
  · next m' hm => exact (h1.1 m' hm).mono h0 (fun _ h => h)
  · next d hd =>
    have h2 := (h1.2 d hd).mono (Q := Before p) h0 (fun _ h => h)
    have h3 := h2.trans (gm_root hR.lt _ (fun _ h => h))
    obtain ⟨m', hm'⟩ := down_full d k
    rw [hm']
    have h4 := (gm_down hR (d := d) (fs := fullFs) (x := none) (P := fun _ => True) wf_full (fun y hy h => absurd h (full_p1 y hy)) (fun _ _ _ => trivial)).1 m' hm'
    exact h3.trans (h4.mono (fun _ _ => trivial) (fun _ h => h))

/-! ### Blanks -/

/-- At `p` there are blanks (or hyphens) `s` and then something else. -/
structure BlankAt (u : Uni) (t : List Char) (p : Nat) (s : List Char) : Prop where
  ne : s ≠ []
  here : ∃ post, t.drop p = s ++ post ∧ ∀ c ∈ post.head?, isSkip u c = false
  skip : ∀ c ∈ s, isSkip u c = true

theorem BlankAt.lt {p : Nat} {s : List Char} (h : BlankAt u t p s) : p < t.length := by
  obtain ⟨post, hp, _⟩ := h.here
  have := congrArg List.length hp
  have h2 := List.length_pos_iff.2 h.ne
  simp at this
  omega

theorem blank_parse {p : Nat} {s : List Char} (h : BlankAt u t p s) {l : NL} (hl : l ≠ .root) (hn : l ≠ .number) :
    ∃ tok, parseNext (lang u g).noAct ((lang u g).ld l) t (.at p false) = some (tok, .at (p + s.length) false) ∧
      tok.pos = p ∧ tok.text = s ∧ tok.tgt = none ∧ (lang u g).expand tok = [] := by
  obtain ⟨post, hp, hq⟩ := h.here
  have hbest : Best t (.plus (.set (isSkip u))) p (p + s.length) := best_plus hp h.ne h.skip (fun c hc => hq c hc)
  obtain ⟨rs, hrs⟩ : ∃ rs, rules u g l = skipRule u :: rs := by
    cases l <;> first | exact absurd rfl hl | exact absurd rfl hn | exact ⟨_, rfl⟩
  have hm : rxMatch ((rules u g l).map (·.pat)) t p = some ⟨p, p + s.length, ⟨0, []⟩⟩ := by
    rw [hrs]
    exact rxMatch_best (ps := []) (by simp) hbest (Nat.le_of_lt h.lt)
  have hpm := parse_match (noAct := NA.none) (dl := dflt l) hm (r := skipRule u) (by rw [hrs]; rfl)
  have hpos := List.length_pos_iff.2 h.ne
  have hb : (p == p + s.length) = false := by
    simp only [beq_eq_false_iff_ne, ne_eq]
    omega
  rw [hb] at hpm
  refine ⟨_, hpm, rfl, slice_here hp, rfl, ?_⟩
  rfl

/-- Blanks are read. -/
theorem gm_skip {p : Nat} {s : List Char} (h : BlankAt u t p s) {d : List Nat} {l : NL} {o : Option Nat} {fs : Stk} (hl : l ≠ .root)
    (hn : l ≠ .number) (P : Circ → Prop) : GM u g t p ⟨d, (l, o) :: fs⟩ P (p + s.length) ⟨d, (l, o) :: fs⟩ P := by
  intro B c hB hc
  have hB' := hB
  obtain ⟨f, fr, hfr, hf, hrep⟩ := hB
  obtain ⟨tok, h1, h2, h3, h4, h5⟩ := blank_parse (g := g) h hl hn
  obtain ⟨cur, up⟩ := B
  simp only [BState.frames, List.cons.injEq] at hfr
  obtain ⟨rfl, rfl⟩ := hfr
  have hcl : cur.lex = l := hf.1
  have := fgoes_skip (lang := lang u g) (t := t) (p := p) (n := freshN ((l, o) :: fs)) (B := ⟨cur, up⟩) (c := c) (tok := tok) (ps' := .at (p + s.length) false)
    (by rw [hcl]; exact h1) (by rw [h3]; exact h.ne) h4 h5 (by rw [h2, h3])
  rw [h2, h3] at this
  exact ⟨_, _, hB', hc, this⟩

theorem wf_number {o : Option Nat} {fs : Stk} (h : Wf ((.number, o) :: fs)) : fs = [] := by
  cases fs with
  | nil => rfl
  | cons x fs =>
    have h1 := (List.pairwise_cons.1 h.1).1 x (List.mem_cons_self ..)
    have h2 := h.2.2 x (List.mem_cons_of_mem _ (List.mem_cons_self ..))
    cases hx : x.1 <;> rw [hx] at h1 h2 <;> first | exact absurd rfl h2 | (simp [rank] at h1)

theorem gm_blank {p : Nat} {s : List Char} (h : BlankAt u t p s) {m : M} (hw : Wf m.fs) :
    GM u g t p m (Before p) (p + s.length) (rest m) (Before (p + s.length)) := by
  obtain ⟨d, fs⟩ := m
  have hpos := List.length_pos_iff.2 h.ne
  have h0 : ∀ c, Before p c → (p, 1, 5) ∉ c := fun c hc h => Nat.lt_irrefl _ (hc _ h)
  have hroot : ∀ d, GM u g t p ⟨d, []⟩ (fun c => (∀ e ∈ c, e.1 ≤ p) ∧ (p, 1, 5) ∉ c) (p + s.length) ⟨d, fullFs⟩ (Before (p + s.length)) := by
    intro d
    refine ((gm_root (d := d) h.lt _ (fun _ h => h.2)).trans (gm_skip h (l := .n99) (by simp) (by simp) _)).mono (fun _ h => h) ?_
    rintro c' ⟨c, hc, rfl⟩ e he
    rcases List.mem_cons.1 he with rfl | he
    · simp only; omega
    · have := hc.1 e he; omega
  cases fs with
  | nil => exact (hroot d).mono (fun c hc => ⟨fun e he => Nat.le_of_lt (hc e he), h0 c hc⟩) (fun _ h => h)
  | cons x fs =>
    obtain ⟨l, o⟩ := x
    by_cases hl : l = .number
    · subst hl
      have := wf_number hw
      subst this
      have h1 := gm_pop (u := u) (g := g) (t := t) (p := p) (d := d) hw h.lt (by simp [rules, rxMatch, allAt]) (Before p)
      have h2 : phys d o [] = ⟨d ++ o.toList, []⟩ := by cases o <;> simp [phys, addM, addL]
      rw [h2] at h1
      have h3 := (h1.mono (fun _ h => h) (Q' := fun c => (∀ e ∈ c, e.1 ≤ p) ∧ (p, 1, 5) ∉ c) (by
        rintro c' ⟨c, hc, rfl⟩
        refine ⟨fun e he => ?_, fun hm => ?_⟩
        · rcases mem_circNext he with rfl | he
          · exact Nat.le_refl _
          · exact Nat.le_of_lt (hc e he)
        · rcases mem_circNext hm with hm | hm
          · simp at hm
          · exact h0 c hc hm)).trans (hroot _)
      exact h3
    · have hlr : l ≠ .root := hw.2.2 (l, o) (List.mem_cons_self ..)
      have : rest ⟨d, (l, o) :: fs⟩ = ⟨d, (l, o) :: fs⟩ := by
        unfold rest
        split
        · next h => simp at h
        · next h => simp only [List.cons.injEq, Prod.mk.injEq] at h; exact absurd h.1.1 hl
        · rfl
      rw [this]
      exact (gm_skip h hlr hl (Before p)).mono (fun _ h => h) (fun c hc e he => by have := hc e he; omega)

/-! ### Other characters -/

/-- No rule matches at `p`. -/
structure JunkAt (u : Uni) (g : Tongue) (t : List Char) (p : Nat) : Prop where
  lt : p < t.length
  miss : ∀ l, l ≠ .root → rxMatch ((rules u g l).map (·.pat)) t p = none

/-- Contexts are left, and that was not done before at this position. -/
theorem gm_pops {p : Nat} (h : JunkAt u g t p) {d : List Nat} {c0 : Circ} {fs : Stk} : ∀ (as : Stk) {x : Option Nat}, Wf (phys d x (as ++ fs)).fs →
    (∀ i, fs.length < i → i ≤ as.length + fs.length → (p, i, 0) ∉ c0) →
    ∃ y, closeL d x (as ++ fs) = closeL d y fs ∧ ((∀ z ∈ as, z.2 = none) → y = x) ∧ Wf (phys d y fs).fs ∧
      GM u g t p (phys d x (as ++ fs)) (· = c0) p (phys d y fs)
        (fun c => ∀ e, e ∈ c ↔ e ∈ c0 ∨ ∃ i, fs.length < i ∧ i ≤ as.length + fs.length ∧ e = (p, i, 0)) := by
  intro as
  induction as generalizing c0 with
  | nil =>
    intro x hw _
    refine ⟨x, rfl, fun _ => rfl, hw, .refl ?_⟩
    rintro c rfl e
    constructor
    · exact fun h => Or.inl h
    · rintro (h | ⟨i, h1, h2, _⟩)
      · exact h
      · simp at h2; omega
  | cons a as ih =>
    intro x hw hn
    obtain ⟨l, o⟩ := a
    rw [List.cons_append, phys_cons] at hw ⊢
    have hlr : l ≠ .root := hw.2.2 (l, plus o x) (List.mem_cons_self ..)
    have h1 := gm_pop (d := d) hw h.lt (h.miss l hlr) (· = c0)
    have hnot : (p, (as ++ fs).length + 1, 0) ∉ c0 := by
      refine hn _ ?_ ?_ <;> simp <;> omega
    obtain ⟨y, h2, h3, h4, h5⟩ := ih (c0 := (p, (as ++ fs).length + 1, 0) :: c0) (x := plus o x) (wf_pop hw) (by
      intro i hi1 hi2 hm
      rcases List.mem_cons.1 hm with hm | hm
      · simp at hm; omega
      · exact hn i hi1 (by simp; omega) hm)
    refine ⟨y, h2, ?_, h4, ?_⟩
    · intro hz
      have ho : o = none := hz (l, o) (List.mem_cons_self ..)
      rw [h3 (fun z hz' => hz z (List.mem_cons_of_mem _ hz')), ho]
      rfl
    · refine (h1.mono (fun _ h => h) (Q' := (· = (p, (as ++ fs).length + 1, 0) :: c0)) ?_).trans (h5.mono (fun _ h => h) ?_)
      · rintro c' ⟨c, rfl, rfl⟩
        exact if_neg hnot
      · intro c hc e
        rw [hc e, List.mem_cons]
        simp only [List.length_append, List.length_cons]
        constructor
        · rintro ((rfl | h) | ⟨i, hi1, hi2, rfl⟩)
          · exact Or.inr ⟨_, by omega, by omega, rfl⟩
          · exact Or.inl h
          · exact Or.inr ⟨i, hi1, by omega, rfl⟩
        · rintro (h | ⟨i, hi1, hi2, rfl⟩)
          · exact Or.inl (Or.inr h)
          · by_cases hi : i ≤ as.length + fs.length
            · exact Or.inr ⟨i, hi1, hi, rfl⟩
            · have : i = as.length + fs.length + 1 := by omega
              exact Or.inl (Or.inl (by rw [this]))

/-- What was followed at `p`: contexts were left, up to the depth `n`. -/
def Left (p n : Nat) (c : Circ) : Prop := (∀ e ∈ c, e.1 = p → e.2.2 = 0 ∧ e.2.1 ≤ n) ∧ ∀ i, 1 ≤ i → i ≤ n → (p, i, 0) ∈ c

theorem full_none (n : Nat) : ∀ z ∈ fullFs.take n, z.2 = none := fun z hz => full_all z (List.mem_of_mem_take hz)

/-- The lexer goes around until it skips the character. -/
theorem gm_round {p : Nat} (h : JunkAt u g t p) {d : List Nat} : ∀ n, n ≤ 5 → GM u g t p ⟨d, []⟩ (Left p n) (p + 1) ⟨d, fullFs⟩ (· = []) := by
  intro n
  induction n with
  | zero =>
    intro _
    intro B c hB hc
    refine GM.trans (P' := (· = (p, 1, 5) :: c)) (u := u) (g := g) ((gm_root (d := d) h.lt (· = c) ?_).mono (fun _ h => h) ?_) ?_ B c hB rfl
    · rintro _ rfl hm
      have := (hc.1 _ hm rfl).1
      simp at this
    · rintro c' ⟨c'', rfl, rfl⟩; rfl
    · obtain ⟨y, h2, h3, h4, h5⟩ := gm_pops h (d := d) (c0 := (p, 1, 5) :: c) (fs := []) fullFs (x := none) wf_full (by
        intro i hi1 hi2 hm
        rcases List.mem_cons.1 hm with hm | hm
        · simp at hm
        · have := (hc.1 _ hm rfl).2
          simp at this hi1
          omega)
      have hy : y = none := h3 (by decide)
      subst hy
      refine h5.trans ((gm_again h.lt).mono ?_ (fun _ h => h))
      intro c' hc'
      exact (hc' _).2 (Or.inl (List.mem_cons_self ..))
  | succ n ih =>
    intro hn
    refine GM.trans (p' := p) (m' := ⟨d, []⟩) (P' := Left p n) ?_ (ih (by omega))
    intro B c hB hc
    have h1 := (gm_root (u := u) (g := g) (t := t) (d := d) h.lt (· = c) (by
      rintro _ rfl hm
      have := (hc.1 _ hm rfl).1
      simp at this)).mono (Q := (· = c)) (Q' := (· = (p, 1, 5) :: c)) (fun _ h => h) (by rintro c' ⟨c'', rfl, rfl⟩; rfl)
    -- the contexts above the depth
    have hlen : (fullFs.drop (5 - (n + 1))).length = n + 1 := by simp [fullFs]; omega
    have hsplit : fullFs.take (5 - (n + 1)) ++ fullFs.drop (5 - (n + 1)) = fullFs := List.take_append_drop _ _
    obtain ⟨y, h2, h3, h4, h5⟩ := gm_pops h (d := d) (c0 := (p, 1, 5) :: c) (fs := fullFs.drop (5 - (n + 1))) (fullFs.take (5 - (n + 1))) (x := none)
      (by rw [hsplit]; exact wf_full) (by
        intro i hi1 hi2 hm
        rw [hlen] at hi1
        rcases List.mem_cons.1 hm with hm | hm
        · simp at hm
        · have := (hc.1 _ hm rfl).2
          simp at this
          omega)
    have hy := h3 (full_none _)
    subst hy
    rw [hsplit] at h5
    -- the one that was left before
    obtain ⟨a, fs', hd⟩ : ∃ a fs', fullFs.drop (5 - (n + 1)) = a :: fs' := by
      cases hc' : fullFs.drop (5 - (n + 1)) with
      | nil => rw [hc'] at hlen; simp at hlen
      | cons a fs' => exact ⟨_, _, rfl⟩
    obtain ⟨l, o⟩ := a
    have hmem : ∀ z ∈ fullFs.drop (5 - (n + 1)), z.2 = none := fun z hz => full_all z (List.mem_of_mem_drop hz)
    have ho : o = none := hmem (l, o) (by rw [hd]; exact List.mem_cons_self ..)
    subst ho
    have hfs' : fs'.length = n := by rw [hd] at hlen; simpa using hlen
    have hw : Wf ((l, none) :: fs') := by
      rw [← hd]
      exact h4
    have h6 := gm_pop (u := u) (g := g) (t := t) (d := d) hw h.lt (h.miss l (hw.2.2 (l, none) (List.mem_cons_self ..))) (fun c => (p, n + 1, 0) ∈ c)
    have h7 := h6.mono (fun _ h => h) (Q' := (· = [])) (by
      rintro c' ⟨c, hc, rfl⟩
      rw [hfs']
      exact if_pos hc)
    -- the others
    obtain ⟨y, h8, h9, h10, h11⟩ := gm_pops h (d := d) (c0 := []) (fs := []) fs' (x := none) (by
      rw [List.append_nil]
      exact wf_tail hw) (by intro i _ _ hm; cases hm)
    have hy := h9 (fun z hz => hmem z (by rw [hd]; exact List.mem_cons_of_mem _ hz))
    subst hy
    rw [List.append_nil] at h11
    refine GM.trans h1 (h5.trans (GM.trans ?_ (h11.mono (fun _ h => h) ?_))) B c hB rfl
    · rw [hd]
      refine h7.mono ?_ (fun _ h => h)
      intro c' hc'
      exact (hc' _).2 (Or.inl (List.mem_cons_of_mem _ (hc.2 (n + 1) (by omega) (by omega))))
    · intro c' hc'
      refine ⟨fun e he _ => ?_, fun i hi1 hi2 => ?_⟩
      · rcases (hc' e).1 he with he | ⟨i, hi1, hi2, rfl⟩
        · cases he
        · simp at hi2
          exact ⟨rfl, by simp only; omega⟩
      · exact (hc' _).2 (Or.inr ⟨i, by simp; omega, by simp; omega, rfl⟩)

theorem rank_lt (l : NL) : rank l < 6 := by cases l <;> decide

theorem sorted_len : ∀ (fs : Stk) (n : Nat), fs.Pairwise (fun x y => rank x.1 < rank y.1) → (∀ x ∈ fs, n ≤ rank x.1 ∧ rank x.1 < 5) → n ≤ 5 → fs.length + n ≤ 5 := by
  intro fs
  induction fs with
  | nil => intro n _ _ hn; simpa using hn
  | cons x fs ih =>
    intro n hp hr hn
    have hp' := List.pairwise_cons.1 hp
    have h1 := hr x (List.mem_cons_self ..)
    have := ih (n + 1) hp'.2 (fun y hy => ⟨by have := hp'.1 y hy; omega, (hr y (List.mem_cons_of_mem _ hy)).2⟩) (by omega)
    simp only [List.length_cons]
    omega

theorem wf_len {fs : Stk} (h : Wf fs) : fs.length ≤ 5 := by
  have := sorted_len fs 0 h.1 (fun x hx => ⟨Nat.zero_le _, by
    have := h.2.2 x hx
    cases hx' : x.1 <;> rw [hx'] at this <;> first | exact absurd rfl this | decide⟩) (by omega)
  omega

/-- A character is skipped; the number that was being read is finished. -/
theorem gm_junk {p : Nat} (h : JunkAt u g t p) {m : M} (hw : Wf m.fs) : GM u g t p m (Before p) (p + 1) ⟨m.close, fullFs⟩ (· = []) := by
  intro B c hB hc
  obtain ⟨y, h2, h3, h4, h5⟩ := gm_pops h (d := m.done) (c0 := c) (fs := []) m.fs (x := none) (by rw [List.append_nil]; exact hw) (by
    intro i _ _ hm
    exact Nat.lt_irrefl _ (hc _ hm))
  rw [List.append_nil] at h2 h5
  have h6 : phys m.done y [] = ⟨m.close, []⟩ := by
    have : m.close = m.done ++ y.toList := h2
    rw [this]
    cases y <;> simp [phys, addM, addL]
  rw [h6] at h5
  refine GM.trans h5 ((gm_round h m.fs.length (wf_len hw)).mono ?_ (fun _ h => h)) B c hB rfl
  intro c' hc'
  refine ⟨fun e he hp => ?_, fun i hi1 hi2 => ?_⟩
  · rcases (hc' e).1 he with he | ⟨i, hi1, hi2, rfl⟩
    · have := hc e he; omega
    · simp at hi2
      exact ⟨rfl, hi2⟩
  · exact (hc' _).2 (Or.inr ⟨i, by simp; omega, by simp; omega, rfl⟩)

/-! ### The end -/

theorem parse_end {l : NL} (h : rxMatch ((rules u g l).map (·.pat)) t t.length = none) :
    parseNext (lang u g).noAct ((lang u g).ld l) t (.at t.length false) = none := by
  show parseNext NA.none (compile NA.none (rules u g l) (dflt l)) t (.at t.length false) = _
  have hd : ∃ tg, dflt l = .target tg := by cases l <;> exact ⟨_, rfl⟩
  obtain ⟨tg, hd⟩ := hd
  rw [hd]
  cases hr : rules u g l with
  | nil => simp [compile, parseNext, tailTok]
  | cons r rs =>
    rw [hr] at h
    simp only [compile, parseNext]
    rw [h]
    simp [tailTok]

theorem close_leave (b : BState Char NL NA) : b.leave.close = b.close := by
  obtain ⟨c, up⟩ := b
  cases up <;> rfl

/-- The tree, when all contexts are left. -/
theorem rep_close : ∀ (n : Nat) {d : List Nat} {fs : Stk} {b : BState Char NL NA}, fs.length = n → Rep u g d fs b.frames → Wf fs → freshN fs = 0 →
    ∃ kids, b.close = .ctx .root kids ∧ objs (itmL (env u g) false kids) = some (closeL d none fs) := by
  intro n
  induction n with
  | zero =>
    intro d fs b hn hr _ _
    have := List.length_eq_zero_iff.1 hn
    subst this
    obtain ⟨r, h1, h2, h3⟩ := hr
    obtain ⟨cur, up⟩ := b
    simp only [BState.frames, List.cons.injEq] at h1
    obtain ⟨rfl, rfl⟩ := h1
    refine ⟨cur.kids, ?_, by simpa [closeL] using h3⟩
    show Node.ctx cur.lex cur.kids = _
    rw [h2]
  | succ n ih =>
    intro d fs b hn hr hw hf
    cases fs with
    | nil => simp at hn
    | cons x fs =>
      obtain ⟨l, o⟩ := x
      cases o with
      | none => simp [freshN] at hf
      | some v =>
        obtain ⟨f, fr, hfr, hfo, hrep⟩ := hr
        have hlen := rep_len hrep
        have h0 : rank l ≠ 0 := fun h => by have := hw.2.1 (l, some v) (List.mem_cons_self ..) h; simp at this
        have hval := frame_val hfo h0 (hw.2.2 (l, some v) (List.mem_cons_self ..))
        obtain ⟨cur, up⟩ := b
        simp only [BState.frames, List.cons.injEq] at hfr
        obtain ⟨rfl, rfl⟩ := hfr
        obtain ⟨f', fr', rfl⟩ : ∃ f' fr', up = f' :: fr' := by
          cases up with
          | nil => simp at hlen
          | cons f' fr' => exact ⟨_, _, rfl⟩
        have hnext := rep_add hrep hval
        have hw' : Wf (phys d (some v) fs).fs := wf_pop hw
        obtain ⟨kids, h1, h2⟩ := ih (d := (addM v ⟨d, fs⟩).done) (fs := (addM v ⟨d, fs⟩).fs)
          (b := (⟨cur, f' :: fr'⟩ : BState Char NL NA).leave) (by
            have : (addM v ⟨d, fs⟩).fs.length = fs.length := by
              show (addL v fs).length = fs.length
              simpa using congrArg List.length (addL_lex v fs)
            simp only [List.length_cons] at hn
            omega) hnext hw' (freshN_add d v fs)
        rw [close_leave] at h1
        refine ⟨kids, h1, ?_⟩
        rw [h2]
        cases fs with
        | nil => simp [addM, addL, closeL, plus]
        | cons y fs =>
          obtain ⟨l', o'⟩ := y
          simp only [addM, addL, closeL, plus]
          cases o' <;> simp

theorem rep_drop {d : List Nat} : ∀ {fs : Stk} {fr : List (Frame Char NL NA)}, Rep u g d fs fr → Wf fs →
    ∃ fs', Rep u g d fs' (fr.drop (freshN fs)) ∧ Wf fs' ∧ freshN fs' = 0 ∧ closeL d none fs = closeL d none fs' := by
  intro fs
  induction fs with
  | nil => intro fr h hw; exact ⟨[], h, hw, rfl, rfl⟩
  | cons x fs ih =>
    intro fr h hw
    obtain ⟨l, o⟩ := x
    cases o with
    | some v => exact ⟨_, h, hw, by simp [freshN], rfl⟩
    | none =>
      obtain ⟨f, fr', rfl, h2, h3⟩ := h
      obtain ⟨fs', h4, h5, h6, h7⟩ := ih h3 (wf_tail hw)
      refine ⟨fs', ?_, h5, h6, by rw [← h7]; rfl⟩
      have : freshN ((l, none) :: fs) = freshN fs + 1 := by simp [freshN]
      rw [this, List.drop_succ_cons]
      exact h4

/-- The tree for a text: its root has the values that the machine has at the end. -/
theorem gm_finish {m : M} {P : Circ → Prop} (h : GM u g t 0 ⟨[], []⟩ (· = []) t.length m P) (hw : Wf m.fs)
    (he : ∀ l, rxMatch ((rules u g l).map (·.pat)) t t.length = none) :
    ∃ k evs kids, lexRun (lang u g) t k (LState.start [.root] 0) = (evs, none) ∧ buildEvents .root evs = .ctx .root kids ∧
      objs (itmL (env u g) false kids) = some m.close := by
  obtain ⟨B', c', h1, h2, h3⟩ := h ⟨⟨.root, []⟩, []⟩ [] ⟨_, rfl, rfl, rfl⟩ rfl
  obtain ⟨fs', h4, h5, h6, h7⟩ := rep_drop h1 hw
  have hlen := rep_len h4
  obtain ⟨b', hb'⟩ : ∃ b' : BState Char NL NA, B'.frames.drop (freshN m.fs) = b'.frames := by
    cases hd : B'.frames.drop (freshN m.fs) with
    | nil => rw [hd] at hlen; simp at hlen
    | cons f fr => exact ⟨⟨f, fr⟩, rfl⟩
  rw [hb'] at h4
  obtain ⟨k, evs, h8, h9⟩ := fgoes_finish (lang := lang u g) (t := t) (root := NL.root) (x := ⟨t.length, B', freshN m.fs, c'⟩) h3 hb' (by
    intro s b hat
    obtain ⟨hs, hp, _, _, _⟩ := hat
    unfold lexStep
    rw [hs]
    simp only [BState.stack] at hp ⊢
    rw [hp, parse_end (he _)])
  obtain ⟨kids, h10, h11⟩ := rep_close (b := b') _ rfl h4 h5 h6
  refine ⟨k, evs, kids, h8, by rw [h9, h10], ?_⟩
  rw [h11, ← h7]
  rfl

/-! ### Any text -/

/-- What can happen in a lexicon: no rule matches; blanks are read; or a token is read that leaves the context and
    enters only contexts below it, and the text of which is known to the transform if it is for a number below hundred. -/
inductive Move (u : Uni) (g : Tongue) (t : List Char) (p : Nat) (l : NL) : Prop
  | miss : rxMatch ((rules u g l).map (·.pat)) t p = none → Move u g t p l
  | blank {s : List Char} : BlankAt u t p s → l ≠ .number → Move u g t p l
  | tok {tok : Tok Char NL NA RM} {ps' : PS RM} {k : Kind} {ls : List NL} {vs : List Nat} :
      parseNext (lang u g).noAct ((lang u g).ld l) t (.at p false) = some (tok, ps') → tok.pos = p → tok.text ≠ [] →
      p + tok.text.length ≤ t.length → tok.tgt = some ⟨1, ls⟩ → accept l k = some ls → (lang u g).expand tok ≠ [] →
      (rank l = 0 → texts u g.values ((makeTokens ((lang u g).expand tok)).map .tok) = some vs) → Move u g t p l

theorem frame_tok {f : Frame Char NL NA} {l : NL} {o : Option Nat} {k : Kind} {ls : List NL} {ts : List (TokN Char NA)} {vs : List Nat}
    (h : FrameOK u g f (l, o)) (ha : accept l k = some ls) (ht : ts ≠ []) (h0 : rank l = 0 → o = none ∧ texts u g.values (ts.map .tok) = some vs) :
    NodeVal u g (.ctx f.lex (f.kids ++ ts.map .tok)) (if rank l = 0 then vs.sum else gain l o k) := by
  by_cases hr : rank l = 0
  · rw [if_pos hr]
    obtain ⟨rfl, h3⟩ := h0 hr
    obtain ⟨h1, h2⟩ := h
    simp only at h1 h2
    subst h1
    refine ⟨f.lex, ?_⟩
    have hv : n99Of u g.values (itmL (env u g) false (f.kids ++ ts.map .tok)) = .int vs.sum := by
      rw [h2, List.nil_append, itmL_toks]
      simp only [n99Of, h3]
    cases hl : f.lex <;> simp only [hl, rank] at hr hv <;> try omega
    · show [TItm.item NL.n99 (n99Of u g.values (itmL (env u g) false (f.kids ++ ts.map .tok)))] = _
      rw [hv]
    · show [TItm.item NL.p1 (n99Of u g.values (itmL (env u g) false (f.kids ++ ts.map .tok)))] = _
      rw [hv]
  · rw [if_neg hr]
    exact frame_hit h ha ht (fun h => absurd h hr)

/-- Contexts are left until something is read. -/
theorem gm_chain {p : Nat} (hp : p < t.length) (hmv : ∀ l, l ≠ .root → Move u g t p l) {d : List Nat} {fs : Stk} :
    ∀ {x : Option Nat} {P : Circ → Prop}, Wf (phys d x fs).fs → (∀ c n, P c → P (circNext (p, n, 0) c)) →
    (∃ p' m', p < p' ∧ p' ≤ t.length ∧ Wf m'.fs ∧ GM u g t p (phys d x fs) P p' m' (fun c => c = [] ∨ P c)) ∨
    ((∀ y ∈ fs, rxMatch ((rules u g y.1).map (·.pat)) t p = none) ∧ ∃ d', GM u g t p (phys d x fs) P p ⟨d', []⟩ P) := by
  induction fs with
  | nil =>
    intro x P _ _
    refine Or.inr ⟨fun y hy => by simp at hy, d ++ x.toList, ?_⟩
    have : phys d x [] = ⟨d ++ x.toList, []⟩ := by cases x <;> simp [phys, addM, addL]
    rw [this]
    exact .refl (fun _ h => h)
  | cons f fs ih =>
    intro x P hw hP
    obtain ⟨l, o⟩ := f
    rw [phys_cons] at hw ⊢
    have hlr : l ≠ .root := hw.2.2 (l, plus o x) (List.mem_cons_self ..)
    cases hmv l hlr with
    | miss hmiss =>
      have h1 := (gm_pop (d := d) hw hp hmiss P).mono (Q := P) (Q' := P) (fun _ h => h) (by
        rintro c' ⟨c, hc, rfl⟩
        exact hP c _ hc)
      rcases ih (x := plus o x) (P := P) (wf_pop hw) hP with ⟨p', m', h2, h3, h4, h5⟩ | ⟨h2, d', h3⟩
      · exact Or.inl ⟨p', m', h2, h3, h4, h1.trans h5⟩
      · refine Or.inr ⟨fun y hy => ?_, d', h1.trans h3⟩
        rcases List.mem_cons.1 hy with rfl | hy
        · exact hmiss
        · exact h2 y hy
    | @blank s hb hn =>
      have hpos := List.length_pos_iff.2 hb.ne
      refine Or.inl ⟨p + s.length, _, by omega, ?_, hw, (gm_skip hb hlr hn P).mono (fun _ h => h) (fun _ h => Or.inr h)⟩
      obtain ⟨post, h1, _⟩ := hb.here
      have := congrArg List.length h1
      simp at this
      omega
    | @tok tok ps' k ls vs h1 h2 h3 h4 h5 h6 h7 h8 =>
      have hpos := List.length_pos_iff.2 h3
      refine Or.inl ⟨p + tok.text.length, _, by omega, h4, ?_, (gm_tok (u := u) (g := g) (t := t) (d := d) (o := plus o x) (fs := fs) h1 h2 h3 h5 h7
        (fun f hf => frame_tok (vs := vs) hf h6 (tokens_ne h7) (fun h0 => ⟨hw.2.1 (l, plus o x) (List.mem_cons_self ..) h0, h8 h0⟩)) P).mono
        (fun _ h => h) (fun _ h => Or.inl h)⟩
      exact wf_hit hw h6

/-- The lexer gets ahead. -/
theorem gm_progress {p : Nat} (hp : p < t.length) (hmv : ∀ l, l ≠ .root → Move u g t p l)
    (hp1 : rxMatch ((rules u g .n99).map (·.pat)) t p = none → rxMatch ((rules u g .p1).map (·.pat)) t p = none) {m : M} (hw : Wf m.fs) :
    ∃ p' m', p < p' ∧ p' ≤ t.length ∧ Wf m'.fs ∧ GM u g t p m (Before p) p' m' (Before p') := by
  by_cases hj : ∀ y ∈ fullFs, rxMatch ((rules u g y.1).map (·.pat)) t p = none
  · have hn : ∀ l, l ≠ .root → rxMatch ((rules u g l).map (·.pat)) t p = none := by
      intro l hl
      cases l with
      | root => exact absurd rfl hl
      | number => exact hj (.number, none) (by decide)
      | n99 => exact hj (.n99, none) (by decide)
      | p1 => exact hp1 (hj (.n99, none) (by decide))
      | p2 => exact hj (.p2, none) (by decide)
      | p3 => exact hj (.p3, none) (by decide)
      | p6 => exact hj (.p6, none) (by decide)
    exact ⟨p + 1, _, by omega, by omega, wf_full, (gm_junk ⟨hp, hn⟩ hw).mono (fun _ h => h) (by rintro c rfl e he; cases he)⟩
  · have hle : ∀ {p' : Nat} {Q : Circ → Prop}, p < p' → (∀ c, Q c → ∀ e ∈ c, e.1 ≤ p) → ∀ c, c = [] ∨ Q c → Before p' c := by
      rintro p' Q hlt hQ c (rfl | hc) e he
      · cases he
      · have := hQ c hc e he; omega
    have hcl : ∀ c n, ((∀ e ∈ c, e.1 ≤ p) ∧ (p, 1, 5) ∉ c) → (∀ e ∈ circNext (p, n, 0) c, e.1 ≤ p) ∧ (p, 1, 5) ∉ circNext (p, n, 0) c := by
      intro c n hc
      refine ⟨fun e he => ?_, fun hm => ?_⟩
      · rcases mem_circNext he with rfl | he
        · exact Nat.le_refl _
        · exact hc.1 e he
      · rcases mem_circNext hm with hm | hm
        · simp at hm
        · exact hc.2 hm
    have hst : ∀ c, Before p c → (∀ e ∈ c, e.1 ≤ p) ∧ (p, 1, 5) ∉ c := fun c hc =>
      ⟨fun e he => Nat.le_of_lt (hc e he), fun h => Nat.lt_irrefl _ (hc _ h)⟩
    rcases gm_chain hp hmv (d := m.done) (x := none) (fs := m.fs) (P := fun c => (∀ e ∈ c, e.1 ≤ p) ∧ (p, 1, 5) ∉ c) hw hcl with
      ⟨p', m', h1, h2, h3, h4⟩ | ⟨_, d', h4⟩
    · exact ⟨p', m', h1, h2, h3, h4.mono hst (hle h1 (fun c hc => hc.1))⟩
    · have h5 := (h4.mono (Q := Before p) hst (fun _ h => h)).trans (gm_root (d := d') hp _ (fun c hc => hc.2))
      rcases gm_chain hp hmv (d := d') (x := none) (fs := fullFs) (P := fun c => ∀ e ∈ c, e.1 ≤ p) wf_full (by
        intro c n hc e he
        rcases mem_circNext he with rfl | he
        · exact Nat.le_refl _
        · exact hc e he) with ⟨p', m', h1, h2, h3, h6⟩ | ⟨h6, _⟩
      · refine ⟨p', m', h1, h2, h3, (h5.trans (h6.mono ?_ (fun _ h => h))).mono (fun _ h => h) (hle h1 (fun c hc => hc))⟩
        rintro c' ⟨c, hc, rfl⟩ e he
        rcases List.mem_cons.1 he with rfl | he
        · exact Nat.le_refl _
        · exact hc.1 e he
      · exact absurd h6 hj

/-- The lexer gets to the end of any text. -/
theorem gm_all (hmv : ∀ p, p < t.length → ∀ l, l ≠ .root → Move u g t p l)
    (hp1 : ∀ p, p < t.length → rxMatch ((rules u g .n99).map (·.pat)) t p = none → rxMatch ((rules u g .p1).map (·.pat)) t p = none) :
    ∀ (n p : Nat) {m : M}, t.length - p = n → p ≤ t.length → Wf m.fs → ∃ m', Wf m'.fs ∧ GM u g t p m (Before p) t.length m' (Before t.length) := by
  intro n
  induction n using Nat.strongRecOn with
  | _ n ih =>
    intro p m hn hp hw
    by_cases h : p = t.length
    · subst h
      exact ⟨m, hw, .refl (fun _ h => h)⟩
    · obtain ⟨p', m', h1, h2, h3, h4⟩ := gm_progress (p := p) (by omega) (hmv p (by omega)) (hp1 p (by omega)) hw
      obtain ⟨m'', h5, h6⟩ := ih (t.length - p') (by omega) p' rfl h2 h3
      exact ⟨m'', h5, h4.trans h6⟩

end Parce.Num

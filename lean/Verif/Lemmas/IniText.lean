import Verif.Lemmas.IniEnd
import Verif.Lemmas.IniVal
import Verif.Lemmas.TransformTree
/-!
# How the lines of INI texts are lexed
-/
namespace Parce.Ini
variable {word : Nat → Bool} {hex : List Nat → Option Nat} {t : List Nat}

/-- Between the parts of a line, when the root has the nodes `ns`, if it ends here. -/
inductive State (ns : List Nd) (p : Nat) : FS → Prop
  | root {cr : List (Nat × Nat × Nat)} : State ns p ⟨p, R ns, 0, cr⟩
  | inside {l : IL} {ks ns0 : List Nd} {f : Nat} {cr : List (Nat × Nat × Nat)} : Vl l → Ok f ks → ns = ns0 ++ closed l ks →
      State ns p ⟨p, In l ks ns0, f, cr⟩

/-- At the start of a line. -/
inductive Start (ns : List Nd) (p : Nat) : FS → Prop
  | root : Start ns p ⟨p, R ns, 0, []⟩
  | key : Start ns p ⟨p, In .key [] ns, 1, []⟩

theorem Start.state {ns : List Nd} {p : Nat} {x : FS} (h : Start ns p x) : State ns p x := by
  cases h with
  | root => exact .root
  | key => exact .inside (Or.inl rfl) (Or.inl ⟨rfl, rfl⟩) (by simp [closed])

/-- Nothing of a string can be here. -/
def Over (post : List Nat) : Prop := ∀ c, post.head? = some c → plain c = false ∧ c ≠ 92

theorem over_fails {p : Nat} {post : List Nat} (hd : t.drop p = post) (h : Over post) : Fails t escapePat p :=
  escape_fails (by
    rw [drop_head hd]
    intro h1
    exact (h 92 h1).2 rfl)

theorem to_root {ns : List Nd} {p c : Nat} {x : FS} {post : List Nat} (hx : State ns p x) (hd : t.drop p = c :: post) (h : Over (c :: post)) :
    ∃ cr, G word t x ⟨p, R ns, 0, cr⟩ := by
  cases hx with
  | root => exact ⟨_, .refl _⟩
  | inside hl hok he =>
    obtain ⟨cr, h1⟩ := go_leave (word := word) hl (drop_get hd) (h c rfl).1 (over_fails hd h) hok
    exact ⟨cr, by rw [he]; exact h1⟩

/-- A line end. -/
theorem go_newline {ns : List Nd} {p : Nat} {x : FS} {post : List Nat} (hx : State ns p x) (hd : t.drop p = 10 :: post) :
    G word t x ⟨p + 1, In .key [] ns, 1, []⟩ := by
  have ho : Over (10 :: post) := by
    intro c hc
    cases hc
    exact ⟨newline_plain, by decide⟩
  obtain ⟨cr, h1⟩ := to_root (word := word) hx hd ho
  exact h1.trans (go_junk (drop_get hd) (by decide) newline_plain (over_fails hd ho))

/-! ### Strings -/

def toks (ts : List (TokN Nat IA)) : List Nd := ts.map .tok

theorem safe_full {p : Piece} (h : p.ok safe) : p.ok full := by
  cases p with
  | char c =>
    simp only [Piece.ok, safe, full, List.mem_cons, List.not_mem_nil, or_false, not_or] at *
    omega
  | esc c =>
    simp only [Piece.ok, safe, full, List.mem_cons, List.not_mem_nil, or_false, List.mem_append] at *
    omega
  | hex x a b c d => exact h

theorem safe_plain {c : Nat} (h : (Piece.char c).ok safe) : plain c = true := by
  simp only [Piece.ok, safe, List.mem_cons, List.not_mem_nil, or_false, not_or] at h
  rw [plain_iff]
  omega

theorem written_map (w : List Nat) : written (w.map .char) = w := by
  unfold written
  induction w with
  | nil => rfl
  | cons c w ih => simp only [List.map_cons, List.flatMap_cons, ih, Piece.text, List.singleton_append]

theorem written_append (a b : List Piece) : written (a ++ b) = written a ++ written b := by
  simp [written]

/-- The pieces of a key or a value. -/
theorem go_pieces {l : IL} (hl : Vl l) {ps : List Piece} {ws : List (List Nat)} (h : Runs ps ws) : ∀ {p f : Nat} {ks ns : List Nd}
    {cr : List (Nat × Nat × Nat)} {post : List Nat}, (∀ w ∈ ws, w ≠ []) → (∀ p ∈ ps, p.ok safe) → t.drop p = written ps ++ post → Over post →
    Ok f ks → ∃ ts f', G word t ⟨p, In l ks ns, f, cr⟩ ⟨p + (written ps).length, In l (ks ++ toks ts) ns, f', cr⟩ ∧ Ok f' (ks ++ toks ts) ∧
      ts.map (·.text) = ws := by
  induction h with
  | nil =>
    intro p f ks ns cr post _ _ _ _ hok
    exact ⟨[], f, by simp [written, toks]; exact .refl _, by simpa [toks] using hok, rfl⟩
  | @esc e ps ws he _ ih =>
    intro p f ks ns cr post hne hps hd ho hok
    have hw : written (e :: ps) = e.text ++ written ps := rfl
    rw [hw, List.append_assoc] at hd
    have h1 := go_escape (word := word) hl (n := f) (ks := ks) (ns := ns) (cr := cr) hd (safe_full (hps e (List.mem_cons_self ..))) he
    obtain ⟨ts, f', h2, h3, h4⟩ := ih (f := 0) (ks := ks ++ [tk p e.text .escape]) (ns := ns) (cr := cr)
      (fun w hw => hne w (List.mem_cons_of_mem _ hw)) (fun p hp => hps p (List.mem_cons_of_mem _ hp)) (drop_add hd) ho (Or.inr ⟨rfl, by simp⟩)
    refine ⟨⟨p, e.text, .escape, none⟩ :: ts, f', ?_, ?_, by simp [h4]⟩
    · have := h1.trans h2
      rw [hw, List.length_append, ← Nat.add_assoc]
      simpa [toks, tk] using this
    · simpa [toks, tk] using h3
  | @run w ps ws hp _ _ ih =>
    intro p f ks ns cr post hne hps hd ho hok
    rw [written_append, written_map, List.append_assoc] at hd
    have hwne : w ≠ [] := hne w (List.mem_cons_self ..)
    have hov : ∀ c, (written ps ++ post).head? = some c → plain c = false := by
      cases ps with
      | nil => exact fun c hc => (ho c hc).1
      | cons q ps =>
        intro c hc
        cases q with
        | char c => exact absurd rfl (hp c)
        | esc d => cases hc; decide
        | hex x a b d e => cases hc; decide
    have h1 := go_run (word := word) hl (n := f) (ks := ks) (ns := ns) (cr := cr) hd hwne
      (fun c hc => safe_plain (hps (.char c) (List.mem_append_left _ (List.mem_map.2 ⟨c, hc, rfl⟩)))) hov
    obtain ⟨ts, f', h2, h3, h4⟩ := ih (f := 0) (ks := ks ++ [tk p w (act l)]) (ns := ns) (cr := cr)
      (fun w hw => hne w (List.mem_cons_of_mem _ hw)) (fun p hp => hps p (List.mem_append_right _ hp)) (drop_add hd) ho (Or.inr ⟨rfl, by simp⟩)
    refine ⟨⟨p, w, act l, none⟩ :: ts, f', ?_, ?_, by simp [h4]⟩
    · have := h1.trans h2
      rw [written_append, written_map, List.length_append, ← Nat.add_assoc]
      simpa [toks, tk] using this
    · simpa [toks, tk] using h3

theorem runs_empty {ps : List Piece} {ws : List (List Nat)} (h : Runs ps ws) (hne : ∀ w ∈ ws, w ≠ []) : ws = [] ↔ ps = [] := by
  constructor
  · rintro rfl; exact runs_nil h
  · rintro rfl; exact runs_of_nil h hne

/-- The tokens of a string. -/
def Toks (ps : List Piece) (ts : List (TokN Nat IA)) : Prop := Runs ps (ts.map (·.text)) ∧ (ts = [] ↔ ps = [])

theorem go_string {l : IL} (hl : Vl l) {ps : List Piece} {p f : Nat} {ns : List Nd} {cr : List (Nat × Nat × Nat)} {post : List Nat}
    (hps : ∀ p ∈ ps, p.ok safe) (hd : t.drop p = written ps ++ post) (ho : Over post) (hok : Ok f []) :
    ∃ ts y, G word t ⟨p, In l [] ns, f, cr⟩ y ∧ State (ns ++ closed l (toks ts)) (p + (written ps).length) y ∧ Toks ps ts := by
  obtain ⟨ws, h1, h2⟩ := runs_exist ps
  obtain ⟨ts, f', h3, h4, h5⟩ := go_pieces (word := word) hl h1 (f := f) (ks := []) (ns := ns) (cr := cr) h2 hps hd ho hok
  refine ⟨ts, _, h3, .inside hl h4 rfl, ?_, ?_⟩
  · rw [h5]; exact h1
  · rw [← runs_empty h1 h2, ← h5]; simp

theorem key_first {k : List Piece} (hk : KeyOk safe k) (h : k ≠ []) :
    ∃ c r, written k = c :: r ∧ (c ≠ 91 ∧ c ≠ 59 ∧ c ≠ 35 ∧ c ≠ 61) := by
  obtain ⟨q, qs, rfl⟩ := List.exists_cons_of_ne_nil h
  have h1 := hk.1 q (List.mem_cons_self ..)
  cases q with
  | char c =>
    refine ⟨c, _, rfl, ?_⟩
    have := plain_iff.1 (safe_plain h1.1)
    omega
  | esc c => exact ⟨92, _, rfl, by decide⟩
  | hex x a b c d => exact ⟨92, _, rfl, by decide⟩

/-- A string at the start of a line, or after the name of a section. -/
theorem go_keys {k : List Piece} {p : Nat} {ns : List Nd} {x : FS} {post : List Nat} (hx : Start ns p x) (hk : KeyOk safe k)
    (hd : t.drop p = written k ++ post) (ho : Over post) :
    ∃ ts y, G word t x y ∧ State (ns ++ closed .key (toks ts)) (p + (written k).length) y ∧ Toks k ts := by
  by_cases h : k = []
  · subst h
    refine ⟨[], x, .refl _, ?_, Runs.nil, by simp⟩
    simpa [closed, toks, written] using hx.state
  · have : ∃ cr, G word t x ⟨p, In .key [] ns, 1, cr⟩ := by
      cases hx with
      | key => exact ⟨_, .refl _⟩
      | root =>
        obtain ⟨c, r, h1, h2⟩ := key_first hk h
        rw [h1] at hd
        exact ⟨_, go_key (drop_get hd) h2⟩
    obtain ⟨cr, h1⟩ := this
    obtain ⟨ts, y, h2, h3, h4⟩ := go_string (word := word) (l := .key) (Or.inl rfl) (ns := ns) (cr := cr) (fun p hp => (hk.1 p hp).1) hd ho (Or.inl ⟨rfl, rfl⟩)
    exact ⟨ts, y, h1.trans h2, h3, h4⟩

/-! ### Items -/

/-- The items of what a line contains. -/
inductive CItems : Content → List Itm → Prop
  | nothing : CItems (.idle []) []
  | idle {ps : List Piece} {s : List Nat} : CItems (.idle ps) [.item .key (.str s)]
  | head {n : List Nat} {ps : List Piece} {k : TokN Nat IA} {is : List Itm} : k.act ≠ .assign → (is = [] ∨ ∃ s, is = [.item .key (.str s)]) →
      CItems (.head n ps) (.tok k :: .item .section (.str (headName n)) :: is)
  | unset {k : List Piece} {a : TokN Nat IA} : a.act = .assign → CItems (.assign k []) [.item .key (.str (stripped k)), .tok a]
  | assign {k v : List Piece} {a : TokN Nat IA} : a.act = .assign → v ≠ [] →
      CItems (.assign k v) [.item .key (.str (stripped k)), .tok a, .item .value (.str (stripped v))]

inductive MItems : Option (Nat × List Nat) → List Itm → Prop
  | none : MItems none []
  | some {c : Nat × List Nat} {k : TokN Nat IA} : k.act ≠ .assign → MItems (some c) [.tok k]

inductive LItems : List Line → List Itm → Prop
  | nil : LItems [] []
  | line {l : Line} {ls : List Line} {a b c : List Itm} : CItems l.content a → MItems l.comment b → LItems ls c → LItems (l :: ls) (a ++ (b ++ c))

/-- All contexts have only tokens. -/
def Flat (ns : List Nd) : Prop := ∀ l ks, .ctx l ks ∈ ns → ∀ k ∈ ks, IsTok k

theorem flat_nil : Flat [] := by intro l ks h; cases h

theorem flat_append {a b : List Nd} (ha : Flat a) (hb : Flat b) : Flat (a ++ b) := by
  intro l ks h
  rcases List.mem_append.1 h with h | h
  · exact ha l ks h
  · exact hb l ks h

theorem flat_tok (p : Nat) (w : List Nat) (a : IA) : Flat [tk p w a] := by
  intro l ks h
  simp [tk] at h

theorem toks_isTok (ts : List (TokN Nat IA)) : ∀ k ∈ toks ts, IsTok k := by
  intro k hk
  obtain ⟨x, _, rfl⟩ := List.mem_map.1 hk
  exact ⟨x, rfl⟩

theorem flat_closed {l : IL} {ks : List Nd} (h : ∀ k ∈ ks, IsTok k) : Flat (closed l ks) := by
  intro l' ks' h'
  unfold closed at h'
  split at h'
  · cases h'
  · simp only [List.mem_singleton, Node.ctx.injEq] at h'
    rw [h'.2]; exact h

/-- The last node is a comment. -/
def ComLast (ns : List Nd) : Prop := ∃ ks, ns.getLast? = some (.ctx .comment ks)

theorem itm_toks (ts : List (TokN Nat IA)) : itmL (env hex) false (toks ts) = itms ts := by
  induction ts with
  | nil => rfl
  | cons a ts ih =>
    show Node.itm (env hex) false (.tok a) ++ itmL (env hex) false (toks ts) = _
    rw [ih]; rfl

theorem itm_closed_key (ts : List (TokN Nat IA)) : itmL (env hex) false (closed .key (toks ts)) =
    if ts = [] then [] else [.item .key (valuesOf hex (itms ts))] := by
  by_cases h : ts = []
  · simp [h, closed, toks, itmL]
  · have : toks ts ≠ [] := by simpa [toks] using h
    rw [closed, if_neg this, if_neg h]
    show [TItm.item IL.key (valuesOf hex (itmL (env hex) false (toks ts)))] ++ [] = _
    rw [itm_toks]; rfl

theorem itm_closed_value (ts : List (TokN Nat IA)) : itmL (env hex) false (closed .value (toks ts)) =
    if ts = [] then [] else [.item .value (valuesOf hex (itms ts))] := by
  by_cases h : ts = []
  · simp [h, closed, toks, itmL]
  · have : toks ts ≠ [] := by simpa [toks] using h
    rw [closed, if_neg this, if_neg h]
    show [TItm.item IL.value (valuesOf hex (itmL (env hex) false (toks ts)))] ++ [] = _
    rw [itm_toks]; rfl

theorem itm_closed_comment (ks : List Nd) : itmL (env hex) false (closed .comment ks) = [] := by
  unfold closed
  split <;> rfl

/-- The name of a section. -/
theorem section_value {n : List Nat} (h : (headName n).head? ≠ some 92) (p : Nat) :
    itmL (env hex) false [.ctx .section (nameToks p n)] = [.item .section (.str (headName n))] := by
  show [TItm.item IL.section (sectionOf hex (itmL (env hex) false (nameToks p n)))] ++ [] = _
  have hh : headName n = rstrip (lstrip n) := by
    unfold headName stripped
    rw [map_dropWhile]
    have := map_rstrip (lstrip n)
    unfold rstripP at this
    rw [this, List.map_map]
    exact List.map_id'' (fun _ => rfl) _
  suffices hs : sectionOf hex (itmL (env hex) false (nameToks p n)) = .str (headName n) by rw [hs]; rfl
  by_cases hn : n = []
  · subst hn
    rfl
  · have h2 : isEscape (rstrip (lstrip n)) = false := by
      rw [← hh]
      unfold isEscape
      simpa using h
    have h1 : isEscape (lstrip n) = false := by
      cases hl : lstrip n with
      | nil => rfl
      | cons c r =>
        by_cases hc : c = 92
        · exfalso
          have h3 := map_rstrip (lstrip n)
          rw [hl, hc, List.map_cons, rstripP_cons rfl] at h3
          rw [hl, hc] at h2
          cases h4 : rstrip (92 :: r) with
          | nil => rw [h4] at h3; simp at h3
          | cons d s =>
            rw [h4] at h3 h2
            simp only [List.map_cons, List.cons.injEq, Piece.char.injEq] at h3
            rw [← h3.1] at h2
            simp [isEscape] at h2
        · simp [isEscape, hc]
    have h0 : isEscape n = false := by
      cases n with
      | nil => rfl
      | cons c r =>
        by_cases hc : c = 92
        · subst hc
          have : lstrip (92 :: r) = 92 :: r := by simp [lstrip, blank]
          rw [this] at h1
          exact h1
        · simp [isEscape, hc]
    have hi : itmL (env hex) false (nameToks p n) = itms [⟨p, n, .space, none⟩] ++ [.tok ⟨p + n.length, [93], .stop, none⟩] := by
      simp [nameToks, hn, tk, itmL, Node.itm, itms]
    rw [hi]
    unfold sectionOf
    rw [List.getLast?_concat]
    simp only [if_true, List.dropLast_concat]
    unfold valuesOf
    rw [mapM_text]
    have hu : unescape hex (rstrip (lstrip n)) = some (rstrip (lstrip n)) := by
      unfold unescape
      rw [h2]; rfl
    simp only [List.map_cons, List.map_nil, Option.bind_some, stripFirst, h0, Bool.false_eq_true, if_false, stripLast, h1, List.mapM_cons, List.mapM_nil,
      hu, hh]
    simp

/-! ### Lines -/

theorem toks_value (hh : HexOk hex) {ps : List Piece} {ts : List (TokN Nat IA)} (h : Toks ps ts) (hok : ∀ p ∈ ps, p.ok safe) :
    valuesOf hex (itms ts) = .str (stripped ps) := values_runs hh h.1 hok

theorem closed_last {l : IL} (hl : l ≠ .comment) (ks : List Nd) : ¬ ComLast (closed l ks) := by
  rintro ⟨k, h⟩
  unfold closed at h
  split at h
  · cases h
  · simp at h; exact hl h.1

theorem comLast_append {a b : List Nd} : ComLast (a ++ b) ↔ ComLast b ∨ (b = [] ∧ ComLast a) := by
  by_cases h : b = []
  · subst h
    simp [ComLast]
  · unfold ComLast
    rw [List.getLast?_append]
    obtain ⟨x, hx⟩ : ∃ x, b.getLast? = some x := by
      cases hb : b.getLast? with
      | none => exact absurd (List.getLast?_eq_none_iff.1 hb) h
      | some x => exact ⟨x, rfl⟩
    simp [hx, h]

theorem comLast_tok (p : Nat) (w : List Nat) (a : IA) : ¬ ComLast [tk p w a] := by
  rintro ⟨k, h⟩
  simp [tk] at h

theorem toks_nil {ps : List Piece} {ts : List (TokN Nat IA)} (h : Toks ps ts) {l : IL} : closed l (toks ts) = [] ↔ ps = [] := by
  rw [← h.2]
  unfold closed
  constructor
  · intro h'
    split at h'
    · next he => simpa [toks] using he
    · cases h'
  · rintro rfl
    simp [toks]

theorem written_nil {ps : List Piece} : written ps = [] ↔ ps = [] := by
  constructor
  · intro h
    cases ps with
    | nil => rfl
    | cons q ps => cases q <;> simp [written, Piece.text] at h
  · rintro rfl; rfl

/-- What a line contains. -/
theorem go_content (hh : HexOk hex) {c : Content} {p : Nat} {ns : List Nd} {x : FS} {post : List Nat} (hx : Start ns p x) (hc : c.ok safe)
    (hd : t.drop p = c.text ++ post) (ho : Over post) :
    ∃ ns1 y, G word t x y ∧ State (ns ++ ns1) (p + c.text.length) y ∧ CItems c (itmL (env hex) false ns1) ∧ Flat ns1 ∧ ¬ ComLast ns1 ∧
      (ns1 = [] ↔ c.text = []) := by
  cases c with
  | idle ps =>
    obtain ⟨ts, y, h1, h2, h3⟩ := go_keys (word := word) hx hc hd ho
    refine ⟨_, y, h1, h2, ?_, flat_closed (toks_isTok ts), closed_last (by decide) _, ?_⟩
    · rw [itm_closed_key, toks_value hh h3 (fun p hp => (hc.1 p hp).1)]
      by_cases h : ts = []
      · rw [if_pos h]
        have := h3.2.1 h
        subst this
        exact .nothing
      · rw [if_neg h]; exact .idle
    · rw [toks_nil h3]
      exact written_nil.symm
  | head n ps =>
    obtain ⟨hn, hhd, hps⟩ := hc
    have hd1 : t.drop p = 91 :: (n ++ 93 :: (written ps ++ post)) := by
      rw [hd]; simp [Content.text]
    have ho1 : Over (91 :: (n ++ 93 :: (written ps ++ post))) := by
      intro c hc
      cases hc
      decide
    obtain ⟨cr, g1⟩ := to_root (word := word) hx.state hd1 ho1
    have g2 := go_enter (word := word) (n := 0) (ns := ns) (cr := cr) (drop_get hd1) (Or.inl rfl)
    have hd2 : t.drop (p + 1) = n ++ 93 :: (written ps ++ post) := drop_add (w := [91]) hd1
    have g3 := go_section (word := word) (f := 1) (ns := ns ++ [tk p [91] .start]) (cr := []) hd2 (fun h => (hn 93 h).1 rfl)
    have hd3 : t.drop (p + 1 + n.length + 1) = written ps ++ post := drop_add (w := [93]) (drop_add hd2)
    have hk : KeyOk safe ps := by
      refine ⟨fun q hq => ?_, ?_⟩
      · have := hps q hq
        cases q with
        | char c =>
          simp only [Piece.isBlank, Bool.or_eq_true, beq_iff_eq] at this
          refine ⟨?_, ?_⟩
          · simp only [Piece.ok, safe, List.mem_cons, List.not_mem_nil, or_false, not_or]
            omega
          · simp only [ne_eq, Piece.char.injEq]; omega
        | esc c => cases this
        | hex => cases this
      · intro h
        have := hps (.char 91) (List.mem_of_mem_head? h)
        cases this
    obtain ⟨ts, y, g4, g5, g6⟩ := go_keys (word := word) (.root (ns := ns ++ [tk p [91] .start] ++ [.ctx .section (nameToks (p + 1) n)])) hk hd3 ho
    refine ⟨[tk p [91] .start] ++ ([.ctx .section (nameToks (p + 1) n)] ++ closed .key (toks ts)), y, ?_, ?_, ?_, ?_, ?_, ?_⟩
    · exact ((g1.trans g2).trans g3).trans g4
    · have : p + (Content.head n ps).text.length = p + 1 + n.length + 1 + (written ps).length := by
        simp only [Content.text, List.length_append, List.length_cons, List.length_nil]
        omega
      rw [this]
      simpa using g5
    · rw [itmL_append, itmL_append, section_value (hhd 92 (by simp [safe])), itm_closed_key]
      refine CItems.head (k := ⟨p, [91], .start, none⟩) (by simp) ?_
      split
      · exact Or.inl rfl
      · exact Or.inr ⟨stripped ps, congrArg (fun v => [TItm.item IL.key v]) (toks_value hh g6 (fun p hp => (hk.1 p hp).1))⟩
    · refine flat_append (flat_tok _ _ _) (flat_append ?_ (flat_closed (toks_isTok ts)))
      intro l ks h
      simp only [List.mem_singleton, Node.ctx.injEq] at h
      rw [h.2]
      intro k hk
      unfold nameToks at hk
      rcases List.mem_append.1 hk with h | h
      · split at h
        · cases h
        · rw [List.mem_singleton.1 h]; exact ⟨_, rfl⟩
      · rw [List.mem_singleton.1 h]; exact ⟨_, rfl⟩
    · rw [comLast_append, comLast_append]
      rintro ((h | h) | h)
      · exact closed_last (by decide) _ h
      · obtain ⟨_, k, h⟩ := h
        simp at h
      · simp at h
    · simp [Content.text]
  | assign k v =>
    obtain ⟨hk0, hk, hv⟩ := hc
    have hd1 : t.drop p = written k ++ (61 :: (written v ++ post)) := by
      rw [hd]; simp [Content.text]
    have ho1 : Over (61 :: (written v ++ post)) := by
      intro c hc
      cases hc
      decide
    obtain ⟨ts, y, g1, g2, g3⟩ := go_keys (word := word) hx hk hd1 ho1
    have hd2 := drop_add hd1
    obtain ⟨cr, g4⟩ := to_root (word := word) g2 hd2 ho1
    have g5 := go_enter (word := word) (n := 0) (ns := ns ++ closed .key (toks ts)) (cr := cr) (drop_get hd2) (Or.inr (Or.inr (Or.inr rfl)))
    have hd3 : t.drop (p + (written k).length + 1) = written v ++ post := drop_add (w := [61]) hd2
    obtain ⟨ts', z, g6, g7, g8⟩ := go_string (word := word) (l := .value) (Or.inr rfl) (f := 1)
      (ns := ns ++ closed .key (toks ts) ++ [tk (p + (written k).length) [61] .assign]) (cr := []) hv hd3 ho (Or.inl ⟨rfl, rfl⟩)
    have hts : ts ≠ [] := fun h => hk0 (g3.2.1 h)
    refine ⟨closed .key (toks ts) ++ ([tk (p + (written k).length) [61] .assign] ++ closed .value (toks ts')), z, ?_, ?_, ?_, ?_, ?_, ?_⟩
    · exact ((g1.trans g4).trans g5).trans g6
    · have : p + (Content.assign k v).text.length = p + (written k).length + 1 + (written v).length := by
        simp only [Content.text, List.length_append, List.length_cons, List.length_nil]
        omega
      rw [this]
      simpa using g7
    · rw [itmL_append, itmL_append, itm_closed_key, itm_closed_value, if_neg hts, toks_value hh g3 (fun p hp => (hk.1 p hp).1),
        toks_value hh g8 hv]
      by_cases h : ts' = []
      · rw [if_pos h]
        have := g8.2.1 h
        subst this
        exact CItems.unset (a := ⟨p + (written k).length, [61], .assign, none⟩) rfl
      · rw [if_neg h]
        exact CItems.assign (a := ⟨p + (written k).length, [61], .assign, none⟩) rfl (fun h' => h (g8.2.2 h'))
    · exact flat_append (flat_closed (toks_isTok ts)) (flat_append (flat_tok _ _ _) (flat_closed (toks_isTok ts')))
    · rw [comLast_append, comLast_append]
      rintro ((h | h) | h)
      · exact closed_last (by decide) _ h
      · exact comLast_tok _ _ _ h.2
      · simp at h
    · simp [Content.text]

/-- The end of a line, or of the text. -/
def Ends (post : List Nat) : Prop := post = [] ∨ post.head? = some 10

theorem ends_over {post : List Nat} (h : Ends post) : Over post := by
  intro c hc
  rcases h with rfl | h
  · cases hc
  · rw [h] at hc
    cases hc
    decide

theorem go_line (hw : word 10 = false) (hh : HexOk hex) {l : Line} {p : Nat} {ns : List Nd} {x : FS} {post : List Nat} (hx : Start ns p x)
    (hl : l.ok safe) (hd : t.drop p = l.text ++ post) (he : Ends post) (hp : p ≤ t.length) :
    ∃ ns1 y a b, G word t x y ∧ State (ns ++ ns1) (p + l.text.length) y ∧ itmL (env hex) false ns1 = a ++ b ∧ CItems l.content a ∧
      MItems l.comment b ∧ Flat ns1 ∧ (ComLast ns1 ↔ ∃ c w, l.comment = some (c, w) ∧ w ≠ []) ∧ (ns1 = [] ↔ l.text = []) := by
  obtain ⟨c, m⟩ := l
  obtain ⟨hc, hm⟩ := hl
  simp only at hc hm ⊢
  simp only [Line.text, List.append_assoc] at hd ⊢
  cases m with
  | none =>
    obtain ⟨ns1, y, h1, h2, h3, h4, h5, h6⟩ := go_content (word := word) hh hx hc hd (ends_over he)
    exact ⟨ns1, y, _, [], h1, by simpa [commentText] using h2, (List.append_nil _).symm, h3, .none, h4, by simp [h5], by simp [h6, commentText]⟩
  | some cw =>
    obtain ⟨k, w⟩ := cw
    obtain ⟨hk, hw10⟩ := hm k w rfl
    have ho : Over (commentText (some (k, w)) ++ post) := by
      intro d hd
      cases hd
      rcases hk with rfl | rfl <;> decide
    obtain ⟨ns1, y, h1, h2, h3, h4, h5, h6⟩ := go_content (word := word) hh hx hc hd ho
    have hd1 := drop_add hd
    obtain ⟨cr, g1⟩ := to_root (word := word) h2 hd1 ho
    have g2 := go_enter (word := word) (n := 0) (ns := ns ++ ns1) (cr := cr) (drop_get hd1) (by rcases hk with rfl | rfl <;> simp)
    have hd2 : t.drop (p + c.text.length + 1) = w ++ post := drop_add (w := [k]) hd1
    have hlen : p + c.text.length + 1 + w.length ≤ t.length := by
      have := drop_le (w := k :: w) hd1 (by simp)
      simp only [List.length_cons] at this
      omega
    have hend : LineEnd t (p + c.text.length + 1 + w.length) := by
      have := drop_add hd2
      rcases he with rfl | he
      · left
        have := List.drop_eq_nil_iff.1 this
        omega
      · right
        rw [drop_head this, he]
    have hno : ∀ i, p + c.text.length + 1 ≤ i → i < p + c.text.length + 1 + w.length → t[i]? ≠ some 10 := by
      intro i h1 h2 h3
      refine hw10 ?_
      have h4 : (t.drop (p + c.text.length + 1))[i - (p + c.text.length + 1)]? = w[i - (p + c.text.length + 1)]? := by
        rw [hd2, List.getElem?_append_left (by omega)]
      rw [List.getElem?_drop, show p + c.text.length + 1 + (i - (p + c.text.length + 1)) = i by omega, h3] at h4
      exact List.mem_of_getElem? h4.symm
    have hent : entry k = (.comment, .comment) := by rcases hk with rfl | rfl <;> rfl
    rw [hent] at g2
    obtain ⟨ks', cr', g3, g4, g5⟩ := go_comment hw hend hlen (ns := ns ++ ns1 ++ [tk (p + c.text.length) [k] .comment]) _ _ 1 [] []
      (Nat.le_refl _) (by omega) hno (Or.inl ⟨rfl, rfl⟩) (by simp)
    refine ⟨ns1 ++ ([tk (p + c.text.length) [k] .comment] ++ closed .comment ks'), _, itmL (env hex) false ns1, [.tok ⟨p + c.text.length, [k], .comment, none⟩],
      ((h1.trans g1).trans g2).trans g3, ?_, ?_, h3, .some (by simp), ?_, ?_, ?_⟩
    · have : p + (c.text ++ commentText (some (k, w))).length = p + c.text.length + 1 + w.length := by
        simp only [commentText, List.length_append, List.length_cons]
        omega
      rw [this]
      have hst : State (ns ++ ns1 ++ [tk (p + c.text.length) [k] .comment] ++ closed .comment ks') (p + c.text.length + 1 + w.length)
        ⟨p + c.text.length + 1 + w.length, R (ns ++ ns1 ++ [tk (p + c.text.length) [k] .comment] ++ closed .comment ks'), 0, cr'⟩ := .root
      simpa using hst
    · rw [itmL_append, itmL_append, itm_closed_comment]
      rfl
    · exact flat_append h4 (flat_append (flat_tok _ _ _) (flat_closed g5))
    · rw [comLast_append, comLast_append]
      have hcl : ComLast (closed .comment ks') ↔ w ≠ [] := by
        unfold closed
        have : ks' = [] ↔ w = [] := by
          rw [g4]
          simp only [true_and]
          constructor
          · intro h
            exact List.eq_nil_of_length_eq_zero (by omega)
          · rintro rfl; rfl
        split
        · next h =>
          have := this.1 h
          simp [ComLast, this]
        · next h =>
          constructor
          · intro _ h'; exact h (this.2 h')
          · intro _; exact ⟨ks', rfl⟩
      rw [hcl]
      constructor
      · rintro ((h | h) | h)
        · exact ⟨k, w, rfl, h⟩
        · exact absurd h.2 (comLast_tok _ _ _)
        · simp at h
      · rintro ⟨k', w', h, h'⟩
        cases h
        exact Or.inl (Or.inl h')
    · simp [commentText]

theorem ends_cons {l : Line} {ls : List Line} (h : (l :: ls).filter (·.text ≠ []) = []) : l.text = [] ∧ ls.filter (·.text ≠ []) = [] := by
  rw [List.filter_cons] at h
  split at h
  · cases h
  · next hlt => exact ⟨by simpa using hlt, h⟩

/-- The lines of a file. -/
theorem go_file (hw : word 10 = false) (hh : HexOk hex) : ∀ (ls : List Line) {p : Nat} {ns : List Nd} {x : FS}, Start ns p x →
    (∀ l ∈ ls, l.ok safe) → t.drop p = fileText ls → p ≤ t.length →
    ∃ ns1 y, G word t x y ∧ State (ns ++ ns1) t.length y ∧ LItems ls (itmL (env hex) false ns1) ∧ Flat ns1 ∧ (ComLast ns1 ↔ EndsInComment ls) ∧
      (ns1 = [] ↔ ls.filter (·.text ≠ []) = []) := by
  intro ls
  induction ls with
  | nil =>
    intro p ns x hx _ hd hp
    have : p = t.length := by
      have := List.drop_eq_nil_iff.1 hd
      omega
    subst this
    exact ⟨[], x, .refl _, by simpa using hx.state, .nil, flat_nil, by simp [ComLast, EndsInComment], by simp⟩
  | cons l ls ih =>
    intro p ns x hx hok hd hp
    have hl := hok l (List.mem_cons_self ..)
    have one : ∀ {ns1 : List Nd} {b : List Itm}, (ComLast ns1 ↔ ∃ c w, l.comment = some (c, w) ∧ w ≠ []) → (ns1 = [] ↔ l.text = []) →
        ls.filter (·.text ≠ []) = [] → (ComLast ns1 ↔ EndsInComment (l :: ls)) := by
      intro ns1 b h1 h2 h3
      unfold EndsInComment
      rw [List.filter_cons, h3]
      by_cases hlt : l.text = []
      · have : ns1 = [] := h2.2 hlt
        subst this
        simp [hlt, ComLast]
      · rw [if_pos (by simpa using hlt), h1]
        constructor
        · rintro ⟨c, w, g1, g2⟩; exact ⟨l, c, w, rfl, g1, g2⟩
        · rintro ⟨l', c, w, g0, g1, g2⟩
          cases g0
          exact ⟨c, w, g1, g2⟩
    cases ls with
    | nil =>
      obtain ⟨ns1, y, a, b, h1, h2, h3, h4, h5, h6, h7, h8⟩ := go_line hw hh hx hl (post := []) (by simpa [fileText] using hd) (Or.inl rfl) hp
      have hlen : p + l.text.length = t.length := by
        have := congrArg List.length hd
        simp only [List.length_drop, fileText] at this
        omega
      rw [hlen] at h2
      refine ⟨ns1, y, h1, h2, ?_, h6, one (b := b) h7 h8 rfl, ?_⟩
      · rw [h3]
        have := LItems.line h4 h5 .nil
        simpa using this
      · rw [h8]; simp
    | cons l' ls =>
      have hd' : t.drop p = l.text ++ 10 :: fileText (l' :: ls) := hd
      obtain ⟨ns1, y, a, b, h1, h2, h3, h4, h5, h6, h7, h8⟩ := go_line hw hh hx hl hd' (Or.inr rfl) hp
      have hd1 := drop_add hd'
      have g1 := go_newline (word := word) h2 hd1
      have hle : p + l.text.length + 1 ≤ t.length := (List.getElem?_eq_some_iff.1 (drop_get hd1)).1
      obtain ⟨ns2, z, g2, g3, g4, g5, g6, g7⟩ := ih (.key (ns := ns ++ ns1) (p := p + l.text.length + 1))
        (fun l hl => hok l (List.mem_cons_of_mem _ hl)) (drop_add (w := [10]) hd1) hle
      refine ⟨ns1 ++ ns2, z, (h1.trans g1).trans g2, by rw [← List.append_assoc]; exact g3, ?_, flat_append h6 g5, ?_, ?_⟩
      · rw [itmL_append, h3, List.append_assoc]
        exact .line h4 h5 g4
      · rw [comLast_append]
        by_cases hn : ns2 = []
        · have hf := g7.1 hn
          subst hn
          simp only [true_and]
          rw [← one (b := b) h7 h8 hf]
          constructor
          · rintro (⟨k, h⟩ | h)
            · cases h
            · exact h
          · exact Or.inr
        · have hf : (l' :: ls).filter (·.text ≠ []) ≠ [] := fun h => hn (g7.2 h)
          simp only [hn, false_and, or_false]
          rw [g6]
          unfold EndsInComment
          have : ((l :: l' :: ls).filter (·.text ≠ [])).getLast? = ((l' :: ls).filter (·.text ≠ [])).getLast? := by
            rw [List.filter_cons]
            split
            · cases hx : (l' :: ls).filter (·.text ≠ []) with
              | nil => exact absurd hx hf
              | cons q qs => rw [List.getLast?_cons_cons]
            · rfl
          rw [this]
      · rw [List.append_eq_nil_iff, h8, g7]
        constructor
        · rintro ⟨a1, a2⟩
          rw [List.filter_cons, if_neg (by simp [a1])]
          exact a2
        · exact ends_cons

end Parce.Ini

import Verif.Lemmas.JsonTok
import Verif.Lemmas.Transform
/-!
# Strings of JSON
-/
namespace Parce.Json
variable {u : Uni} {t : List Nat}

/-- The steps of the JSON lexer. -/
abbrev JGoes (u : Uni) (t : List Nat) := Goes (ρ := RM) (lang u) t

theorem jgo {p q : Nat} {w : List Nat} {a : JA} {B : BState Nat JL JA} {o : Bool}
    (h : Hit t (rules u B.cur.lex) (dflt B.cur.lex) p q w a none) (ha : a ≠ .skip) :
    JGoes u t ⟨p, B, o⟩ ⟨q + w.length, B.addTok q w a, true⟩ := goes_hit h (by simpa using ha)

theorem jskip {p q : Nat} {w : List Nat} {B : BState Nat JL JA} {o : Bool}
    (h : Hit t (rules u B.cur.lex) (dflt B.cur.lex) p q w .skip none) :
    JGoes u t ⟨p, B, o⟩ ⟨q + w.length, B, true⟩ := goes_hit_skip h rfl

theorem jtarget {p q : Nat} {w : List Nat} {a : JA} {B : BState Nat JL JA} {o : Bool} {tg : Target JL}
    (h : Hit t (rules u B.cur.lex) (dflt B.cur.lex) p q w a (some tg)) (ha : a ≠ .skip) (hp : tg.pop ≤ B.up.length) :
    JGoes u t ⟨p, B, o⟩ ⟨q + w.length, (B.addTok q w a).target (some tg), true⟩ :=
  goes_hit_target h (by simpa using ha) hp (by cases tg.push.getLast? <;> rfl)

theorem hit_end (hu : u.Ascii) {p : Nat} {post : List Nat} (ht : t.drop p = str "\"" ++ post) :
    Hit t (rules u .string) (dflt .string) p p (str "\"") .stop (some ⟨1, []⟩) := by
  have := hit_of (l := .string) (ws := []) (w := str "\"") (a := .stop) (tg := some ⟨1, []⟩) (rs := []) hu rfl (by simp [Ws]) ht (by simp [str])
    (Or.inl rfl) (by simp) (best_str _ ht) (fun _ => rfl)
  simpa using this

/-- The text of an escape, and the character. -/
inductive Esc : List Nat → Nat → Prop
  | chr (e c : Nat) : (e, c) ∈ escapes → Esc [92, e] c
  | hex (w : List Nat) (n : Nat) : Hex4 w n → Esc (92 :: 117 :: w) n

theorem hex_val {c n : Nat} (h : Hex c n) : isHex c = true ∧ n = hexVal c := by
  unfold Hex at h
  unfold isHex hexVal
  rcases h with ⟨h1, h2, rfl⟩ | ⟨h1, h2, rfl⟩ | ⟨h1, h2, rfl⟩
  · exact ⟨by simp [h1, h2], by rw [if_pos h2]⟩
  · exact ⟨by simp [h1, h2], by rw [if_neg (by omega), if_pos h2]; omega⟩
  · exact ⟨by simp [h1, h2], by rw [if_neg (by omega), if_neg (by omega)]; omega⟩

theorem hex4_val {w : List Nat} {n : Nat} (h : Hex4 w n) :
    ∃ a b c d, w = [a, b, c, d] ∧ isHex a ∧ isHex b ∧ isHex c ∧ isHex d ∧
      n = 4096 * hexVal a + 256 * hexVal b + 16 * hexVal c + hexVal d := by
  obtain ⟨a, b, c, d, a', b', c', d', hw, ha, hb, hc, hd, hn⟩ := h
  have := hex_val ha; have := hex_val hb; have := hex_val hc; have := hex_val hd
  exact ⟨a, b, c, d, hw, by simp_all, by simp_all, by simp_all, by simp_all, by simp_all⟩

theorem best_escape {p : Nat} {w post : List Nat} {c : Nat} (h : Esc w c) (ht : t.drop p = w ++ post) : Best t escape p (p + w.length) := by
  cases h with
  | chr e c h =>
    have h1 : t.drop p = str "\\" ++ (e :: post) := ht
    have h2 := drop_add h1
    refine (best_str _ h1).cat (q := p + 1) (r := p + 2) (Best.alt (best_set (drop_get h2) ?_))
    simp only [escapes, List.mem_cons, Prod.mk.injEq, List.not_mem_nil, or_false] at h
    rcases h with h | h | h | h | h | h | h | h <;> (rw [h.1]; decide)
  | hex w n h =>
    obtain ⟨a, b, c, d, rfl, ha, hb, hc, hd, _⟩ := hex4_val h
    have h1 : t.drop p = str "\\" ++ (117 :: a :: b :: c :: d :: post) := ht
    have h2 : t.drop (p + 1) = str "u" ++ (a :: b :: c :: d :: post) := drop_add h1
    have h3 : t.drop (p + 1 + 1) = [a] ++ (b :: c :: d :: post) := drop_add h2
    have h4 : t.drop (p + 1 + 1 + 1) = [b] ++ (c :: d :: post) := drop_add h3
    have h5 : t.drop (p + 1 + 1 + 1 + 1) = [c] ++ (d :: post) := drop_add h4
    have h6 : t.drop (p + 1 + 1 + 1 + 1 + 1) = [d] ++ post := drop_add h5
    refine (best_str _ h1).cat (q := p + 1) (r := p + 6) (Best.alt' ?_ ((best_str _ h2).cat (q := p + 1 + 1) ?_))
    · rintro q ⟨_, x, h7, h8⟩
      rw [drop_get h2] at h7
      cases h7
      exact absurd h8 (by decide)
    · exact (best_set (drop_get h3) ha).cat ((best_set (drop_get h4) hb).cat ((best_set (drop_get h5) hc).cat
        ((best_set (drop_get h6) hd).cat (best_eps _))))

theorem esc_head {w : List Nat} {c : Nat} (h : Esc w c) : ∃ w', w = 92 :: w' := by
  cases h <;> exact ⟨_, rfl⟩

theorem hit_escape (hu : u.Ascii) {p : Nat} {w post : List Nat} {c : Nat} (h : Esc w c) (ht : t.drop p = w ++ post) :
    Hit t (rules u .string) (dflt .string) p p w .escape none := by
  obtain ⟨w', hw⟩ := esc_head h
  have := hit_of (l := .string) (ws := []) (w := w) (a := .escape) (tg := none) (rs := [rule (chr "\"") .stop (some ⟨1, []⟩)]) hu rfl
    (by simp [Ws]) ht (by simp [hw]) (Or.inl rfl) (fun r hr => ?_) (best_escape h ht) (fun _ => rfl)
  · simpa using this
  · simp only [List.mem_cons, List.not_mem_nil, or_false] at hr
    subst hr
    refine (begins_chr 34 []).fails (fun c' hc' => ?_)
    subst hw
    rw [head_get ht hc']; rfl

theorem esc_part {w : List Nat} {c : Nat} (h : Esc w c) (p : Nat) : strPart ⟨p, w, .escape, none⟩ = [c] := by
  cases h with
  | chr e c h =>
    simp only [escapes, List.mem_cons, Prod.mk.injEq, List.not_mem_nil, or_false] at h
    rcases h with h | h | h | h | h | h | h | h <;> (rw [h.1, h.2]; rfl)
  | hex w n h =>
    obtain ⟨a, b, c, d, rfl, _, _, _, _, rfl⟩ := hex4_val h
    simp only [strPart, if_true, List.getElem?_cons_succ, List.getElem?_cons_zero, List.drop_succ_cons, List.drop_zero, List.foldl_cons,
      List.foldl_nil, List.cons.injEq, and_true]
    omega

/-- The characters up to the next escape or the end. -/
theorem chars_split {s w : List Nat} (h : Chars false s w) : ∃ g s' w', s = g ++ s' ∧ w = g ++ w' ∧ Chars false s' w' ∧
    (∀ c ∈ g, c ≠ 34 ∧ c ≠ 92) ∧ ((s' = [] ∧ w' = []) ∨ ∃ e c s'' w'', s' = c :: s'' ∧ w' = e ++ w'' ∧ Esc e c ∧ Chars false s'' w'') := by
  induction h with
  | nil => exact ⟨[], [], [], rfl, rfl, .nil, by simp, Or.inl ⟨rfl, rfl⟩⟩
  | plain c h1 h2 h3 h4 ih =>
    obtain ⟨g, s', w', rfl, rfl, h5, h6, h7⟩ := ih
    refine ⟨c :: g, s', w', rfl, rfl, h5, fun x hx => ?_, h7⟩
    rcases List.mem_cons.1 hx with rfl | hx
    · exact ⟨h2, h3⟩
    · exact h6 x hx
  | esc e c h1 h2 ih => exact ⟨[], _, _, rfl, rfl, .esc e c h1 h2, by simp, Or.inr ⟨_, c, _, _, rfl, rfl, .chr e c h1, h2⟩⟩
  | hex w n h1 h2 h3 ih => exact ⟨[], _, _, rfl, rfl, .hex w n h1 h2 h3, by simp, Or.inr ⟨_, n, _, _, rfl, rfl, .hex w n h1, h3⟩⟩
  | pair w w' n n' h => cases h

/-- From inside a string to its end. -/
theorem goes_string (hu : u.Ascii) (n : Nat) : ∀ (s w : List Nat), w.length ≤ n → Chars false s w →
    ∀ (K K' : List (Node Nat JL JA)) (l' : JL) (up : List (Frame Nat JL JA)) (p : Nat) (post : List Nat) (o : Bool),
    t.drop p = w ++ (str "\"" ++ post) →
    ∃ ts : List (TokN Nat JA), ts.flatMap strPart = s ∧
      JGoes u t ⟨p, ⟨⟨.string, K⟩, ⟨l', K'⟩ :: up⟩, o⟩ ⟨p + w.length + 1,
        ⟨⟨l', K' ++ [.ctx .string (K ++ (ts ++ [(⟨p + w.length, str "\"", .stop, none⟩ : TokN Nat JA)]).map .tok)]⟩, up⟩, true⟩ := by
  induction n with
  | zero =>
    intro s w hn hc K K' l' up p post o ht
    have : w = [] := List.length_eq_zero_iff.1 (by omega)
    subst this
    cases hc
    refine ⟨[], rfl, ?_⟩
    exact jtarget (B := ⟨⟨.string, K⟩, ⟨l', K'⟩ :: up⟩) (hit_end hu ht) (by simp) (by simp)
  | succ n ih =>
    -- what comes after the plain characters
    have hmain : ∀ (s w : List Nat), w.length ≤ n + 1 → ((s = [] ∧ w = []) ∨ ∃ e c s'' w'', s = c :: s'' ∧ w = e ++ w'' ∧ Esc e c ∧
        Chars false s'' w'') → ∀ (K K' : List (Node Nat JL JA)) (l' : JL) (up : List (Frame Nat JL JA)) (p : Nat) (post : List Nat) (o : Bool),
        t.drop p = w ++ (str "\"" ++ post) →
        (∃ m, rxMatch ((rules u .string).map (·.pat)) t p = some m) ∧ ∃ ts : List (TokN Nat JA), ts.flatMap strPart = s ∧
        JGoes u t ⟨p, ⟨⟨.string, K⟩, ⟨l', K'⟩ :: up⟩, o⟩ ⟨p + w.length + 1,
          ⟨⟨l', K' ++ [.ctx .string (K ++ (ts ++ [(⟨p + w.length, str "\"", .stop, none⟩ : TokN Nat JA)]).map .tok)]⟩, up⟩, true⟩ := by
      intro s w hn h K K' l' up p post o ht
      rcases h with ⟨rfl, rfl⟩ | ⟨e, c, s'', w'', rfl, rfl, h1, h2⟩
      · have hh := hit_end (u := u) hu ht
        obtain ⟨i, c, r, hm, _⟩ := hh.hit
        exact ⟨⟨_, hm⟩, [], rfl, jtarget (B := ⟨⟨.string, K⟩, ⟨l', K'⟩ :: up⟩) hh (by simp) (by simp)⟩
      · rw [List.append_assoc] at ht
        have hh := hit_escape (u := u) hu h1 ht
        obtain ⟨i, c', r, hm, _⟩ := hh.hit
        refine ⟨⟨_, hm⟩, ?_⟩
        have hlen : 0 < e.length := by obtain ⟨w', rfl⟩ := esc_head h1; simp
        simp only [List.length_append] at hn
        obtain ⟨ts, h3, h4⟩ := ih s'' w'' (by omega) h2 (K ++ [.tok ⟨p, e, .escape, none⟩]) K' l' up (p + e.length) post true (drop_add ht)
        refine ⟨⟨p, e, .escape, none⟩ :: ts, by simp [esc_part h1, h3], ?_⟩
        have := (jgo (B := ⟨⟨.string, K⟩, ⟨l', K'⟩ :: up⟩) (o := o) hh (by simp)).trans h4
        simpa [List.append_assoc, Nat.add_assoc] using this
    intro s w hn hc K K' l' up p post o ht
    obtain ⟨g, s', w', rfl, rfl, h1, h2, h3⟩ := chars_split hc
    by_cases hg : g = []
    · subst hg
      exact (hmain s' w' hn h3 K K' l' up p post o ht).2
    · rw [List.append_assoc] at ht
      simp only [List.length_append] at hn
      obtain ⟨⟨m, hm⟩, ts, h4, h5⟩ := hmain s' w' (by omega) h3 (K ++ [.tok ⟨p, g, .string, none⟩]) K' l' up (p + g.length) post true (drop_add ht)
      refine ⟨⟨p, g, .string, none⟩ :: ts, by simp [strPart, h4], ?_⟩
      have hgap := goes_gap (noAct := JA.none) (skip := (· == .skip)) (consume := fun _ => false) (rules := rules u) (d := dflt)
        (B := ⟨⟨.string, K⟩, ⟨l', K'⟩ :: up⟩) (o := o) ht hg (f := fun _ => .string) rfl rfl (fun i hi1 hi2 => ?_) hm
      · have : JGoes u t _ _ := Goes.trans (lang := lang u) hgap h5
        simpa [List.append_assoc, Nat.add_assoc] using this
      · obtain ⟨c, h6, h7⟩ := drop_mem ht hi1 hi2
        refine no_start (fun c' hc' => ?_)
        rw [h7] at hc'
        cases hc'
        have := h2 c h6
        simp [first, this.1, this.2]

/-- The value of a string. -/
theorem stringOf_toks {F : Type} (f : Floats F) (ts : List (TokN Nat JA)) (e : TokN Nat JA) (he : e.act = .stop) :
    stringOf (itmL (env f) false ((ts ++ [e]).map .tok)) = .str (ts.flatMap strPart) := by
  have h : ∀ ts : List (TokN Nat JA), toksOf (itmL (env f) false (ts.map .tok)) = ts := by
    intro ts
    induction ts with
    | nil => rfl
    | cons x ts ih => simp only [List.map_cons, itmL, Node.itm, List.cons_append, List.nil_append, toksOf, ih]
  simp only [stringOf, h, List.getLast?_concat, Option.map_some, he, if_true, List.dropLast_concat]

end Parce.Json

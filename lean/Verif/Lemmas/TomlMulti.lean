import Verif.Lemmas.TomlVal
/-!
# Multi-line strings in TOML texts
-/
namespace Parce.Toml
open Parce.Json (Uni str)
open Parce.CssL (PBest PFail)
open Parce.Xml (PC shift)
variable {u : Uni} {t : List Nat} {l : TL}

/-- No three quotes at the start. -/
theorem three_not {q : Nat} {s rest : List Nat} (hs : s ≠ []) (h1 : ¬ [q, q, q] <:+: s) (h2 : s.getLast? ≠ some q ∨ rest.head? ≠ some q) (r : List Nat) :
    s ++ rest ≠ [q, q, q] ++ r := by
  intro he
  match s, hs with
  | [a], _ =>
    simp only [List.cons_append, List.nil_append, List.cons.injEq] at he
    rcases h2 with h2 | h2
    · exact h2 (by simp [he.1])
    · exact h2 (by rw [he.2]; rfl)
  | [a, b], _ =>
    simp only [List.cons_append, List.nil_append, List.cons.injEq] at he
    rcases h2 with h2 | h2
    · exact h2 (by simp [he.2.1])
    · exact h2 (by rw [he.2.2]; rfl)
  | a :: b :: c :: s, _ =>
    simp only [List.cons_append, List.nil_append, List.cons.injEq] at he
    obtain ⟨rfl, rfl, rfl, _⟩ := he
    exact h1 ⟨[], s, rfl⟩

theorem drop_three {q i : Nat} {w rest : List Nat} (hi : i < w.length) (h1 : ¬ [q, q, q] <:+: w) (h2 : w.getLast? ≠ some q ∨ rest.head? ≠ some q) (r : List Nat) :
    w.drop i ++ rest ≠ [q, q, q] ++ r := by
  refine three_not (by simp [hi]) (fun h => h1 (h.trans (List.drop_suffix _ _).isInfix)) ?_ r
  rcases h2 with h2 | h2
  · left
    rwa [List.getLast?_drop, if_neg (by omega)]
  · exact .inr h2

theorem mend (hu : u.Ascii) {post : List Nat} (h : End post) (c : Nat) (hc : post.head? = some c) : (!(u.space c || (str ",}#]").contains c)) = false := by
  have h32 := hu.space 32 (by decide)
  have h9 := hu.space 9 (by decide)
  have h10 := hu.space 10 (by decide)
  rcases h.lt hc with rfl | rfl | rfl | rfl | rfl | rfl | rfl
  · simp [h32]
  · simp [h9]
  · simp [h10]
  all_goals (rw [show (str ",}#]").contains _ = true by decide]; simp)

theorem pc_mend (hu : u.Ascii) (s : String) {post : List Nat} (hp : End post) :
    PC (endPat u s ",}#]") (str s) post [(2, (str s).length, (str s).length), (1, 0, (str s).length)] := by
  have := (PC.grp 1 (Xml.pbest_chr s ([] ++ post))).cat (PC.grp 2 (w := []) (CssL.pbest_star (g := fun c => !(u.space c || (str ",}#]").contains c)) (by simp) (mend hu hp)))
  refine this.eq (List.append_nil _) ?_
  simp [shift]

theorem hits_mendBasic (hu : u.Ascii) {post : List Nat} (hp : End post) :
    Hits u t .stringMultilineBasic [34, 34, 34] post .stringGroups (some ⟨1, []⟩) [(2, 3, 3), (1, 0, 3)] :=
  hits hu 0 [] (r := rule (endPat u "\"\"\"" ",}#]") .stringGroups (some ⟨1, []⟩)) rfl rfl (by decide) (by decide +kernel) (by simp) (pc_mend hu "\"\"\"" hp)

theorem hits_mendLit (hu : u.Ascii) {post : List Nat} (hp : End post) :
    Hits u t .stringMultilineLiteral [39, 39, 39] post .stringGroups (some ⟨1, []⟩) [(2, 3, 3), (1, 0, 3)] :=
  hits hu 0 [] (r := rule (endPat u "'''" ",}#]") .stringGroups (some ⟨1, []⟩)) rfl rfl (by decide) (by decide +kernel) (by simp) (pc_mend hu "'''" hp)

theorem pbest_esc {w post : List Nat} (h : Escape false w) : PBest escapePat (92 :: w) post := by
  refine PBest.cat (v := [92]) (Xml.pbest_chr "\\" _) ?_
  rcases h with ⟨c, rfl, hc⟩ | ⟨x, rfl, hl, hx⟩ | ⟨h, _⟩
  · exact PBest.alt (CssL.pbest_set (by simpa using hc))
  · refine PBest.alt' (CssL.pfail_set (fun c hc => ?_)) (PBest.cat (v := [117]) (Xml.pbest_chr "u" _) ?_)
    · obtain rfl : 117 = c := Option.some.inj hc
      decide
    · rw [← hl]
      exact CssL.pbest_times x (fun c hc => hex_iff (hx c hc))
  · cases h

theorem esc_head (hu : u.Ascii) {w : List Nat} (h : Escape false w) (post : List Nat) (c : Nat) (hc : (w ++ post).head? = some c) : u.space c = false := by
  rcases h with ⟨d, rfl, hd⟩ | ⟨x, rfl, _, _⟩ | ⟨h, _⟩
  · obtain rfl : d = c := Option.some.inj hc
    have : ∀ x ∈ str "\"\\bfnrt", x < 128 ∧ CssL.uni0.space x = false := by decide
    obtain ⟨h1, h2⟩ := this d hd
    rw [hu.space d h1]
    exact h2
  · obtain rfl : 117 = c := Option.some.inj hc
    rw [hu.space 117 (by decide)]
    decide
  · cases h

theorem hits_mesc (hu : u.Ascii) {w post : List Nat} (h : Escape false w) : Hits u t .stringMultilineBasic (92 :: w) post .stringEscape none [] := by
  refine hits hu 2 [1] (r := rule escapePat .stringEscape) rfl rfl (by decide) (by decide +kernel) ?_ (PC.of (pbest_esc h))
  intro j hj r hr
  obtain rfl : j = 1 := by simpa using hj
  obtain rfl := Option.some.inj hr
  exact CssL.pfail_cat_set (g := (· == 92)) (CssL.pfail_cat (CssL.pfail_set (esc_head hu h post)))

theorem ws_space (hu : u.Ascii) {c : Nat} (h : c = 32 ∨ c = 9 ∨ c = 10) : u.space c = true := by
  rw [hu.space c (by omega)]
  rcases h with rfl | rfl | rfl <;> decide

theorem hits_cont (hu : u.Ascii) {w post : List Nat} (h : ∃ b r, w = b ++ 10 :: r ∧ Blank b ∧ Ws r) (hp : ∀ c, post.head? = some c → u.space c = false) :
    Hits u t .stringMultilineBasic (92 :: w) post .whitespace none [] := by
  obtain ⟨b, r, rfl, hb, hr⟩ := h
  refine hits hu 1 [] (r := rule (.cat (chr "\\") (.plus (.set u.space))) .whitespace) rfl rfl (by decide) (by decide +kernel) (by simp) (PC.of ?_)
  refine PBest.cat (v := [92]) (Xml.pbest_chr "\\" _) (CssL.pbest_plus (by simp) ?_ hp)
  intro c hc
  refine ws_space hu ?_
  rcases List.mem_append.1 hc with hc | hc
  · have := hb c hc
    omega
  · rcases List.mem_cons.1 hc with rfl | hc
    · simp
    · exact hr c hc

theorem quote_space (hu : u.Ascii) {c : Nat} (h : 33 ≤ c ∧ c ≤ 126) : u.space c = false := by
  rw [hu.space c (by omega)]
  simp only [Bool.or_eq_false_iff, Bool.and_eq_false_iff, decide_eq_false_iff_not]
  omega

/-- What starts the rest of the string, when it is not a text. -/
theorem mparts_head {m : List MPart} {post : List Nat} (hn : ∀ w l', m ≠ .chars w :: l') :
    (m = [] ∧ (mpartsText m ++ [34, 34, 34] ++ post).head? = some 34) ∨ (m ≠ [] ∧ (mpartsText m ++ [34, 34, 34] ++ post).head? = some 92) := by
  cases m with
  | nil => exact .inl ⟨rfl, rfl⟩
  | cons x m =>
    cases x with
    | chars w => exact absurd rfl (hn w m)
    | esc w => exact .inr ⟨by simp, rfl⟩
    | cont w => exact .inr ⟨by simp, rfl⟩

theorem cont_next (hu : u.Ascii) {m : List MPart} {post : List Nat} (h : ∀ w' l', m = .chars w' :: l' → ∃ c q, w' = c :: q ∧ 33 ≤ c ∧ c ≤ 126)
    (c : Nat) (hc : (mpartsText m ++ [34, 34, 34] ++ post).head? = some c) : u.space c = false := by
  by_cases hn : ∀ w l', m ≠ .chars w :: l'
  · rcases mparts_head (post := post) hn with ⟨_, h1⟩ | ⟨_, h1⟩ <;> rw [h1] at hc <;> obtain rfl := Option.some.inj hc <;> exact quote_space hu (by decide)
  · obtain ⟨w, l', rfl⟩ : ∃ w l', m = .chars w :: l' := by
      by_cases hx : ∃ w l', m = .chars w :: l'
      · exact hx
      · exact absurd (fun w l' he => hx ⟨w, l', he⟩) hn
    obtain ⟨d, q, rfl, hd⟩ := h w l' rfl
    obtain rfl : d = c := Option.some.inj hc
    exact quote_space hu hd

theorem mparts_begin (hu : u.Ascii) {m : List MPart} {post : List Nat} (h : mpartsOk false m) (hn : ∀ w l', m ≠ .chars w :: l') (hp : End post) :
    Begins u t .stringMultilineBasic (mpartsText m ++ [34, 34, 34] ++ post) := by
  cases m with
  | nil => exact (hits_mendBasic hu hp).begins
  | cons x m =>
    cases x with
    | chars w => exact absurd rfl (hn w m)
    | esc w =>
      have := (hits_mesc (t := t) (post := mpartsText m ++ [34, 34, 34] ++ post) hu h.1).begins
      simpa [mpartsText, MPart.text] using this
    | cont w =>
      have := (hits_cont (t := t) (post := mpartsText m ++ [34, 34, 34] ++ post) hu h.1 (cont_next hu h.2.1)).begins
      simpa [mpartsText, MPart.text] using this

theorem misses_mbasic {rest : List Nat} (h1 : ∀ r, rest ≠ [34, 34, 34] ++ r) (h2 : rest.head? ≠ some 92) : Misses u t .stringMultilineBasic rest := by
  refine misses_all (fun r hr => ?_)
  simp only [rules, rule, List.mem_cons, List.not_mem_nil, or_false] at hr
  rcases hr with rfl | rfl | rfl | rfl
  · exact CssL.pfail_cat (Xml.pfail_grp (CssL.pfail_str h1))
  · exact CssL.pfail_cat (CssL.pfail_chr (c := 92) (w := []) h2)
  · exact CssL.pfail_cat (CssL.pfail_chr (c := 92) (w := []) h2)
  · exact CssL.pfail_cat (CssL.pfail_chr (c := 92) (w := []) h2)

theorem mparts_go (hu : u.Ascii) : ∀ (m : List MPart), mpartsOk false m → ∀ {post : List Nat}, End post → ∀ (vs : List V) (fs : List Fr) (n : Nat) (o : Bool),
    ∃ n' o', Go u t ⟨mpartsText m ++ [34, 34, 34] ++ post, (.stringMultilineBasic, vs) :: fs, n, o⟩
      ⟨[34, 34, 34] ++ post, (.stringMultilineBasic, vs ++ m.map MPart.view) :: fs, n', o'⟩
  | [], _, post, hp, vs, fs, n, o => ⟨n, o, by simpa [mpartsText] using Go.refl _⟩
  | .esc w :: m, h, post, hp, vs, fs, n, o => by
    obtain ⟨n', o', g⟩ := mparts_go hu m h.2 hp (vs ++ [.tok (92 :: w) .stringEscape]) fs 0 true
    refine ⟨n', o', ?_⟩
    have g1 := s_toks (is := vs) (fs := fs) (n := n) (o := o) (vs := [.tok (92 :: w) .stringEscape])
      (hits_mesc (t := t) (post := mpartsText m ++ [34, 34, 34] ++ post) hu h.1) rfl (by simp)
    have := g1.trans g
    simpa [mpartsText, MPart.text, MPart.view] using this
  | .cont w :: m, h, post, hp, vs, fs, n, o => by
    obtain ⟨n', o', g⟩ := mparts_go hu m h.2.2 hp (vs ++ [.tok (92 :: w) .whitespace]) fs 0 true
    refine ⟨n', o', ?_⟩
    have g1 := s_toks (is := vs) (fs := fs) (n := n) (o := o) (vs := [.tok (92 :: w) .whitespace])
      (hits_cont (t := t) (post := mpartsText m ++ [34, 34, 34] ++ post) hu h.1 (cont_next hu h.2.1)) rfl (by simp)
    have := g1.trans g
    simpa [mpartsText, MPart.text, MPart.view] using this
  | .chars w :: m, h, post, hp, vs, fs, n, o => by
    obtain ⟨h1, h2, h3, h4, h5, h6⟩ := h
    obtain ⟨n', o', g⟩ := mparts_go hu m h6 hp (vs ++ [.tok w .string]) fs 0 true
    refine ⟨n', o', ?_⟩
    have g1 := s_text (u := u) (t := t) (l := .stringMultilineBasic) (f := fun _ => .string) (w := w) (post := mpartsText m ++ [34, 34, 34] ++ post) (is := vs) (fs := fs) (n := n) (o := o)
      rfl rfl (by decide) h1 (by
        intro i hi
        refine misses_mbasic (drop_three hi h3 ?_) ?_
        · rcases mparts_head (post := post) h5 with ⟨e1, _⟩ | ⟨_, e2⟩
          · exact .inl (h4 e1 rfl)
          · exact .inr (by rw [e2]; decide)
        · rw [List.drop_eq_getElem_cons hi]
          intro he
          exact h2 (Option.some.inj he ▸ List.getElem_mem hi)) (Or.inr (mparts_begin hu h6 h5 hp))
    have := g1.trans g
    simpa [mpartsText, MPart.text, MPart.view] using this

theorem mbasic_go (hu : u.Ascii) (h : VL l) {m : List MPart} (hm : mpartsOk false m) {post : List Nat} (hp : End post) (is : List V) (fs : List Fr) (n : Nat) (o : Bool) :
    Go u t ⟨(Val.mbasic m).text ++ post, (l, is) :: fs, n, o⟩ ⟨post, (l, is ++ mbasicView m) :: fs, 0, true⟩ := by
  have h0 : Hits u t l [34, 34, 34] (mpartsText m ++ [34, 34, 34] ++ post) .string (some ⟨0, [.stringMultilineBasic]⟩) [] :=
    hits_val hu h 3 [] (c := 34) (r := rule (chr "\"\"\"") .string (some ⟨0, [.stringMultilineBasic]⟩)) rfl rfl rfl (by decide) (by decide) (by decide) (by decide +kernel) (by simp)
      (Xml.pbest_chr "\"\"\"" _)
  have g1 := s_enter (is := is) (fs := fs) (n := n) (o := o) (vs := [.tok [34, 34, 34] .string]) h0 rfl (by simp)
  obtain ⟨n', o', g2⟩ := mparts_go (t := t) hu m hm hp [] ((l, is ++ [.tok [34, 34, 34] .string]) :: fs) 1 true
  have g3 := s_leave (is := [] ++ m.map MPart.view) (l0 := l) (is0 := is ++ [.tok [34, 34, 34] .string]) (fs := fs) (n := n') (o := o') (vs := [.tok [34, 34, 34] .string])
    (hits_mendBasic (t := t) hu hp) rfl (by simp)
  have := (g1.trans g2).trans g3
  simpa [Val.text, mbasicView, mk] using this

theorem hits_mlit (hu : u.Ascii) (h : VL l) (nl : Bool) {w post : List Nat} (hw : nl = false → w.head? ≠ some 10) :
    Hits u t l ([39, 39, 39] ++ (if nl then [10] else [])) (w ++ [39, 39, 39] ++ post) .lineGroups (some ⟨0, [.stringMultilineLiteral]⟩)
      (if nl then [(2, 3, 4), (1, 0, 3)] else [(1, 0, 3)]) := by
  have hpc : PC (.cat (.grp 1 (chr "'''")) (.opt (.grp 2 (chr "\n")))) ([39, 39, 39] ++ (if nl then [10] else [])) (w ++ [39, 39, 39] ++ post)
      (if nl then [(2, 3, 4), (1, 0, 3)] else [(1, 0, 3)]) := by
    cases nl with
    | true => exact ((PC.grp 1 (Xml.pbest_chr "'''" ([10] ++ (w ++ [39, 39, 39] ++ post)))).cat (PC.opt (PC.grp 2 (Xml.pbest_chr "\n" _)))).eq rfl rfl
    | false =>
      refine ((PC.grp 1 (Xml.pbest_chr "'''" ([] ++ (w ++ [39, 39, 39] ++ post)))).cat (PC.of (CssL.pbest_none (Xml.pfail_grp (CssL.pfail_chr (c := 10) (w := []) ?_))))).eq rfl rfl
      cases w with
      | nil => simp
      | cons c w => simpa using hw rfl
  have hl : onlyAt l (off l + 5) (exl l []) 39 = true := by rcases h with rfl | rfl | rfl <;> decide +kernel
  cases nl with
  | true =>
    exact hits hu (off l + 5) (exl l []) (c := 39) (w := [39, 39, 10]) ((vl_rule h 5).trans rfl) rfl (by decide) hl
      (vl_ex (rest := [39, 39, 10] ++ (w ++ [39, 39, 39] ++ post)) h (by decide) (by decide) (by simp)) hpc
  | false =>
    exact hits hu (off l + 5) (exl l []) (c := 39) (w := [39, 39]) ((vl_rule h 5).trans rfl) rfl (by decide) hl
      (vl_ex (rest := [39, 39] ++ (w ++ [39, 39, 39] ++ post)) h (by decide) (by decide) (by simp)) hpc

theorem mlit_go (hu : u.Ascii) (h : VL l) {nl : Bool} {w : List Nat} (hw : MLitOk false nl w) {post : List Nat} (hp : End post) (is : List V) (fs : List Fr) (n : Nat) (o : Bool) :
    Go u t ⟨(Val.mlit nl w).text ++ post, (l, is) :: fs, n, o⟩ ⟨post, (l, is ++ mlitView nl w) :: fs, 0, true⟩ := by
  obtain ⟨h1, h2, h3⟩ := hw
  have g1 := s_enter (is := is) (fs := fs) (n := n) (o := o) (vs := .tok [39, 39, 39] .string :: (if nl then [.tok [10] .whitespace] else []))
    (hits_mlit (t := t) (post := post) hu h nl h3) (by cases nl <;> rfl) (by simp)
  have hend := hits_mendLit (t := t) hu hp
  by_cases he : w = []
  · subst he
    have g3 := s_leave (is := []) (l0 := l) (is0 := is ++ .tok [39, 39, 39] .string :: (if nl then [.tok [10] .whitespace] else [])) (fs := fs) (n := 1) (o := true)
      (vs := [.tok [39, 39, 39] .string]) hend rfl (by simp)
    have := g1.trans g3
    simpa [Val.text, mlitView, mk] using this
  · have g2 := s_text (u := u) (t := t) (l := .stringMultilineLiteral) (f := fun _ => .string) (w := w) (post := [39, 39, 39] ++ post) (is := [])
      (fs := (l, is ++ .tok [39, 39, 39] .string :: (if nl then [.tok [10] .whitespace] else [])) :: fs) (n := 1) (o := true) rfl rfl (by decide) he (by
        intro i hi
        refine misses_all (fun r hr => ?_)
        simp only [rules, rule, List.mem_cons, List.not_mem_nil, or_false] at hr
        obtain rfl := hr
        exact CssL.pfail_cat (Xml.pfail_grp (CssL.pfail_str (drop_three hi h1 (.inl (h2 rfl)))))) (Or.inr hend.begins)
    have g3 := s_leave (is := [] ++ [.tok w .string]) (l0 := l) (is0 := is ++ .tok [39, 39, 39] .string :: (if nl then [.tok [10] .whitespace] else [])) (fs := fs) (n := 0) (o := true)
      (vs := [.tok [39, 39, 39] .string]) hend rfl (by simp)
    rw [List.append_assoc w] at g1
    have := (g1.trans g2).trans g3
    simpa [Val.text, mlitView, mk, he] using this

end Parce.Toml

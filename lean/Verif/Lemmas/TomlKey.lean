import Verif.Lemmas.TomlStep
/-!
# Strings and keys in TOML texts
-/
namespace Parce.Toml
open Parce.Json (Uni str)
open Parce.CssL (PBest PFail)
open Parce.Xml (PC shift)
variable {u : Uni} {t : List Nat}

/-! ### Expressions -/

theorem pfail_dollar {c : Nat} {rest : List Nat} (h : c ≠ 10) : PFail Ini.dollar (c :: rest) := by
  intro t p ht q hq
  have hg : t[p]? = some c := drop_get ht
  have := (List.getElem?_eq_some_iff.1 hg).1
  rcases (Ini.dollar_mat.1 hq).2 with h' | h'
  · omega
  · rw [hg] at h'; exact h (Option.some.inj h')

theorem pfail_opt {a b : Pat Nat} {rest : List Nat} (h1 : PFail (.cat a b) rest) (h2 : PFail b rest) : PFail (.cat (.opt a) b) rest := by
  rintro t p ht q ⟨r, h3 | h3, h4⟩
  · exact h1 t p ht q ⟨r, h3, h4⟩
  · simp only [Pat.mat] at h3
    subst h3
    exact h2 t p ht q h4

theorem pfail_assoc {a b c : Pat Nat} {rest : List Nat} (h : PFail (.cat a (.cat b c)) rest) : PFail (.cat (.cat a b) c) rest := by
  rintro t p ht q ⟨r, ⟨s, h1, h2⟩, h3⟩
  exact h t p ht q ⟨s, h1, r, h2, h3⟩

theorem pfail_grp_chr {i : Nat} {a b : Pat Nat} {s : String} {rest : List Nat} (ha : a = .grp i (chr s) ∨ a = chr s) (h : PFail b rest) :
    PFail (.cat a b) (str s ++ rest) := by
  rintro t p ht q ⟨r, h1, h2⟩
  have h1' : (chr s).mat t p r := by rcases ha with rfl | rfl <;> exact h1
  obtain ⟨h3, post, h4⟩ := str_mat _ h1'
  rw [h3] at h2
  exact h t _ (drop_add ht) q h2

theorem drop_stop {v : List Nat} {c : Nat} {post : List Nat} {P : Nat → Prop} (hv : ∀ x ∈ v, P x) (hc : P c) (i : Nat) :
    ∃ d r, v.drop i ++ c :: post = d :: r ∧ P d := by
  cases h : v.drop i with
  | nil => exact ⟨c, post, rfl, hc⟩
  | cons d r => exact ⟨d, r ++ c :: post, rfl, hv d (List.mem_of_mem_drop (i := i) (by rw [h]; simp))⟩

/-- There is a quote before the end of the line. -/
theorem pfail_openEnd {q : Nat} (hq : q ≠ 10) {s post : List Nat} (hs : ∀ c ∈ s, c ≠ 10) : PFail (openEndPat q) (s ++ q :: post) := by
  have : ∀ s : List Nat, (∀ c ∈ s, c ≠ 10) → ∃ v post', s ++ q :: post = v ++ q :: post' ∧ ∀ c ∈ v, c ≠ q ∧ c ≠ 10 := by
    intro s
    induction s with
    | nil => exact fun _ => ⟨[], post, rfl, by simp⟩
    | cons c s ih =>
      intro h
      by_cases hc : c = q
      · exact ⟨[], s ++ q :: post, by rw [hc]; rfl, by simp⟩
      · obtain ⟨v, p', h1, h2⟩ := ih (fun x hx => h x (by simp [hx]))
        refine ⟨c :: v, p', by simp [h1], ?_⟩
        intro x hx
        rcases List.mem_cons.1 hx with rfl | hx
        · exact ⟨hc, h _ (by simp)⟩
        · exact h2 x hx
  obtain ⟨v, p', h1, h2⟩ := this s hs
  rw [h1]
  refine Xml.pfail_run (.inr rfl) ?_ ?_
  · intro c hc
    obtain rfl : q = c := Option.some.inj hc
    simp
  · intro i _
    obtain ⟨d, r, h3, h4⟩ := drop_stop (post := p') (P := (· ≠ 10)) (fun x hx => (h2 x hx).2) hq i
    rw [h3]
    exact pfail_dollar h4

/-- What may come after a string. -/
def Stop (post : List Nat) : Prop := ∃ c r, post = c :: r ∧ c ∈ [32, 9, 10, 44, 61, 93, 125, 35]

theorem stop_end (hu : u.Ascii) {post : List Nat} (h : Stop post) (c : Nat) (hc : post.head? = some c) :
    (!(u.space c || (str ",}#]=").contains c)) = false := by
  obtain ⟨d, r, rfl, hd⟩ := h
  obtain rfl : d = c := Option.some.inj hc
  have h32 := hu.space 32 (by decide)
  have h9 := hu.space 9 (by decide)
  have h10 := hu.space 10 (by decide)
  simp only [List.mem_cons, List.not_mem_nil, or_false] at hd
  rcases hd with rfl | rfl | rfl | rfl | rfl | rfl | rfl | rfl
  · simp [h32]
  · simp [h9]
  · simp [h10]
  all_goals (rw [show (str ",}#]=").contains _ = true by decide]; simp)

theorem misses_all {l : TL} {rest : List Nat} (h : ∀ r ∈ rules u l, PFail r.pat rest) : Misses u t l rest := by
  rintro p ht ⟨a, ha, q, hq⟩
  obtain ⟨r, hr, rfl⟩ := List.mem_map.1 ha
  exact h r hr t p ht q hq

/-! ### Strings -/

theorem pc_end (hu : u.Ascii) (s : String) {post : List Nat} (hp : Stop post) :
    PC (endPat u s ",}#]=") (str s) post [(2, (str s).length, (str s).length), (1, 0, (str s).length)] := by
  have := (PC.grp 1 (Xml.pbest_chr s ([] ++ post))).cat (PC.grp 2 (w := []) (CssL.pbest_star (g := fun c => !(u.space c || (str ",}#]=").contains c)) (by simp) (stop_end hu hp)))
  refine this.eq (List.append_nil _) ?_
  simp [shift]

theorem hits_endBasic (hu : u.Ascii) {post : List Nat} (hp : Stop post) :
    Hits u t .stringBasic [34] post .stringGroups (some ⟨1, []⟩) [(2, 1, 1), (1, 0, 1)] :=
  hits hu 0 [] (r := rule (endPat u "\"" ",}#]=") .stringGroups (some ⟨1, []⟩)) rfl rfl (by decide) (by decide +kernel) (by simp) (pc_end hu "\"" hp)

theorem hits_endLit (hu : u.Ascii) {post : List Nat} (hp : Stop post) :
    Hits u t .stringLiteral [39] post .stringGroups (some ⟨1, []⟩) [(2, 1, 1), (1, 0, 1)] :=
  hits hu 0 [] (r := rule (endPat u "'" ",}#]=") .stringGroups (some ⟨1, []⟩)) rfl rfl (by decide) (by decide +kernel) (by simp) (pc_end hu "'" hp)

theorem hex_iff {c : Nat} (h : IsHexDigit c) : isHex c = true := by
  unfold IsHexDigit IsDigit at h
  simp only [isHex, Bool.or_eq_true, Bool.and_eq_true, decide_eq_true_eq]
  omega

theorem hits_esc (hu : u.Ascii) {w post : List Nat} (h : Escape false w) : Hits u t .stringBasic (92 :: w) post .stringEscape none [] := by
  refine hits hu 1 [] (r := rule escapePat .stringEscape) rfl rfl (by decide) (by decide +kernel) (by simp) (PC.of ?_)
  refine PBest.cat (v := [92]) (Xml.pbest_chr "\\" _) ?_
  rcases h with ⟨c, rfl, hc⟩ | ⟨x, rfl, hl, hx⟩ | ⟨h, _⟩
  · exact PBest.alt (CssL.pbest_set (by simpa using hc))
  · refine PBest.alt' (CssL.pfail_set (fun c hc => ?_)) (PBest.cat (v := [117]) (Xml.pbest_chr "u" _) ?_)
    · obtain rfl : 117 = c := Option.some.inj hc
      decide
    · rw [← hl]
      exact CssL.pbest_times x (fun c hc => hex_iff (hx c hc))
  · cases h

theorem parts_line : ∀ {l : List Part}, partsOk false l → ∀ c ∈ partsText l, c ≠ 10
  | [], _, c, hc => by simp [partsText] at hc
  | .chars w :: l, h, c, hc => by
    simp only [partsText, List.flatMap_cons, List.mem_append, Part.text] at hc
    rcases hc with hc | hc
    · exact (h.2.1 c hc).2.2
    · exact parts_line h.2.2.2 c hc
  | .esc w :: l, h, c, hc => by
    simp only [partsText, List.flatMap_cons, List.mem_append, Part.text] at hc
    rcases hc with hc | hc
    · rcases List.mem_cons.1 hc with rfl | hc
      · decide
      · rcases h.1 with ⟨d, rfl, hd⟩ | ⟨x, rfl, _, hx⟩ | ⟨h, _⟩
        · obtain rfl : c = d := by simpa using hc
          rintro rfl
          revert hd
          decide
        · rcases List.mem_cons.1 hc with rfl | hc
          · decide
          · have := hx c hc
            unfold IsHexDigit IsDigit at this
            omega
        · cases h
    · exact parts_line h.2 c hc

theorem misses_basic {c : Nat} {s post : List Nat} (hs : ∀ x ∈ c :: s, x ≠ 10) (h1 : c ≠ 34) (h2 : c ≠ 92) :
    Misses u t .stringBasic (c :: s ++ 34 :: post) := by
  refine misses_all (fun r hr => ?_)
  simp only [rules, rule, List.mem_cons, List.not_mem_nil, or_false] at hr
  rcases hr with rfl | rfl | rfl | rfl
  · exact CssL.pfail_cat (Xml.pfail_grp (CssL.pfail_chr (c := 34) (w := []) (by simpa using h1)))
  · exact CssL.pfail_cat (CssL.pfail_chr (c := 92) (w := []) (by simpa using h2))
  · exact CssL.pfail_cat (CssL.pfail_chr (c := 92) (w := []) (by simpa using h2))
  · exact pfail_openEnd (by decide) hs

theorem parts_begin (hu : u.Ascii) {l : List Part} {post : List Nat} (h : partsOk false l) (hn : ∀ w l', l ≠ .chars w :: l') (hp : Stop post) :
    Begins u t .stringBasic (partsText l ++ 34 :: post) := by
  cases l with
  | nil => exact (hits_endBasic hu hp).begins
  | cons x l =>
    cases x with
    | chars w => exact absurd rfl (hn w l)
    | esc w =>
      have := (hits_esc (t := t) (post := partsText l ++ 34 :: post) hu h.1).begins
      simpa [partsText, Part.text] using this

theorem parts_go (hu : u.Ascii) : ∀ (l : List Part), partsOk false l → ∀ {post : List Nat}, Stop post → ∀ (vs : List V) (fs : List Fr) (n : Nat) (o : Bool),
    ∃ n' o', Go u t ⟨partsText l ++ 34 :: post, (.stringBasic, vs) :: fs, n, o⟩ ⟨34 :: post, (.stringBasic, vs ++ l.map Part.view) :: fs, n', o'⟩
  | [], _, post, hp, vs, fs, n, o => ⟨n, o, by simpa [partsText] using Go.refl _⟩
  | .esc w :: l, h, post, hp, vs, fs, n, o => by
    obtain ⟨n', o', g⟩ := parts_go hu l h.2 hp (vs ++ [.tok (92 :: w) .stringEscape]) fs 0 true
    refine ⟨n', o', ?_⟩
    have g1 := s_toks (is := vs) (fs := fs) (n := n) (o := o) (vs := [.tok (92 :: w) .stringEscape]) (hits_esc (t := t) (post := partsText l ++ 34 :: post) hu h.1) rfl (by simp)
    have := g1.trans g
    simpa [partsText, Part.text, Part.view] using this
  | .chars w :: l, h, post, hp, vs, fs, n, o => by
    obtain ⟨h1, h2, h3, h4⟩ := h
    obtain ⟨n', o', g⟩ := parts_go hu l h4 hp (vs ++ [.tok w .string]) fs 0 true
    refine ⟨n', o', ?_⟩
    have g1 := s_text (u := u) (t := t) (l := .stringBasic) (f := fun _ => .string) (w := w) (post := partsText l ++ 34 :: post) (is := vs) (fs := fs) (n := n) (o := o)
      rfl rfl (by decide) h1 (by
        intro i hi
        rw [List.drop_eq_getElem_cons hi]
        have hx := h2 _ (List.getElem_mem hi)
        have := misses_basic (u := u) (t := t) (c := w[i]) (s := w.drop (i + 1) ++ partsText l) (post := post) (by
          intro x hx'
          rcases List.mem_cons.1 hx' with rfl | hx'
          · exact hx.2.2
          · rcases List.mem_append.1 hx' with hx' | hx'
            · exact (h2 x (List.mem_of_mem_drop hx')).2.2
            · exact parts_line h4 x hx') hx.1 hx.2.1
        rw [List.cons_append, List.append_assoc] at this
        exact this) (Or.inr (parts_begin hu h4 h3 hp))
    have := g1.trans g
    simpa [partsText, Part.text, Part.view] using this

theorem exp_end34 : expV .stringGroups [34] [(2, 1, 1), (1, 0, 1)] = [.tok [34] .string] := rfl

theorem exp_end39 : expV .stringGroups [39] [(2, 1, 1), (1, 0, 1)] = [.tok [39] .string] := rfl

/-- A string between double quotes. -/
theorem go_basic (hu : u.Ascii) {L : TL} {l : List Part} {post : List Nat} {is : List V} {fs : List Fr} {n : Nat} {o : Bool} (hl : partsOk false l) (hp : Stop post)
    (h : Hits u t L [34] (partsText l ++ 34 :: post) .string (some ⟨0, [.stringBasic]⟩) []) :
    Go u t ⟨34 :: (partsText l ++ [34]) ++ post, (L, is) :: fs, n, o⟩ ⟨post, (L, is ++ basicView l) :: fs, 0, true⟩ := by
  have g1 := s_enter (is := is) (fs := fs) (n := n) (o := o) (vs := [.tok [34] .string]) h rfl (by simp)
  obtain ⟨n', o', g2⟩ := parts_go (t := t) hu l hl hp [] ((L, is ++ [.tok [34] .string]) :: fs) 1 true
  have g3 := s_leave (is := [] ++ l.map Part.view) (l0 := L) (is0 := is ++ [.tok [34] .string]) (fs := fs) (n := n') (o := o') (vs := [.tok [34] .string])
    (hits_endBasic (t := t) hu hp) exp_end34 (by simp)
  have := (g1.trans g2).trans g3
  simpa [basicView, mk] using this

/-- A string between single quotes. -/
theorem go_lit (hu : u.Ascii) {L : TL} {w post : List Nat} {is : List V} {fs : List Fr} {n : Nat} {o : Bool} (hw : LitOk w) (hp : Stop post)
    (h : Hits u t L [39] (w ++ 39 :: post) .string (some ⟨0, [.stringLiteral]⟩) []) :
    Go u t ⟨39 :: (w ++ [39]) ++ post, (L, is) :: fs, n, o⟩ ⟨post, (L, is ++ litView w) :: fs, 0, true⟩ := by
  have g1 := s_enter (is := is) (fs := fs) (n := n) (o := o) (vs := [.tok [39] .string]) h rfl (by simp)
  have hend := hits_endLit (t := t) hu hp
  by_cases he : w = []
  · subst he
    have g3 := s_leave (is := []) (l0 := L) (is0 := is ++ [.tok [39] .string]) (fs := fs) (n := 1) (o := true) (vs := [.tok [39] .string])
      hend exp_end39 (by simp)
    have := g1.trans g3
    simpa [litView, mk] using this
  · have g2 := s_text (u := u) (t := t) (l := .stringLiteral) (f := fun _ => .string) (w := w) (post := 39 :: post) (is := [])
      (fs := (L, is ++ [.tok [39] .string]) :: fs) (n := 1) (o := true) rfl rfl (by decide) he (by
        intro i hi
        refine misses_all (fun r hr => ?_)
        simp only [rules, rule, List.mem_cons, List.not_mem_nil, or_false] at hr
        rcases hr with rfl | rfl
        · rw [List.drop_eq_getElem_cons hi]
          exact CssL.pfail_cat (Xml.pfail_grp (CssL.pfail_chr (c := 39) (w := []) (by
            rw [List.cons_append, List.head?_cons]
            exact fun h => (hw _ (List.getElem_mem hi)).1 (Option.some.inj h))))
        · exact pfail_openEnd (by decide) (fun c hc => (hw c (List.mem_of_mem_drop hc)).2)) (Or.inr hend.begins)
    have g3 := s_leave (is := [] ++ [.tok w .string]) (l0 := L) (is0 := is ++ [.tok [39] .string]) (fs := fs) (n := 0) (o := true) (vs := [.tok [39] .string])
      hend exp_end39 (by simp)
    have := (g1.trans g2).trans g3
    simpa [litView, mk, he] using this

/-! ### Keys -/

/-- The lexicons with keys, the action of the names, and where the rules for keys start. -/
def KL (l : TL) (a : TA) (k : Nat) : Prop :=
  (l = .key ∧ a = .variable ∧ k = 2) ∨ (l = .table ∧ a = .namespace ∧ k = 1) ∨ (l = .arrayTable ∧ a = .namespace ∧ k = 1) ∨
  (l = .inlineKey ∧ a = .variable ∧ k = 2)

variable {l : TL} {a : TA} {k : Nat}

theorem kl_rule (h : KL l a k) (j : Nat) : (rules u l)[k + j]? = (keys u a)[j]? := by
  rcases h with ⟨rfl, rfl, rfl⟩ | ⟨rfl, rfl, rfl⟩ | ⟨rfl, rfl, rfl⟩ | ⟨rfl, rfl, rfl⟩ <;> rw [Nat.add_comm] <;> rfl

theorem kl_only (h : KL l a k) (j : Nat) {ex : List Nat} {c : Nat} (h1 : onlyAt .key (2 + j) ex c = true) (h2 : onlyAt .table (1 + j) ex c = true)
    (h3 : onlyAt .arrayTable (1 + j) ex c = true) (h4 : onlyAt .inlineKey (2 + j) ex c = true) : onlyAt l (k + j) ex c = true := by
  rcases h with ⟨rfl, rfl, rfl⟩ | ⟨rfl, rfl, rfl⟩ | ⟨rfl, rfl, rfl⟩ | ⟨rfl, rfl, rfl⟩
  · exact h1
  · exact h2
  · exact h3
  · exact h4

theorem bare_lt {c : Nat} (h : IsBare c) : c < 128 ∧ isKey c = true := by
  unfold IsBare IsDigit at h
  refine ⟨by omega, ?_⟩
  simp only [isKey, Bool.or_eq_true, Bool.and_eq_true, decide_eq_true_eq, beq_iff_eq]
  omega

theorem bare_only : ∀ c < 128, isKey c = true → onlyAt .key 2 [] c = true ∧ onlyAt .table 1 [] c = true ∧ onlyAt .arrayTable 1 [] c = true ∧
    onlyAt .inlineKey 2 [] c = true := by
  decide +kernel

theorem hits_bare (hu : u.Ascii) (h : KL l a k) {w post : List Nat} (hw : w ≠ []) (hb : ∀ c ∈ w, IsBare c) (hp : ∀ c, post.head? = some c → isKey c = false) :
    Hits u t l w post a none [] := by
  obtain ⟨c, w, rfl⟩ := List.exists_cons_of_ne_nil hw
  have hc := bare_lt (hb c (by simp))
  obtain ⟨o1, o2, o3, o4⟩ := bare_only c hc.1 hc.2
  exact hits hu (k + 0) [] (r := rule (.plus (.set isKey)) a) (kl_rule h 0) rfl hc.1 (kl_only h 0 o1 o2 o3 o4) (by simp)
    (PC.of (CssL.pbest_plus (by simp) (fun x hx => (bare_lt (hb x hx)).2) hp))

theorem blank_only : ∀ c < 128, (c = 32 ∨ c = 9) → onlyAt .key 6 [] c = true ∧ onlyAt .table 5 [] c = true ∧ onlyAt .arrayTable 5 [] c = true ∧
    onlyAt .inlineKey 6 [] c = true := by
  decide +kernel

theorem blank_set {c : Nat} (h : c = 32 ∨ c = 9) : (str " \t").contains c = true := by
  rcases h with rfl | rfl <;> decide

theorem not_blank {c : Nat} (h1 : c ≠ 32) (h2 : c ≠ 9) : (str " \t").contains c = false := by
  rw [show str " \t" = [32, 9] from rfl]
  simp [h1, h2]

theorem go_blank (hu : u.Ascii) (h : KL l a k) {w post : List Nat} (hb : Blank w) (hp : ∀ c, post.head? = some c → c ≠ 32 ∧ c ≠ 9)
    {is : List V} {fs : List Fr} {n : Nat} : Go u t ⟨w ++ post, (l, is) :: fs, n, true⟩ ⟨post, (l, is) :: fs, n, true⟩ := by
  by_cases hw : w = []
  · subst hw
    exact Go.refl _
  obtain ⟨c, w, rfl⟩ := List.exists_cons_of_ne_nil hw
  have hc := hb c (by simp)
  have hc' : c < 128 := by omega
  obtain ⟨o1, o2, o3, o4⟩ := blank_only c hc' hc
  exact s_skip (hits hu (k + 4) [] (r := rule (.plus (oneOf " \t")) .skip) (kl_rule h 4) rfl hc' (kl_only h 4 o1 o2 o3 o4) (by simp)
    (PC.of (CssL.pbest_plus (by simp) (fun x hx => blank_set (hb x hx)) (fun x hx => not_blank (hp x hx).1 (hp x hx).2))))

theorem hits_quote (hu : u.Ascii) (h : KL l a k) (post : List Nat) : Hits u t l [34] post .string (some ⟨0, [.stringBasic]⟩) [] :=
  hits hu (k + 2) [] (r := rule (chr "\"") .string (some ⟨0, [.stringBasic]⟩)) (kl_rule h 2) rfl (by decide)
    (kl_only h 2 (by decide +kernel) (by decide +kernel) (by decide +kernel) (by decide +kernel)) (by simp) (PC.of (Xml.pbest_chr "\"" _))

theorem hits_apos (hu : u.Ascii) (h : KL l a k) (post : List Nat) : Hits u t l [39] post .string (some ⟨0, [.stringLiteral]⟩) [] :=
  hits hu (k + 3) [] (r := rule (chr "'") .string (some ⟨0, [.stringLiteral]⟩)) (kl_rule h 3) rfl (by decide)
    (kl_only h 3 (by decide +kernel) (by decide +kernel) (by decide +kernel) (by decide +kernel)) (by simp) (PC.of (Xml.pbest_chr "'" _))

/-- The first character of a part of a key. -/
theorem comp_head {c : Comp} (h : c.ok false) : ∃ x r, c.text = x :: r ∧ (x = 34 ∨ x = 39 ∨ IsBare x) := by
  cases c with
  | bare w =>
    obtain ⟨h1, h2⟩ := h
    obtain ⟨x, w, rfl⟩ := List.exists_cons_of_ne_nil h1
    exact ⟨x, w, rfl, .inr (.inr (h2 x (by simp)))⟩
  | basic l => exact ⟨34, _, rfl, .inl rfl⟩
  | lit w => exact ⟨39, _, rfl, .inr (.inl rfl)⟩

theorem head_key {x : Nat} (h : x = 34 ∨ x = 39 ∨ IsBare x) : ((str "}],'\"").contains x || isKey x) = true ∧ x ≠ 32 ∧ x ≠ 9 ∧ x ≠ 93 ∧ x ≠ 46 := by
  rcases h with rfl | rfl | h
  · decide
  · decide
  · refine ⟨by simp [(bare_lt h).2], ?_⟩
    unfold IsBare IsDigit at h
    omega

theorem pfail_close {s : String} {c : Nat} {w b post : List Nat} {f : Nat → Bool} (hs : str s = 93 :: w) (hb : Blank b) (h : c ≠ 32 ∧ c ≠ 9 ∧ c ≠ 93) :
    PFail (.cat (.opt (.cat (.grp 1 (chr ".")) blanks)) (.cat (.grp 2 (chr s)) (.grp 3 (.star (.set f))))) (46 :: (b ++ c :: post)) := by
  have hc : ∀ {d : Nat} {r : List Nat}, d ≠ 93 → PFail (.cat (.grp 2 (chr s)) (.grp 3 (.star (.set f)))) (d :: r) := by
    intro d r hd
    refine CssL.pfail_cat (Xml.pfail_grp ?_)
    unfold chr
    rw [hs]
    exact CssL.pfail_chr (by simpa using hd)
  refine pfail_opt (pfail_assoc (pfail_grp_chr (s := ".") (.inl rfl) ?_)) (hc (by decide))
  refine Xml.pfail_run (.inl rfl) ?_ ?_
  · intro x hx
    obtain rfl : c = x := Option.some.inj hx
    exact not_blank h.1 h.2.1
  · intro i _
    obtain ⟨d, r, h3, h4⟩ := drop_stop (v := b) (c := c) (post := post) (P := (· ≠ 93)) (fun x hx => by rcases hb x hx with rfl | rfl <;> decide) h.2.2 i
    rw [h3]
    exact hc h4

theorem hits_dot (hu : u.Ascii) (h : KL l a k) {b post : List Nat} {x : Nat} (hb : Blank b) (hx : x = 34 ∨ x = 39 ∨ IsBare x) :
    Hits u t l [46] (b ++ x :: post) .dot none [(1, 0, 1)] := by
  obtain ⟨k1, k2, k3, k4, _⟩ := head_key hx
  have h0 : PFail (chr "#") ([46] ++ (b ++ x :: post)) := CssL.pfail_chr (c := 35) (w := []) (by simp)
  refine hits hu (k + 1) [0] (r := rule dotPat .dot) (kl_rule h 1) rfl (by decide)
    (kl_only h 1 (by decide +kernel) (by decide +kernel) (by decide +kernel) (by decide +kernel)) ?_ ?_
  · intro j hj r hr
    obtain rfl : j = 0 := by simpa using hj
    rcases h with ⟨rfl, _, _⟩ | ⟨rfl, _, _⟩ | ⟨rfl, _, _⟩ | ⟨rfl, _, _⟩
    · obtain rfl := Option.some.inj hr
      exact h0
    · obtain rfl := Option.some.inj hr
      exact pfail_close (w := []) rfl hb ⟨k2, k3, k4⟩
    · obtain rfl := Option.some.inj hr
      exact pfail_close (w := [93]) rfl hb ⟨k2, k3, k4⟩
    · obtain rfl := Option.some.inj hr
      exact CssL.pfail_chr (c := 61) (w := []) (by simp)
  · have hp : PBest (.cat blanks (.set fun c => (str "}],'\"").contains c || isKey c)) (b ++ [x]) post :=
      PBest.cat (CssL.pbest_star (fun y hy => blank_set (hb y hy)) (fun y hy => by
        obtain rfl : x = y := Option.some.inj hy
        exact not_blank k2 k3)) (CssL.pbest_set k1)
    have := (PC.grp 1 (Xml.pbest_chr "." ([] ++ (b ++ [x] ++ post)))).cat (PC.of (Xml.pbest_look hp))
    have e : b ++ [x] ++ post = b ++ x :: post := by simp
    rw [e] at this
    exact this

/-- A part of a key. -/
theorem comp_go (hu : u.Ascii) (h : KL l a k) {c : Comp} (hc : c.ok false) {post : List Nat} (h1 : c.quoted = true → Stop post)
    (h2 : ∀ x, post.head? = some x → isKey x = false) {is : List V} {fs : List Fr} {n : Nat} {o : Bool} :
    Go u t ⟨c.text ++ post, (l, is) :: fs, n, o⟩ ⟨post, (l, is ++ c.view a) :: fs, 0, true⟩ := by
  cases c with
  | bare w =>
    refine s_toks (hits_bare hu h hc.1 hc.2 h2) ?_ (by simp [Comp.view])
    rcases h with ⟨_, rfl, _⟩ | ⟨_, rfl, _⟩ | ⟨_, rfl, _⟩ | ⟨_, rfl, _⟩ <;> rfl
  | basic p => exact go_basic hu hc (h1 rfl) (hits_quote hu h _)
  | lit w => exact go_lit hu hc (h1 rfl) (hits_apos hu h _)

theorem stop_key {post : List Nat} (h : Stop post) (x : Nat) (hx : post.head? = some x) : isKey x = false := by
  obtain ⟨c, r, rfl, hc⟩ := h
  obtain rfl : c = x := Option.some.inj hx
  simp only [List.mem_cons, List.not_mem_nil, or_false] at hc
  rcases hc with rfl | rfl | rfl | rfl | rfl | rfl | rfl | rfl <;> decide

theorem blank_stop {b post : List Nat} (hb : Blank b) (h : b ≠ []) : Stop (b ++ post) := by
  obtain ⟨c, b, rfl⟩ := List.exists_cons_of_ne_nil h
  exact ⟨c, b ++ post, rfl, by rcases hb c (by simp) with rfl | rfl <;> decide⟩

theorem more_go (hu : u.Ascii) (h : KL l a k) {post : List Nat} (hp : Stop post) : ∀ (m : List (List Nat × List Nat × Comp)) (c : Comp), c.ok false →
    moreOk false c m → ∀ (is : List V) (fs : List Fr) (n : Nat) (o : Bool),
    Go u t ⟨c.text ++ (moreText m ++ post), (l, is) :: fs, n, o⟩
      ⟨post, (l, is ++ (c.view a ++ m.flatMap fun x => .tok [46] .dot :: x.2.2.view a)) :: fs, 0, true⟩
  | [], c, hc, _, is, fs, n, o => by
    simpa [moreText] using comp_go hu h hc (fun _ => hp) (stop_key hp)
  | (b, a', c') :: m, c, hc, hm, is, fs, n, o => by
    obtain ⟨h1, h2, h3, h4, h5⟩ := hm
    obtain ⟨x, r, e, hx⟩ := comp_head h4
    have hk := head_key hx
    have g1 := comp_go (t := t) (is := is) (fs := fs) (n := n) (o := o) hu h hc (post := b ++ 46 :: (a' ++ (c'.text ++ (moreText m ++ post))))
      (fun hq => blank_stop h1 (h3 rfl hq)) (by
        by_cases hb : b = []
        · subst hb
          intro y hy
          obtain rfl : 46 = y := Option.some.inj hy
          decide
        · exact stop_key (blank_stop h1 hb))
    have g2 := go_blank (t := t) (is := is ++ c.view a) (fs := fs) (n := 0) (post := 46 :: (a' ++ (c'.text ++ (moreText m ++ post)))) hu h h1 (by
      intro y hy
      obtain rfl : 46 = y := Option.some.inj hy
      decide)
    have hd := hits_dot (t := t) (post := r ++ (moreText m ++ post)) hu h h2 hx
    rw [show a' ++ x :: (r ++ (moreText m ++ post)) = a' ++ (c'.text ++ (moreText m ++ post)) by rw [e]; rfl] at hd
    have g3 := s_toks (is := is ++ c.view a) (fs := fs) (n := 0) (o := true) (vs := [.tok [46] .dot]) hd rfl (by simp)
    have g4 := go_blank (t := t) (is := is ++ c.view a ++ [.tok [46] .dot]) (fs := fs) (n := 0) (post := c'.text ++ (moreText m ++ post)) hu h h2 (by
      rw [e]
      intro y hy
      obtain rfl : x = y := Option.some.inj hy
      exact ⟨hk.2.1, hk.2.2.1⟩)
    have g5 := more_go hu h hp m c' h4 h5 (is ++ c.view a ++ [.tok [46] .dot]) fs 0 true
    have := (((g1.trans g2).trans g3).trans g4).trans g5
    simpa [moreText] using this

/-- A key. -/
theorem key_go (hu : u.Ascii) (h : KL l a k) {post : List Nat} (hp : Stop post) {y : Key} (hy : y.ok false) {is : List V} {fs : List Fr} {n : Nat} {o : Bool} :
    Go u t ⟨y.text ++ post, (l, is) :: fs, n, o⟩ ⟨post, (l, is ++ y.view a) :: fs, 0, true⟩ := by
  have := more_go (t := t) hu h hp y.more y.first hy.1 hy.2 is fs n o
  simpa [Key.text, Key.view] using this

end Parce.Toml

import Verif.Lemmas.XmlStep
/-!
# What the expressions for the parts of XML texts take
-/
namespace Parce.Xml
open Parce.Json (Uni str)
open Parce.CssL (PBest PFail)
variable {u : Uni} {ci : Bool}

theorem PC.best {a : Pat Nat} {w post : List Nat} (h : PC a w post []) : PBest a w post := fun t p ht => h t p ht

theorem PC.eq {a : Pat Nat} {w w' post : List Nat} {g g' : Caps} (h : PC a w post g) (hw : w = w') (hg : g = g') : PC a w' post g' := by
  subst hw hg; exact h

theorem pfail_grp {i : Nat} {a : Pat Nat} {rest : List Nat} (h : PFail a rest) : PFail (.grp i a) rest := fun t p ht q hq => h t p ht q hq

theorem slice_mid (a b c : List Nat) {s e : Nat} (hs : s = a.length) (he : e = a.length + b.length) : slice (a ++ b ++ c) s e = b := by
  subst hs he
  unfold slice
  rw [List.take_append_of_le_length (by simp), List.take_of_length_le (by simp), List.drop_append_of_le_length (by simp), List.drop_length]
  rfl

/-! ### Characters -/

/-- What is after a name. -/
def Term (c : Nat) : Prop := IsWs c ∨ c = 61 ∨ c = 62 ∨ c = 47 ∨ c = 63

theorem term_name {c : Nat} (h : Term c) : nameChar ci c = false := by
  unfold Term IsWs at h
  cases ci <;> rcases h with (rfl | rfl | rfl | rfl) | rfl | rfl | rfl | rfl <;> decide

theorem isStart_iff {c : Nat} (h : IsStart c) : nameStart ci c = true := by
  unfold IsStart at h
  simp only [List.mem_cons, List.not_mem_nil, or_false, exists_eq_or_imp, exists_eq_left] at h
  simp only [nameStart, between, Bool.or_eq_true, Bool.and_eq_true, decide_eq_true_eq, beq_iff_eq]
  omega

theorem isName_iff {c : Nat} (h : IsName c) : nameChar ci c = true := by
  unfold IsName at h
  rcases h with h | h
  · simp [nameChar, isStart_iff h]
  · simp only [nameChar, between, Bool.or_eq_true, Bool.and_eq_true, decide_eq_true_eq, beq_iff_eq]
    omega

/-- These characters do not start a name. -/
def notStart : List Nat := [9, 10, 13, 32, 33, 34, 38, 39, 45, 47, 59, 60, 61, 62, 63, 91]

theorem start_not {c : Nat} (h : nameStart ci c = true) : c ∉ notStart := by
  intro hc
  have : ∀ ci, ∀ x ∈ notStart, nameStart ci x = false := by decide
  rw [this ci c hc] at h
  cases h

theorem name_first {w : List Nat} (h : Name u w) : ∃ c r, w = c :: r ∧ (∀ ci, nameStart ci c = true) ∧ u.space c = false ∧ c ∉ notStart := by
  obtain ⟨⟨c, r, rfl, h1, _⟩, h2⟩ := h
  exact ⟨c, r, rfl, fun ci => isStart_iff h1, h2 c (by simp), start_not (ci := false) (isStart_iff h1)⟩

theorem name_ne {w : List Nat} (h : Name u w) : w ≠ [] := by
  obtain ⟨c, r, rfl, _⟩ := name_first h
  simp

theorem isWs_lt {c : Nat} (h : IsWs c) : c < 128 := by unfold IsWs at h; omega

theorem isWs_space (hu : u.Ascii) {c : Nat} (h : IsWs c) : u.space c = true := by
  rw [hu.space c (isWs_lt h)]
  unfold IsWs at h
  simp only [Bool.or_eq_true, Bool.and_eq_true, decide_eq_true_eq]
  omega

theorem not_space (hu : u.Ascii) {c : Nat} (hc : c < 128) (h : ((9 ≤ c && c ≤ 13) || (28 ≤ c && c ≤ 32)) = false) {rest : List Nat} :
    ∀ d, (c :: rest).head? = some d → u.space d = false := by
  intro d hd
  obtain rfl : c = d := Option.some.inj hd
  rw [hu.space _ hc]; exact h

theorem name_space {w rest : List Nat} (h : Name u w) : ∀ d, (w ++ rest).head? = some d → u.space d = false := by
  obtain ⟨c, r, rfl, _, h2, _⟩ := name_first h
  intro d hd
  obtain rfl : c = d := Option.some.inj hd
  exact h2

/-! ### Parts -/

theorem pbest_name {w post : List Nat} (hw : Name u w) (hp : ∀ c, post.head? = some c → Term c) : PBest (namePat ci) w post := by
  obtain ⟨⟨c, r, rfl, h1, h2⟩, _⟩ := hw
  exact PBest.cat (v := [c]) (CssL.pbest_set (isStart_iff h1)) (CssL.pbest_star (fun x hx => isName_iff (h2 x hx)) (fun x hx => term_name (hp x hx)))

theorem pfail_name {c : Nat} {rest : List Nat} (h : c ∈ notStart) : PFail (namePat ci) (c :: rest) := by
  refine CssL.pfail_cat (CssL.pfail_set ?_)
  intro d hd
  obtain rfl : c = d := Option.some.inj hd
  cases hs : nameStart ci c with
  | false => rfl
  | true => exact absurd h (start_not hs)

theorem pbest_spaces (hu : u.Ascii) {w post : List Nat} (hw : Ws w) (hp : ∀ c, post.head? = some c → u.space c = false) : PBest (spaces u) w post :=
  CssL.pbest_star (fun c hc => isWs_space hu (hw c hc)) hp

theorem pbest_chr (s : String) (post : List Nat) : PBest (chr s) (str s) post := CssL.pbest_str _ _

theorem pbest_ref {w post : List Nat} (hw : RefName u w) : PBest (refPat u) (str "&" ++ w ++ str ";") post := by
  have h1 := pc_lazy (f := fun c => !u.space c) (PC.of (pbest_chr ";" post)) w (fun c hc => by simp [(hw c hc).1]) (by
    intro i hi
    refine CssL.pfail_chr (w := []) ?_
    rw [List.drop_eq_getElem_cons hi]
    simp only [List.cons_append, List.head?_cons, ne_eq, Option.some.injEq]
    exact (hw _ (List.getElem_mem hi)).2)
  have := (PC.of (pbest_chr "&" (w ++ str ";" ++ post))).cat h1
  rw [List.append_assoc]
  exact this.best

theorem pbest_word (w post : List Nat) : PBest (word ci w) w post := by
  induction w with
  | nil => exact fun t p _ => best_eps p
  | cons c w ih =>
    have h1 : ∀ post, PBest (letter ci c) [c] post := fun post => CssL.pbest_set (by simp)
    cases w with
    | nil => exact h1 _
    | cons c' w => exact PBest.cat (v := [c]) (h1 _) ih

/-! ### Content -/

/-- The lexicons with content, and whether they have IGNORECASE. -/
def Cont (l : XL) (ci : Bool) : Prop := (l = .root ∧ ci = true) ∨ (l = .tag ∧ ci = false)

theorem cont_rules {l : XL} (h : Cont l ci) : rules u l = contentRules u ci := by
  rcases h with ⟨rfl, rfl⟩ | ⟨rfl, rfl⟩ <;> rfl

theorem pfail_str_ne {c d : Nat} {w rest : List Nat} (x : Nat) (h : c ≠ d) : PFail (Pat.str (x :: c :: w)) (x :: d :: rest) :=
  CssL.pfail_str (fun post he => by simp only [List.cons_append, List.cons.injEq, true_and] at he; exact h he.1.symm)

/-- The rules that do not match `<` and something else than `!`. -/
theorem fail_bang {d : Nat} {rest : List Nat} (h : d ≠ 33) : ∀ j ∈ [0, 1, 2], ∀ r, (contentRules u ci)[j]? = some r → PFail r.pat (60 :: d :: rest) := by
  intro j hj r hr
  simp only [List.mem_cons, List.not_mem_nil, or_false] at hj
  have h' : (33 : Nat) ≠ d := fun he => h he.symm
  rcases hj with rfl | rfl | rfl
  · obtain rfl := Option.some.inj hr
    exact pfail_str_ne 60 h'
  · obtain rfl := Option.some.inj hr
    exact CssL.pfail_cat (pfail_grp (pfail_str_ne 60 h'))
  · obtain rfl := Option.some.inj hr
    exact CssL.pfail_cat (pfail_grp (pfail_str_ne 60 h'))

theorem fail_pp {d : Nat} {rest : List Nat} (h : d ≠ 63) : PFail (ppPat ci) (60 :: d :: rest) :=
  CssL.pfail_cat (pfail_grp (pfail_str_ne 60 (fun he => h he.symm)))

theorem fail_close {w rest : List Nat} (h : Name u w) : PFail (closePat u ci) (60 :: (w ++ rest)) := by
  obtain ⟨c, r, rfl, _, h2, h3⟩ := name_first h
  refine CssL.pfail_cat (pfail_grp (CssL.pfail_cat_set ?_))
  refine pfail_run (v := []) (post := c :: r ++ rest) (Or.inr rfl) (name_space h) ?_
  intro i hi
  simp only [List.length_nil, Nat.le_zero] at hi
  subst hi
  refine CssL.pfail_chr (w := []) ?_
  intro he
  obtain rfl : c = 47 := Option.some.inj he
  exact h3 (by decide)

theorem onlyAt_bang {l : XL} (h : Cont l ci) : onlyAt l 1 [0] 60 = true ∧ onlyAt l 3 [0, 1, 2] 60 = true ∧ onlyAt l 4 [0, 1, 2, 3] 60 = true ∧
    onlyAt l 5 [0, 1, 2, 3, 4] 60 = true ∧ onlyAt l 6 [] 38 = true := by
  rcases h with ⟨rfl, rfl⟩ | ⟨rfl, rfl⟩ <;> decide +kernel

theorem hits_comment {l : XL} (h : Cont l ci) (post : List Nat) : Hits u l (str "<!--") post .commentStart (some ⟨0, [.comment]⟩) [] :=
  hits_first (by decide) (by rw [cont_rules h]; rfl) rfl (PC.of (pbest_chr "<!--" post))

theorem hits_cdata (hu : u.Ascii) {l : XL} (h : Cont l ci) (post : List Nat) : Hits u l (str "<![CDATA[") post .cdataGroups (some ⟨0, [.cdata]⟩)
    [(3, 8, 9), (2, 3, 8), (1, 0, 3)] := by
  refine hits hu (c := 60) (w := [33, 91, 67, 68, 65, 84, 65, 91]) 1 [0] (r := rule (cdataPat ci) .cdataGroups (some ⟨0, [.cdata]⟩))
    (by rw [cont_rules h]; rfl) rfl (by decide) (onlyAt_bang h).1 ?_ ?_
  · intro j hj r hr
    simp only [List.mem_cons, List.not_mem_nil, or_false] at hj
    subst hj
    rw [cont_rules h] at hr
    obtain rfl := Option.some.inj hr
    exact CssL.pfail_str (fun post he => by simp [str] at he)
  · exact ((PC.grp 1 (pbest_chr "<![" ([67, 68, 65, 84, 65, 91] ++ post))).cat ((PC.grp 2 (pbest_word (str "CDATA") ([91] ++ post))).cat
      (PC.grp 3 (pbest_chr "[" post)))).eq rfl rfl

theorem hits_pi (hu : u.Ascii) {l : XL} (h : Cont l ci) {n post : List Nat} (hn : Name u n) (hp : ∀ c, post.head? = some c → Term c) :
    Hits u l (str "<?" ++ n) post .ppGroups (some ⟨0, [.pi]⟩) [(2, 2, 2 + n.length), (1, 0, 2)] := by
  refine hits hu (c := 60) (w := 63 :: n) 3 [0, 1, 2] (r := rule (ppPat ci) .ppGroups (some ⟨0, [.pi]⟩))
    (by rw [cont_rules h]; rfl) rfl (by decide) (onlyAt_bang h).2.1 ?_ ?_
  · rw [cont_rules h]
    exact fail_bang (by decide)
  · refine ((PC.grp 1 (pbest_chr "<?" (n ++ post))).cat (PC.opt (PC.grp 2 (pbest_name hn hp)))).eq rfl ?_
    simp [shift, str, Nat.add_comm]

theorem close_w (n ws : List Nat) : str "</" ++ n ++ ws ++ str ">" = 60 :: 47 :: (n ++ ws ++ [62]) := by simp [str]

theorem hits_close (hu : u.Ascii) {l : XL} (h : Cont l ci) {n ws post : List Nat} (hn : Name u n) (hw : Ws ws) :
    Hits u l (str "</" ++ n ++ ws ++ str ">") post .tagGroups (some ⟨1, []⟩)
      [(3, 2 + n.length + ws.length, 2 + n.length + ws.length + 1), (2, 2, 2 + n.length), (1, 0, 2)] := by
  rw [close_w]
  refine hits hu 4 [0, 1, 2, 3] (r := rule (closePat u ci) .tagGroups (some ⟨1, []⟩))
    (by rw [cont_rules h]; rfl) rfl (by decide) (onlyAt_bang h).2.2.1 ?_ ?_
  · rw [cont_rules h]
    intro j hj r hr
    simp only [List.mem_cons, List.not_mem_nil, or_false] at hj
    by_cases h3 : j = 3
    · subst h3
      obtain rfl := Option.some.inj hr
      exact fail_pp (by decide)
    · exact fail_bang (by decide) j (by simp; omega) r hr
  · have hterm : ∀ c, (ws ++ ([62] ++ post)).head? = some c → Term c := by
      intro c hc
      cases ws with
      | nil => obtain rfl : 62 = c := Option.some.inj hc; right; omega
      | cons x ws => obtain rfl : x = c := Option.some.inj hc; exact Or.inl (hw x (by simp))
    have h1 : PC (.grp 1 (.cat (chr "<") (.cat (spacesLazy u) (chr "/")))) [60, 47] (n ++ (ws ++ ([62] ++ post))) [(1, 0, 2)] := by
      refine PC.grp 1 ?_
      refine PBest.cat (v := [60]) (pbest_chr "<" _) ?_
      exact (pc_lazy (PC.of (pbest_chr "/" _)) [] (by simp) (by simp)).best
    have h5 : PC (.cat (spaces u) (.grp 3 (chr ">"))) (ws ++ [62]) post _ :=
      (PC.of (pbest_spaces hu hw (not_space hu (by decide) (by decide)))).cat (PC.grp 3 (pbest_chr ">" post))
    have h4 := (PC.grp 2 (pbest_name (ci := ci) (post := ws ++ [62] ++ post) hn (by simpa using hterm))).cat h5
    have h3 := (PC.of (pbest_spaces (w := []) (post := n ++ (ws ++ [62]) ++ post) hu (by intro c hc; cases hc) (by
      rw [List.append_assoc]; exact name_space hn))).cat h4
    have h2 := PC.cat (v := [60, 47]) (w := [] ++ (n ++ (ws ++ [62]))) (post := post) (by simpa using h1) h3
    refine h2.eq (by simp [str]) ?_
    simp [shift, str]
    omega

/-! ### Start tags -/

/-- The end of a start tag without attributes. -/
def tagStop (slash : Bool) : List Nat := if slash then [47, 62] else [62]

def openTail (u : Uni) : Pat Nat := .cat (spaces u) (.grp 3 (.cat (.opt (.cat (chr "/") (spaces u))) (chr ">")))

theorem pc_stop (hu : u.Ascii) (slash : Bool) {ws post : List Nat} (hw : Ws ws) :
    PC (openTail u) (ws ++ tagStop slash) post [(3, ws.length, ws.length + (tagStop slash).length)] := by
  have h1 : PBest (.cat (.opt (.cat (chr "/") (spaces u))) (chr ">")) (tagStop slash) post := by
    cases slash with
    | false =>
      refine PBest.cat (v := []) (CssL.pbest_none (CssL.pfail_cat (CssL.pfail_chr (w := []) ?_))) (pbest_chr ">" post)
      show ¬ some 62 = some 47
      decide
    | true =>
      refine PBest.cat (v := [47]) (PBest.opt ?_) (pbest_chr ">" post)
      exact PBest.cat (v := [47]) (w := []) (pbest_chr "/" _) (pbest_spaces hu (by intro c hc; cases hc) (not_space hu (by decide) (by decide)))
  have h2 := (PC.of (pbest_spaces (post := tagStop slash ++ post) hu hw (by
    cases slash
    · exact not_space hu (by decide) (by decide)
    · exact not_space hu (by decide) (by decide)))).cat (PC.grp 3 h1)
  refine h2.eq rfl ?_
  simp [shift, Nat.add_comm]

theorem fail_stop {ws post : List Nat} (hw : Ws ws) {n : List Nat} (hn : Name u n) : PFail (openTail u) (ws ++ (n ++ post)) := by
  refine pfail_run (Or.inl rfl) (name_space hn) ?_
  intro i hi
  refine pfail_grp (CssL.pfail_can ?_)
  have hh : ∃ c, (ws.drop i ++ (n ++ post)).head? = some c ∧ c ≠ 47 ∧ c ≠ 62 := by
    cases hd : ws.drop i with
    | nil =>
      obtain ⟨c, r, rfl, _, _, h3⟩ := name_first hn
      exact ⟨c, rfl, fun h => h3 (by rw [h]; decide), fun h => h3 (by rw [h]; decide)⟩
    | cons x l =>
      have : x ∈ ws := List.mem_of_mem_drop (i := i) (by rw [hd]; simp)
      have := hw x this
      unfold IsWs at this
      exact ⟨x, rfl, by omega, by omega⟩
  obtain ⟨c, hc, h1, h2⟩ := hh
  rw [hc]
  have e1 : (c == 47) = false := by simpa using h1
  have e2 : (c == 62) = false := by simpa using h2
  have hs : str "/" = [47] := by decide
  have hs' : str ">" = [62] := by decide
  simp [Pat.can, Pat.opt, Pat.nul, Pat.fst, chr, hs, hs', Pat.str, Pat.chr, e1, e2]

theorem fail_open5 {n rest : List Nat} (hn : Name u n) : ∀ j ∈ [0, 1, 2, 3, 4], ∀ r, (contentRules u ci)[j]? = some r → PFail r.pat (60 :: (n ++ rest)) := by
  obtain ⟨c, r, rfl, _, _, h3⟩ := name_first hn
  intro j hj r' hr
  by_cases h4 : j = 4
  · subst h4
    obtain rfl := Option.some.inj hr
    exact fail_close hn
  · by_cases h3' : j = 3
    · subst h3'
      obtain rfl := Option.some.inj hr
      exact fail_pp (fun h => h3 (by rw [h]; decide))
    · refine fail_bang (fun h => h3 (by rw [h]; decide)) j ?_ r' hr
      simp only [List.mem_cons, List.not_mem_nil, or_false] at hj ⊢
      omega

/-- A start tag without attributes. -/
theorem hits_open (hu : u.Ascii) {l : XL} (h : Cont l ci) (slash : Bool) {n ws post : List Nat} (hn : Name u n) (hw : Ws ws) :
    Hits u l (60 :: (n ++ ws ++ tagStop slash)) post .tagGroups (if slash then none else some ⟨0, [.tag]⟩)
      [(3, 1 + n.length + ws.length, 1 + n.length + ws.length + (tagStop slash).length), (2, 1, 1 + n.length), (1, 0, 1)] := by
  have hsl : slice (60 :: (n ++ ws ++ tagStop slash)) (1 + n.length + ws.length) (1 + n.length + ws.length + (tagStop slash).length) = tagStop slash := by
    have := slice_mid (60 :: (n ++ ws)) (tagStop slash) [] (s := 1 + n.length + ws.length) (e := 1 + n.length + ws.length + (tagStop slash).length)
      (by simp; omega) (by simp; omega)
    simpa using this
  refine hits hu 5 [0, 1, 2, 3, 4] (r := ⟨openPat u ci, fun _ gs => (.tagGroups, openTarget gs)⟩)
    (by rw [cont_rules h]; rfl) ?_ (by decide) (onlyAt_bang h).2.2.2.1 ?_ ?_
  · simp only [texts, List.map_cons, hsl, openTarget, List.lookup_cons, beq_self_eq_true, Prod.mk.injEq, true_and]
    cases slash <;> rfl
  · rw [cont_rules h]
    have := fail_open5 (u := u) (ci := ci) (rest := ws ++ tagStop slash ++ post) hn
    simpa using this
  · have hterm : ∀ c, ((ws ++ tagStop slash) ++ post).head? = some c → Term c := by
      intro c hc
      cases ws with
      | nil =>
        cases slash
        · obtain rfl : 62 = c := Option.some.inj hc; right; omega
        · obtain rfl : 47 = c := Option.some.inj hc; right; omega
      | cons x ws => obtain rfl : x = c := Option.some.inj hc; exact Or.inl (hw x (by simp))
    have hsp : PBest (spaces u) [] (n ++ (ws ++ tagStop slash) ++ post) := pbest_spaces hu (by intro c hc; cases hc) (by
      rw [List.append_assoc]; exact name_space hn)
    have h2 := (PC.grp 1 (pbest_chr "<" _)).cat ((PC.of hsp).cat ((PC.grp 2 (pbest_name (ci := ci) hn hterm)).cat (PC.opt (pc_stop hu slash (post := post) hw))))
    refine h2.eq (by simp [str]) ?_
    simp [shift, str]
    omega

/-- A start tag with attributes. -/
theorem hits_open_attrs (hu : u.Ascii) {l : XL} (h : Cont l ci) {n ws n' post : List Nat} (hn : Name u n) (hne : ws ≠ []) (hw : Ws ws) (hn' : Name u n') :
    Hits u l (60 :: n) (ws ++ (n' ++ post)) .tagGroups (some ⟨0, [.attrs]⟩) [(2, 1, 1 + n.length), (1, 0, 1)] := by
  refine hits hu 5 [0, 1, 2, 3, 4] (r := ⟨openPat u ci, fun _ gs => (.tagGroups, openTarget gs)⟩)
    (by rw [cont_rules h]; rfl) rfl (by decide) (onlyAt_bang h).2.2.2.1 ?_ ?_
  · rw [cont_rules h]
    exact fail_open5 hn
  · have hterm : ∀ c, (ws ++ (n' ++ post)).head? = some c → Term c := by
      intro c hc
      cases ws with
      | nil => exact absurd rfl hne
      | cons x ws => obtain rfl : x = c := Option.some.inj hc; exact Or.inl (hw x (by simp))
    have hsp : PBest (spaces u) [] (n ++ (ws ++ (n' ++ post))) := pbest_spaces hu (by intro c hc; cases hc) (name_space hn)
    have h4 := PC.cat (v := n) (w := []) (PC.grp 2 (pbest_name (ci := ci) (post := ws ++ (n' ++ post)) hn hterm))
      (pc_none (fail_stop (post := post) hw hn'))
    have h3 := PC.cat (v := []) (PC.of (by simpa using hsp)) h4
    have h2 := (PC.grp 1 (pbest_chr "<" _)).cat h3
    refine h2.eq (by simp [str]) ?_
    simp [shift, str]
    omega

theorem hits_ref (hu : u.Ascii) {l : XL} (h : Cont l ci) {w post : List Nat} (hw : RefName u w) :
    Hits u l (str "&" ++ w ++ str ";") post .escape none [] := by
  refine hits hu (c := 38) (w := w ++ str ";") 6 [] (r := rule (refPat u) .escape) (by rw [cont_rules h]; rfl) rfl (by decide) (onlyAt_bang h).2.2.2.2
    (by simp) ?_
  exact PC.of (pbest_ref hw)

end Parce.Xml

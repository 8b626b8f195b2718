import Verif.Spec.Html
import Verif.Lemmas.XmlPat
import Verif.Lemmas.FindEncoding
/-!
# The rules of Html for tags
-/
namespace Parce.Html
open Parce.Json (Uni str)
open Parce.Xml (Name Ws IsWs PC shift chr spaces spacesLazy tagStop Term)
open Parce.CssL (PBest PFail)
variable {u : Uni} {x : Ext} {ci : Bool}

/-! ### Words -/

/-- Which characters a letter stands for. -/
def foldc (ci : Bool) (c : Nat) : Nat :=
  if ci then (if 65 ≤ c ∧ c ≤ 90 then c + 32 else if c = 0x212A then 107 else if c = 0x17F then 115 else c) else c

def Low (c : Nat) : Prop := 97 ≤ c ∧ c ≤ 122

theorem letter_iff {c y : Nat} (h : Low c) :
    (y == c || (ci && (y + 32 == c || (c == 107 && y == 0x212A) || (c == 115 && y == 0x17F)))) = true ↔ foldc ci y = c := by
  unfold Low at h
  unfold foldc
  cases ci with
  | false => simp
  | true =>
    simp only [Bool.true_and, Bool.or_eq_true, beq_iff_eq, Bool.and_eq_true, if_true]
    split
    · omega
    · split
      · omega
      · split
        · omega
        · omega

theorem pbest_lword : ∀ (v : List Nat), (∀ c ∈ v, Low c) → ∀ (n post : List Nat), n.map (foldc ci) = v → PBest (word ci v) n post
  | [], _, n, post, h => by
    have : n = [] := by cases n <;> simp_all
    subst this
    exact fun t p _ => best_eps p
  | [c], hv, n, post, h => by
    obtain ⟨y, rfl⟩ : ∃ y, n = [y] := by
      cases n with
      | nil => cases h
      | cons y n => cases n with
        | nil => exact ⟨y, rfl⟩
        | cons z n => cases h
    simp only [List.map_cons, List.map_nil, List.cons.injEq, and_true] at h
    exact CssL.pbest_set ((letter_iff (hv c (by simp))).2 h)
  | c :: c' :: v, hv, n, post, h => by
    cases n with
    | nil => cases h
    | cons y n =>
      simp only [List.map_cons, List.cons.injEq] at h
      exact PBest.cat (v := [y]) (CssL.pbest_set ((letter_iff (hv c (by simp))).2 h.1)) (pbest_lword (c' :: v) (fun a ha => hv a (by simp [ha])) n post h.2)

theorem lword_mat : ∀ (v : List Nat), (∀ c ∈ v, Low c) → ∀ {t : List Nat} {p q : Nat}, (word ci v).mat t p q →
    q = p + v.length ∧ v <+: (t.drop p).map (foldc ci)
  | [], _, t, p, q, h => ⟨h.symm, List.nil_prefix⟩
  | [c], hv, t, p, q, h => by
    obtain ⟨rfl, y, hy, hf⟩ := h
    refine ⟨rfl, ?_⟩
    obtain ⟨hlt, he⟩ := List.getElem?_eq_some_iff.1 hy
    rw [List.drop_eq_getElem_cons hlt, he, List.map_cons, (letter_iff (hv c (by simp))).1 hf]
    exact ⟨_, rfl⟩
  | c :: c' :: v, hv, t, p, q, h => by
    obtain ⟨r, ⟨rfl, y, hy, hf⟩, h2⟩ := h
    obtain ⟨rfl, h3⟩ := lword_mat (c' :: v) (fun a ha => hv a (by simp [ha])) h2
    refine ⟨by simp; omega, ?_⟩
    obtain ⟨hlt, he⟩ := List.getElem?_eq_some_iff.1 hy
    rw [List.drop_eq_getElem_cons hlt, he, List.map_cons, (letter_iff (hv c (by simp))).1 hf]
    obtain ⟨s, hs⟩ := h3
    exact ⟨s, by rw [← hs]; rfl⟩

theorem pfail_lword {v rest : List Nat} (hv : ∀ c ∈ v, Low c) (h : ¬ v <+: rest.map (foldc ci)) : PFail (word ci v) rest := by
  intro t p ht q hq
  exact h (ht ▸ (lword_mat v hv hq).2)

theorem alts_mat {as : List (Pat Nat)} {t : List Nat} {p q : Nat} (h : (Pat.alts as).mat t p q) : ∃ a ∈ as, a.mat t p q := by
  induction as with
  | nil => obtain ⟨_, y, _, hf⟩ := h; cases hf
  | cons a as ih =>
    cases as with
    | nil => exact ⟨a, by simp, h⟩
    | cons b as =>
      rcases h with h | h
      · exact ⟨a, by simp, h⟩
      · obtain ⟨c, hc, h'⟩ := ih h
        exact ⟨c, by simp [hc], h'⟩

theorem pbest_alts {vs : List (List Nat)} {v n post : List Nat} (hlow : ∀ v ∈ vs, ∀ c ∈ v, Low c) (hv : v ∈ vs) (hn : n.map (foldc ci) = v)
    (hx : ∀ v' ∈ vs, v' ≠ v → ¬ v' <+: (n ++ post).map (foldc ci)) : PBest (.alts (vs.map (word ci))) n post := by
  induction vs with
  | nil => cases hv
  | cons a vs ih =>
    have hb : a = v → PBest (word ci a) n post := fun e => pbest_lword a (hlow a (by simp)) n post (e ▸ hn)
    cases vs with
    | nil =>
      simp only [List.mem_singleton] at hv
      exact hb hv.symm
    | cons b vs =>
      by_cases hav : a = v
      · exact PBest.alt (hb hav)
      · refine PBest.alt' (pfail_lword (hlow a (by simp)) (hx a (by simp) hav)) (ih (fun v' h' => hlow v' (by simp [h'])) ?_ (fun v' h' => hx v' (by simp [h'])))
        simp only [List.mem_cons] at hv ⊢
        rcases hv with hv | hv
        · exact absurd hv.symm hav
        · exact hv

theorem prefix_left {v a b : List Nat} (h : v <+: a ++ b) (hv : ∀ c ∈ v, Low c) (hb : ∀ c, b.head? = some c → ¬ Low c) : v <+: a := by
  rcases List.prefix_or_prefix_of_prefix h (List.prefix_append a b) with h1 | ⟨s, rfl⟩
  · exact h1
  · cases s with
    | nil => simp
    | cons y s =>
      exfalso
      obtain ⟨r, hr⟩ := h
      rw [List.append_assoc, List.append_cancel_left_eq] at hr
      exact hb y (by rw [← hr]; rfl) (hv y (by simp))

theorem head_fold {post : List Nat} (hp : ∀ c, post.head? = some c → Term c) : ∀ c, (post.map (foldc ci)).head? = some c → ¬ Low c := by
  intro c hc
  rw [List.head?_map] at hc
  cases hh : post.head? with
  | none => rw [hh] at hc; cases hc
  | some d =>
    rw [hh] at hc
    obtain rfl := Option.some.inj hc
    have := hp d hh
    unfold Term IsWs at this
    unfold Low foldc
    cases ci with
    | false => simp only [Bool.false_eq_true, if_false]; omega
    | true =>
      simp only [if_true]
      split
      · omega
      · split
        · omega
        · split <;> omega

theorem voids_low : ∀ v ∈ voids, ∀ c ∈ v, Low c := by unfold Low; decide

theorem voids_free : ∀ v ∈ voids, ∀ v' ∈ voids, v' <+: v → v' = v := by decide +kernel

/-- A void name, followed by something that is not part of a name. -/
theorem pbest_void {n post : List Nat} (h : n.map (foldc ci) ∈ voids) (hp : ∀ c, post.head? = some c → Term c) : PBest (voidPat ci) n post := by
  refine pbest_alts voids_low h rfl (fun v' h' hne hpre => hne (voids_free _ h v' h' ?_))
  rw [List.map_append] at hpre
  exact prefix_left hpre (voids_low v' h') (head_fold hp)

theorem pfail_void {rest : List Nat} (h : ∀ v ∈ voids, ¬ v <+: rest.map (foldc ci)) : PFail (voidPat ci) rest := by
  intro t p ht q hq
  obtain ⟨a, ha, h'⟩ := alts_mat hq
  obtain ⟨v, hv, rfl⟩ := List.mem_map.1 ha
  exact pfail_lword (voids_low v hv) (h v hv) t p ht q h'


/-! ### Tags -/

def openLike (u : Uni) (np : Pat Nat) : Pat Nat := .cat (.grp 1 (chr "<")) (.cat (spaces u) (.cat (.grp 2 np) (.opt (Xml.openTail u))))

def closeLike (u : Uni) (np : Pat Nat) : Pat Nat :=
  .cat (.grp 1 (.cat (chr "<") (.cat (spacesLazy u) (chr "/")))) (.cat (spaces u) (.cat (.grp 2 np) (.cat (spaces u) (.grp 3 (chr ">")))))

theorem term_ws {ws rest : List Nat} (hw : Ws ws) (hr : ∀ c, rest.head? = some c → Term c) : ∀ c, (ws ++ rest).head? = some c → Term c := by
  intro c hc
  cases ws with
  | nil => exact hr c hc
  | cons y ws => obtain rfl : y = c := Option.some.inj hc; exact Or.inl (hw y (by simp))

theorem term_stop (slash : Bool) (post : List Nat) : ∀ c, (tagStop slash ++ post).head? = some c → Term c := by
  intro c hc
  cases slash
  · obtain rfl : 62 = c := Option.some.inj hc; right; omega
  · obtain rfl : 47 = c := Option.some.inj hc; right; omega

theorem pc_open (hu : u.Ascii) {np : Pat Nat} {n ws post : List Nat} (slash : Bool) (hn : Name u n) (hw : Ws ws)
    (hb : PBest np n ((ws ++ tagStop slash) ++ post)) :
    PC (openLike u np) (str "<" ++ (n ++ (ws ++ tagStop slash))) post
      [(3, 1 + n.length + ws.length, 1 + n.length + ws.length + (tagStop slash).length), (2, 1, 1 + n.length), (1, 0, 1)] := by
  have hsp : PBest (spaces u) [] (n ++ (ws ++ tagStop slash) ++ post) := Xml.pbest_spaces hu (by intro c hc; cases hc) (by
    rw [List.append_assoc]; exact Xml.name_space hn)
  have h2 := (PC.grp 1 (Xml.pbest_chr "<" _)).cat ((PC.of hsp).cat ((PC.grp 2 hb).cat (PC.opt (Xml.pc_stop hu slash (post := post) hw))))
  refine h2.eq rfl ?_
  simp [shift, str]
  omega

theorem pc_open_attrs (hu : u.Ascii) {np : Pat Nat} {n ws n' post : List Nat} (hn : Name u n) (hw : Ws ws) (hn' : Name u n')
    (hb : PBest np n (ws ++ (n' ++ post))) : PC (openLike u np) (str "<" ++ n) (ws ++ (n' ++ post)) [(2, 1, 1 + n.length), (1, 0, 1)] := by
  have hsp : PBest (spaces u) [] (n ++ (ws ++ (n' ++ post))) := Xml.pbest_spaces hu (by intro c hc; cases hc) (Xml.name_space hn)
  have h4 := PC.cat (v := n) (w := []) (PC.grp 2 hb) (Xml.pc_none (Xml.fail_stop (post := post) hw hn'))
  rw [List.append_nil] at h4
  have h2 := (PC.grp 1 (Xml.pbest_chr "<" _)).cat (PC.cat (v := []) (PC.of hsp) h4)
  refine h2.eq rfl ?_
  simp [shift, str, Nat.add_comm]

theorem pc_close (hu : u.Ascii) {np : Pat Nat} {n ws post : List Nat} (hn : Name u n) (hw : Ws ws) (hb : PBest np n ((ws ++ str ">") ++ post)) :
    PC (closeLike u np) (str "</" ++ (n ++ (ws ++ str ">"))) post
      [(3, 2 + n.length + ws.length, 2 + n.length + ws.length + 1), (2, 2, 2 + n.length), (1, 0, 2)] := by
  have h1 : PC (.grp 1 (.cat (chr "<") (.cat (spacesLazy u) (chr "/")))) (str "</") (n ++ (ws ++ str ">") ++ post) [(1, 0, 2)] := by
    refine PC.grp 1 ?_
    refine PBest.cat (v := [60]) (w := [47]) (Xml.pbest_chr "<" _) ?_
    exact (Xml.pc_lazy (PC.of (Xml.pbest_chr "/" _)) [] (by simp) (by simp)).best
  have h5 : PC (.cat (spaces u) (.grp 3 (chr ">"))) (ws ++ str ">") post _ :=
    (PC.of (Xml.pbest_spaces hu hw (Xml.not_space hu (by decide) (by decide)))).cat (PC.grp 3 (Xml.pbest_chr ">" post))
  have h4 := (PC.grp 2 hb).cat h5
  have h3 := (PC.of (Xml.pbest_spaces (w := []) (post := n ++ (ws ++ str ">") ++ post) hu (by intro c hc; cases hc) (by
    rw [List.append_assoc]; exact Xml.name_space hn))).cat h4
  have h2 := PC.cat (v := str "</") (w := [] ++ (n ++ (ws ++ str ">"))) (post := post) (by simpa using h1) h3
  refine h2.eq (by simp) ?_
  simp [shift, str]
  omega

/-! ### Taking a tag -/

theorem takes_of {l : HL} {i : Nat} {r : HRule} {w post : List Nat} {g : Caps} {tg : Option (Target HL)} {toks : List (List Nat × HA)}
    (hr : (rules u x l)[i]? = some r) (hf : ∀ b ∈ (rules u x l).take i, PFail b.pat (w ++ post)) (hw : w ≠ []) (hb : PC r.pat w post g)
    (hout : r.out w (Xml.texts w g) = (.x .tagGroups, tg))
    (ht : ([HA.x .delimiter, .x .tagName, .x .delimiter].zipIdx 1).flatMap (fun y => match groupOf g y.2 with
      | none => []
      | some (s, e) => if slice w s e = [] then [] else [(slice w s e, y.1)]) = toks) : Takes u x l w post toks tg := by
  intro t p hd
  have hs := slice_here hd
  have hp : p ≤ t.length := by
    have := drop_le hd hw
    omega
  have hm := match_rule (g := shift p g) hr (fun b hb' => hf b hb' t p hd) (hb t p hd) hp
  rw [Xml.rel_shift] at hm
  have := parse_match (noAct := HA.x .none) (dl := dflt u x l) hm hr
  have hne : (p == p + w.length) = false := by
    have := List.length_pos_iff.2 hw
    simp only [beq_eq_false_iff_ne, ne_eq]
    omega
  have hg : groupTexts t ⟨p, p + w.length, ⟨i, g⟩⟩ = Xml.texts w g := by
    simp only [groupTexts, Xml.texts, hs]
  rw [hs, hne, hg, hout] at this
  refine ⟨_, this, rfl, rfl, rfl, ?_⟩
  rw [← ht]
  have hgr : groups (HA.x .tagGroups) = some [HA.x .delimiter, .x .tagName, .x .delimiter] := rfl
  have hk1 : ((HA.x .delimiter) == HA.x .skip) = false := by decide
  have hk2 : ((HA.x .tagName) == HA.x .skip) = false := by decide
  simp only [lang, grpLang, hgr, groupLexemes, groupLexeme, List.zipIdx_cons, List.zipIdx_nil, List.flatMap_cons, List.flatMap_nil,
    hk1, hk2, Bool.false_eq_true, if_false, List.map_append, List.append_nil]
  refine congr (congrArg _ ?_) (congr (congrArg _ ?_) ?_)
  all_goals
    cases groupOf g _ with
    | none => rfl
    | some se =>
      obtain ⟨s, e⟩ := se
      simp only
      by_cases hk : slice w s e = []
      · rw [if_pos hk, if_pos hk]; rfl
      · rw [if_neg hk, if_neg hk]; rfl


/-! ### Names -/

theorem term_not (hu : u.Ascii) {c : Nat} (h : Term c) : u.word c = false ∧ c ≠ 58 := by
  have hlt : c < 128 := by unfold Term IsWs at h; omega
  rw [hu.word c hlt]
  unfold Term IsWs at h
  rcases h with (rfl | rfl | rfl | rfl) | rfl | rfl | rfl | rfl <;> decide

/-- No prefix with `:`. -/
theorem pfail_prefix (hu : u.Ascii) {n rest : List Nat} (hn : n ≠ []) (h58 : 58 ∉ n) (hr : ∀ c, rest.head? = some c → Term c) :
    PFail (.cat (.plus (.set u.word)) (chr ":")) (n ++ rest) := by
  cases n with
  | nil => exact absurd rfl hn
  | cons c n =>
    have h : PFail (.cat (.set u.word) (.cat (.star (.set u.word)) (chr ":"))) (c :: (n ++ rest)) := by
      refine CssL.pfail_cat_set (Xml.pfail_run (Or.inl rfl) (fun d hd => (term_not hu (hr d hd)).1) ?_)
      intro i hi
      refine CssL.pfail_chr (w := []) ?_
      intro he
      cases hd : n.drop i with
      | nil =>
        rw [hd] at he
        exact (term_not hu (hr 58 he)).2 rfl
      | cons y l =>
        rw [hd] at he
        obtain rfl : y = 58 := Option.some.inj he
        exact h58 (List.mem_cons_of_mem _ (List.mem_of_mem_drop (i := i) (by rw [hd]; simp)))
    rintro t p ht q ⟨r, ⟨r1, h1, h2⟩, h3⟩
    exact h t p ht q ⟨r1, h1, r, h2, h3⟩

/-- An optional prefix, and a void name. -/
def voidName (u : Uni) (ci : Bool) : Pat Nat := .cat (.opt (.cat (.plus (.set u.word)) (chr ":"))) (voidPat ci)

theorem lower_low {c : Nat} (h : Low (lowerChar c)) : foldc true c = lowerChar c := by
  unfold Low lowerChar at *
  unfold foldc
  simp only [if_true]
  split at h <;> split <;> first | rfl | (split <;> first | omega | (split <;> first | omega | rfl)) | omega

theorem void_fold {n : List Nat} (h : Void n) (hc : ci = false → lower n = n) : n.map (foldc ci) ∈ voids := by
  have hv : lower n ∈ voids := h
  cases ci with
  | false =>
    have e : n.map (foldc false) = n := by
      have : foldc false = id := by funext c; simp [foldc]
      rw [this, List.map_id]
    rw [e, ← hc rfl]; exact hv
  | true =>
    have e : n.map (foldc true) = lower n := by
      refine List.map_congr_left (fun c hc' => lower_low ?_)
      exact voids_low _ hv _ (List.mem_map_of_mem hc')
    rw [e]; exact hv

theorem lower_of_low {v : List Nat} (h : ∀ c ∈ v, Low c) : lower v = v := by
  unfold lower
  conv => rhs; rw [← List.map_id v]
  refine List.map_congr_left (fun c hc => ?_)
  have := h c hc
  unfold Low at this
  unfold lowerChar
  rw [if_neg (by omega)]
  rfl

theorem clear_no {n rest v : List Nat} (hr : ∀ c, rest.head? = some c → Term c) (hs : ∀ c ∈ n, c ≠ 0x212A ∧ c ≠ 0x17F) (hv : ∀ c ∈ v, Low c)
    (h : ¬ v <+: lower n) : ¬ v <+: (n ++ rest).map (foldc ci) := by
  intro hp
  rw [List.map_append] at hp
  have hp := prefix_left hp hv (head_fold hr)
  apply h
  cases ci with
  | false =>
    have e : n.map (foldc false) = n := by
      have : foldc false = id := by funext c; simp [foldc]
      rw [this, List.map_id]
    rw [e] at hp
    obtain ⟨s, rfl⟩ := hp
    exact ⟨lower s, by unfold lower; rw [List.map_append]; congr 1; exact (lower_of_low hv).symm⟩
  | true =>
    have e : n.map (foldc true) = lower n := by
      refine List.map_congr_left (fun c hc' => ?_)
      have := hs c hc'
      unfold foldc lowerChar
      simp only [if_true]
      split <;> first | rfl | (rw [if_neg (by omega), if_neg (by omega)])
    rw [e] at hp; exact hp

theorem low_style : ∀ c ∈ str "style", Low c := by unfold Low; decide
theorem low_script : ∀ c ∈ str "script", Low c := by unfold Low; decide

theorem clear_void {n rest : List Nat} (hr : ∀ c, rest.head? = some c → Term c) (h : Clear n) : PFail (voidPat ci) (n ++ rest) :=
  pfail_void (fun v hv => clear_no hr h.2 (voids_low v hv) (h.1 v (List.mem_append_left (as := voids) [str "style", str "script"] hv)))

/-- Not `style` or `script`. -/
theorem pfail_style {n rest : List Nat} (hr : ∀ c, rest.head? = some c → Term c) (hs : ∀ c ∈ n, c ≠ 0x212A ∧ c ≠ 0x17F)
    (h1 : ¬ str "style" <+: lower n) (h2 : ¬ str "script" <+: lower n) : PFail (stylePat u ci) (60 :: (n ++ rest)) := by
  have h : PFail (.cat (chr "<") (.cat (.grp 2 (.alt (word ci (str "style")) (word ci (str "script")))) (.cat (.bound u.word)
    (.opt (.grp 3 (.alt (chr ">") (.cat (chr "/") (.cat (spaces u) (chr ">"))))))))) (60 :: (n ++ rest)) :=
    CssL.pfail_cat_set (CssL.pfail_cat (Xml.pfail_grp (CssL.pfail_alt (pfail_lword low_style (clear_no hr hs low_style h1))
      (pfail_lword low_script (clear_no hr hs low_script h2)))))
  exact fun t p ht q hq => h t p ht q hq

theorem fail_open (hu : u.Ascii) {np : Pat Nat} {n rest : List Nat} (hn : ∀ c, (n ++ rest).head? = some c → u.space c = false) (h : PFail np (n ++ rest)) :
    PFail (openLike u np) (60 :: (n ++ rest)) := by
  have h' : PFail (.cat (chr "<") (.cat (spaces u) (.cat (.grp 2 np) (.opt (Xml.openTail u))))) (60 :: (n ++ rest)) := by
    refine CssL.pfail_cat_set (Xml.pfail_run (v := []) (Or.inl rfl) hn ?_)
    intro i hi
    simp only [List.drop_nil]
    exact CssL.pfail_cat (Xml.pfail_grp h)
  exact fun t p ht q hq => h' t p ht q hq

theorem fail_close {np : Pat Nat} {w rest : List Nat} (h : Name u w) : PFail (closeLike u np) (60 :: (w ++ rest)) := by
  obtain ⟨c, r, rfl, _, h2, h3⟩ := Xml.name_first h
  refine CssL.pfail_cat (Xml.pfail_grp (CssL.pfail_cat_set ?_))
  refine Xml.pfail_run (v := []) (post := c :: r ++ rest) (Or.inr rfl) (Xml.name_space h) ?_
  intro i hi
  simp only [List.length_nil, Nat.le_zero] at hi
  subst hi
  refine CssL.pfail_chr (w := []) ?_
  intro he
  obtain rfl : c = 47 := Option.some.inj he
  exact h3 (by decide)

theorem fail_close_name (hu : u.Ascii) {np : Pat Nat} {w rest : List Nat} (h : Name u w) (hf : PFail np (w ++ rest)) :
    PFail (closeLike u np) (60 :: 47 :: (w ++ rest)) := by
  have h' : PFail (.cat (chr "<") (.cat (spacesLazy u) (.cat (chr "/") (.cat (spaces u) (.cat (.grp 2 np) (.cat (spaces u) (.grp 3 (chr ">")))))))) (60 :: 47 :: (w ++ rest)) := by
    refine CssL.pfail_cat_set (Xml.pfail_run (v := []) (post := 47 :: (w ++ rest)) (Or.inr rfl) (Xml.not_space hu (by decide) (by decide)) ?_)
    intro i hi
    simp only [List.drop_nil]
    refine CssL.pfail_cat_set (Xml.pfail_run (v := []) (Or.inl rfl) (Xml.name_space h) ?_)
    intro j hj
    simp only [List.drop_nil]
    exact CssL.pfail_cat (Xml.pfail_grp hf)
  rintro t p ht q ⟨r, ⟨r1, h1, r2, h2, h3⟩, h4⟩
  exact h' t p ht q ⟨r1, h1, r2, h2, r, h3, h4⟩

theorem pfail_alts {as : List (Pat Nat)} {rest : List Nat} (h : ∀ a ∈ as, PFail a rest) : PFail (.alts as) rest := by
  intro t p ht q hq
  obtain ⟨a, ha, h'⟩ := alts_mat hq
  exact h a ha t p ht q h'

theorem void_slash (rest : List Nat) : PFail (voidPat ci) (47 :: rest) := by
  refine pfail_void (fun v hv hp => ?_)
  have := prefix_left (a := []) (b := (47 :: rest).map (foldc ci)) hp (voids_low v hv) (head_fold (by
    intro c hc; obtain rfl : 47 = c := Option.some.inj hc; right; omega))
  rw [List.prefix_nil] at this
  subst this
  exact absurd hv (by decide)

theorem style_slash (rest : List Nat) : PFail (stylePat u ci) (60 :: 47 :: rest) := by
  have hr : ∀ c, (47 :: rest).head? = some c → Term c := by intro c hc; obtain rfl : 47 = c := Option.some.inj hc; right; omega
  exact pfail_style (n := []) (rest := 47 :: rest) hr (by simp) (by decide) (by decide)

theorem fail_opt {a b : Pat Nat} {rest : List Nat} (h1 : PFail a rest) (h2 : PFail b rest) : PFail (.cat (.opt a) b) rest := by
  rintro t p ht q ⟨r, h3 | h3, h4⟩
  · exact h1 t p ht r h3
  · obtain rfl : p = r := h3
    exact h2 t p ht q h4

/-! ### The rules -/

/-- Which rules ignore case. -/
def Cont (l : HL) (ci : Bool) : Prop := (l = .xml .root ∧ ci = true) ∨ (l = .xml .tag ∧ ci = false)

theorem cont_of {l : HL} (h : Content l) : ∃ ci, Cont l ci ∧ (ci = false → l = .xml .tag) := by
  rcases h with rfl | rfl
  · exact ⟨true, Or.inl ⟨rfl, rfl⟩, by simp⟩
  · exact ⟨false, Or.inr ⟨rfl, rfl⟩, by simp⟩

theorem cont_rules {l : HL} (h : Cont l ci) : rules u x l = contentRules u ci := by
  rcases h with ⟨rfl, rfl⟩ | ⟨rfl, rfl⟩ <;> rfl

/-- The rules before a rule of Xml. -/
theorem before {k : Nat} {w : List Nat} (h0 : PFail (voidClosePat u ci) w) (h1 : PFail (voidOpenPat u ci) w) (h2 : PFail (stylePat u ci) w)
    (h : ∀ j < k, ∀ r, (Xml.contentRules u ci)[j]? = some r → PFail r.pat w) : ∀ b ∈ (contentRules u ci).take (k + 3), PFail b.pat w := by
  intro b hb
  obtain ⟨j, he⟩ := List.getElem?_of_mem hb
  have hj : j < k + 3 := by
    have := (List.getElem?_eq_some_iff.1 he).1
    rw [List.length_take] at this; omega
  rw [List.getElem?_take, if_pos hj] at he
  match j, hj, he with
  | 0, _, he => obtain rfl := Option.some.inj he; exact h0
  | 1, _, he => obtain rfl := Option.some.inj he; exact h1
  | 2, _, he => obtain rfl := Option.some.inj he; exact h2
  | j + 3, hj, he =>
    have he : ((Xml.contentRules u ci).map liftRule)[j]? = some b := he
    rw [List.getElem?_map] at he
    cases hx : (Xml.contentRules u ci)[j]? with
    | none => rw [hx] at he; cases he
    | some r =>
      rw [hx] at he
      obtain rfl := Option.some.inj he
      exact h j (by omega) r hx


/-! ### Tokens of tags -/

theorem toks3 {a n ws b : List Nat} (ha : a ≠ []) (hn : n ≠ []) (hb : b ≠ []) :
    ([HA.x .delimiter, .x .tagName, .x .delimiter].zipIdx 1).flatMap (fun y => match groupOf
        [(3, a.length + n.length + ws.length, a.length + n.length + ws.length + b.length), (2, a.length, a.length + n.length), (1, 0, a.length)] y.2 with
      | none => []
      | some (s, e) => if slice (a ++ (n ++ (ws ++ b))) s e = [] then [] else [(slice (a ++ (n ++ (ws ++ b))) s e, y.1)]) = tagToks [a, n, b] := by
  have e1 : slice (a ++ (n ++ (ws ++ b))) 0 a.length = a := by
    have := Xml.slice_mid [] a (n ++ (ws ++ b)) (s := 0) (e := a.length) rfl (by simp)
    simpa using this
  have e2 : slice (a ++ (n ++ (ws ++ b))) a.length (a.length + n.length) = n := by
    have := Xml.slice_mid a n (ws ++ b) rfl rfl
    simpa using this
  have e3 : slice (a ++ (n ++ (ws ++ b))) (a.length + n.length + ws.length) (a.length + n.length + ws.length + b.length) = b := by
    have := Xml.slice_mid (a ++ n ++ ws) b [] (s := a.length + n.length + ws.length) (e := a.length + n.length + ws.length + b.length)
      (by simp [Nat.add_assoc]) (by simp [Nat.add_assoc])
    simpa using this
  simp [groupOf, e1, e2, e3, ha, hn, hb, tagToks]

theorem toks2 {a n : List Nat} (ha : a ≠ []) (hn : n ≠ []) :
    ([HA.x .delimiter, .x .tagName, .x .delimiter].zipIdx 1).flatMap (fun y => match groupOf
        [(2, a.length, a.length + n.length), (1, 0, a.length)] y.2 with
      | none => []
      | some (s, e) => if slice (a ++ n) s e = [] then [] else [(slice (a ++ n) s e, y.1)]) = tagToks [a, n] := by
  have e1 : slice (a ++ n) 0 a.length = a := by
    have := Xml.slice_mid [] a n (s := 0) (e := a.length) rfl (by simp)
    simpa using this
  have e2 : slice (a ++ n) a.length (a.length + n.length) = n := by
    have := Xml.slice_mid a n [] rfl rfl
    simpa using this
  simp [groupOf, e1, e2, ha, hn, tagToks]

theorem text3 (a n ws b : List Nat) (g : Caps) :
    (Xml.texts (a ++ (n ++ (ws ++ b))) ((3, a.length + n.length + ws.length, a.length + n.length + ws.length + b.length) :: g)).lookup 3 = some b := by
  have e3 : slice (a ++ (n ++ (ws ++ b))) (a.length + n.length + ws.length) (a.length + n.length + ws.length + b.length) = b := by
    have := Xml.slice_mid (a ++ n ++ ws) b [] (s := a.length + n.length + ws.length) (e := a.length + n.length + ws.length + b.length)
      (by simp [Nat.add_assoc]) (by simp [Nat.add_assoc])
    simpa using this
  simp [Xml.texts, List.lookup_cons, e3]

theorem stop_ne (slash : Bool) : tagStop slash ≠ [] := by cases slash <;> decide

theorem startTag_eq (n ws : List Nat) (slash : Bool) : startTag n ws slash = str "<" ++ (n ++ (ws ++ tagStop slash)) := by
  unfold startTag
  cases slash <;> simp [tagStop, str]

theorem endTag_eq (n ws : List Nat) : endTag n ws = str "</" ++ (n ++ (ws ++ str ">")) := by
  unfold endTag
  simp

/-- A rule of the language Xml. -/
theorem takes_xml {l : HL} (hl : Cont l ci) {k : Nat} {r : Xml.XRule} {w post : List Nat} {g : Caps} {tg : Option (Target Xml.XL)} {toks : List (List Nat × HA)}
    (hr : (Xml.contentRules u ci)[k]? = some r) (hw : w ≠ []) (h0 : PFail (voidClosePat u ci) (w ++ post)) (h1 : PFail (voidOpenPat u ci) (w ++ post))
    (h2 : PFail (stylePat u ci) (w ++ post)) (h : ∀ j < k, ∀ r, (Xml.contentRules u ci)[j]? = some r → PFail r.pat (w ++ post))
    (hb : PC r.pat w post g) (hout : r.out w (Xml.texts w g) = (.tagGroups, tg))
    (ht : ([HA.x .delimiter, .x .tagName, .x .delimiter].zipIdx 1).flatMap (fun y => match groupOf g y.2 with
      | none => []
      | some (s, e) => if slice w s e = [] then [] else [(slice w s e, y.1)]) = toks) :
    Takes u x l w post toks (tg.map fun t => ⟨t.pop, t.push.map lift⟩) := by
  refine takes_of (i := k + 3) (r := liftRule r) (g := g) ?_ ?_ hw hb ?_ ht
  · rw [cont_rules hl]
    show ((Xml.contentRules u ci).map liftRule)[k]? = _
    rw [List.getElem?_map, hr]
    rfl
  · rw [cont_rules hl]
    exact before h0 h1 h2 h
  · simp only [liftRule, hout]


/-- A rule with an action for the whole text. -/
theorem takes_plain {l : HL} {i : Nat} {r : HRule} {w post : List Nat} {g : Caps} {a : HA} {tg : Option (Target HL)}
    (hr : (rules u x l)[i]? = some r) (hf : ∀ b ∈ (rules u x l).take i, PFail b.pat (w ++ post)) (hw : w ≠ []) (hb : PC r.pat w post g)
    (hout : r.out w (Xml.texts w g) = (a, tg)) (hgr : groups a = none) (hsk : (a == HA.x .skip) = false) : Takes u x l w post [(w, a)] tg := by
  intro t p hd
  have hs := slice_here hd
  have hp : p ≤ t.length := by
    have := drop_le hd hw
    omega
  have hm := match_rule (g := shift p g) hr (fun b hb' => hf b hb' t p hd) (hb t p hd) hp
  rw [Xml.rel_shift] at hm
  have := parse_match (noAct := HA.x .none) (dl := dflt u x l) hm hr
  have hne : (p == p + w.length) = false := by
    have := List.length_pos_iff.2 hw
    simp only [beq_eq_false_iff_ne, ne_eq]
    omega
  have hg : groupTexts t ⟨p, p + w.length, ⟨i, g⟩⟩ = Xml.texts w g := by
    simp only [groupTexts, Xml.texts, hs]
  rw [hs, hne, hg, hout] at this
  refine ⟨_, this, rfl, rfl, rfl, ?_⟩
  simp only [lang, grpLang, hgr, hsk, Bool.false_eq_true, if_false]
  rfl

/-! ### style and script -/

theorem pc_bound {a : Pat Nat} {i : Nat} {n post : List Nat} {c : Nat} (h : PBest a n post) (hl : n.getLast? = some c) (hw : u.word c = true)
    (hp : ∀ d, post.head? = some d → u.word d = false) : PC (.cat (.grp i a) (.bound u.word)) n post [(i, 0, n.length)] := by
  intro t p ht
  have h1 := PC.grp i h t p ht
  have hd : t.drop (p + n.length) = post := drop_add ht
  have hne : n ≠ [] := by intro h0; rw [h0] at hl; cases hl
  have hpos := List.length_pos_iff.2 hne
  have hc : t[p + n.length - 1]? = some c := by
    have e : t[p + (n.length - 1)]? = (t.drop p)[n.length - 1]? := by rw [List.getElem?_drop]
    rw [show p + n.length - 1 = p + (n.length - 1) by omega, e, ht, List.getElem?_append_left (by omega), ← hl, List.getLast?_eq_getElem?]
  have h2 := (Json.bound_right (u := u) (t := t) (q := p + n.length) (by omega) hc hw hd hp).toC
  have := h1.cat h2
  simpa using this

theorem raw_cases {n : List Nat} (h : n = str "style" ∨ n = str "script") : PBest (.alt (word ci (str "style")) (word ci (str "script"))) n post := by
  have e : ∀ m : List Nat, (∀ c ∈ m, Low c) → m.map (foldc ci) = m := by
    intro m hm
    conv => rhs; rw [← List.map_id m]
    refine List.map_congr_left (fun c hc => ?_)
    have := hm c hc
    unfold Low at this
    unfold foldc
    cases ci with
    | false => rfl
    | true =>
      simp only [if_true]
      rw [if_neg (by omega), if_neg (by omega), if_neg (by omega)]
      rfl
  rcases h with rfl | rfl
  · exact (FEnc.PC.alt (PC.of (pbest_lword _ low_style _ post (e _ low_style)))).best
  · refine (FEnc.PC.alt' ?_ (PC.of (pbest_lword _ low_script _ post (e _ low_script)))).best
    refine pfail_lword low_style (fun hp => ?_)
    rw [List.map_append, e _ low_script] at hp
    obtain ⟨r, hr⟩ := hp
    have e1 : str "style" = 115 :: 116 :: str "yle" := by decide
    have e2 : str "script" = 115 :: 99 :: str "ript" := by decide
    rw [e1, e2] at hr
    injection hr with _ hr
    injection hr with hr _
    cases hr

theorem raw_word (hu : u.Ascii) {n : List Nat} (h : n = str "style" ∨ n = str "script") : ∃ c, n.getLast? = some c ∧ u.word c = true := by
  rcases h with rfl | rfl
  · exact ⟨101, by decide, by rw [hu.word _ (by decide)]; decide⟩
  · exact ⟨116, by decide, by rw [hu.word _ (by decide)]; decide⟩

theorem raw_void {n rest : List Nat} (h : n = str "style" ∨ n = str "script") (hr : ∀ c, rest.head? = some c → Term c) : PFail (voidPat ci) (n ++ rest) := by
  have hs : (∀ c ∈ n, c ≠ 0x212A ∧ c ≠ 0x17F) ∧ ∀ v ∈ voids, ¬ v <+: lower n := by
    rcases h with rfl | rfl <;> exact ⟨by decide, by decide +kernel⟩
  exact pfail_void (fun v hv => clear_no hr hs.1 (voids_low v hv) (hs.2 v hv))

/-- `<style>`, `<script>`. -/
theorem pc_raw (hu : u.Ascii) {n : List Nat} (h : n = str "style" ∨ n = str "script") (post : List Nat) :
    PC (stylePat u ci) (str "<" ++ (n ++ ([] ++ str ">"))) post [(3, 1 + n.length + 0, 1 + n.length + 0 + 1), (2, 1, 1 + n.length), (1, 0, 1)] := by
  obtain ⟨c, hl, hw⟩ := raw_word hu h
  have h3 : PC (.opt (.grp 3 (.alt (chr ">") (.cat (chr "/") (.cat (spaces u) (chr ">")))))) (str ">") post [(3, 0, 1)] :=
    PC.opt (PC.grp 3 (FEnc.PC.alt (PC.of (Xml.pbest_chr ">" post))).best)
  have hp : ∀ d, (str ">" ++ post).head? = some d → u.word d = false := fun d hd => (term_not hu (term_stop false post d hd)).1
  have h2 := FEnc.PC.same (fun t p c => (FEnc.run_assoc _ _ _ t p c).symm) ((pc_bound (i := 2) (raw_cases (ci := ci) h) hl hw hp).cat h3)
  have h1 := (PC.grp 1 (Xml.pbest_chr "<" _)).cat h2
  refine h1.eq (by simp) ?_
  simp [shift, str]
  omega

/-- `<style`, `<script`, and attributes. -/
theorem pc_raw_attrs (hu : u.Ascii) {n ws post : List Nat} (h : n = str "style" ∨ n = str "script") (hne : ws ≠ []) (hws : Ws ws) :
    PC (stylePat u ci) (str "<" ++ n) (ws ++ post) [(2, 1, 1 + n.length), (1, 0, 1)] := by
  obtain ⟨c, hl, hw⟩ := raw_word hu h
  obtain ⟨y, ws, rfl⟩ : ∃ y l, ws = y :: l := by cases ws with | nil => exact absurd rfl hne | cons y l => exact ⟨y, l, rfl⟩
  have hy := hws y (by simp)
  have h3 : PC (.opt (.grp 3 (.alt (chr ">") (.cat (chr "/") (.cat (spaces u) (chr ">")))))) [] (y :: ws ++ post) [] := by
    refine Xml.pc_none (Xml.pfail_grp (CssL.pfail_alt (CssL.pfail_chr (c := 62) (w := []) ?_) (CssL.pfail_cat (CssL.pfail_chr (c := 47) (w := []) ?_))))
    all_goals
      intro he
      have := Option.some.inj he
      unfold IsWs at hy
      omega
  have hp : ∀ d, ([] ++ (y :: ws ++ post)).head? = some d → u.word d = false := by
    intro d hd
    obtain rfl : y = d := Option.some.inj hd
    exact (term_not hu (Or.inl hy)).1
  have h2 := FEnc.PC.same (fun t p c => (FEnc.run_assoc _ _ _ t p c).symm) ((pc_bound (i := 2) (raw_cases (ci := ci) h) hl hw hp).cat h3)
  have h1 := (PC.grp 1 (Xml.pbest_chr "<" _)).cat h2
  refine h1.eq (by simp) ?_
  simp [shift, str, Nat.add_comm]

/-- `</style>` -/
theorem pc_end (hu : u.Ascii) {n ws post : List Nat} (hn : Name u n) (hw : Ws ws) :
    PC (endPat u n) (str "</" ++ (n ++ (ws ++ str ">"))) post
      [(3, 2 + n.length + ws.length, 2 + n.length + ws.length + 1), (2, 2, 2 + n.length), (1, 0, 2)] := by
  have h1 : PC (.grp 1 (.cat (chr "<") (.cat (spaces u) (chr "/")))) (str "</") (n ++ (ws ++ str ">") ++ post) [(1, 0, 2)] := by
    refine PC.grp 1 ?_
    refine PBest.cat (v := [60]) (w := [47]) (Xml.pbest_chr "<" _) ?_
    exact PBest.cat (v := []) (w := [47]) (Xml.pbest_spaces hu (by intro c hc; cases hc) (Xml.not_space hu (by decide) (by decide))) (Xml.pbest_chr "/" _)
  have h5 : PC (.cat (spaces u) (.grp 3 (chr ">"))) (ws ++ str ">") post _ :=
    (PC.of (Xml.pbest_spaces hu hw (Xml.not_space hu (by decide) (by decide)))).cat (PC.grp 3 (Xml.pbest_chr ">" post))
  have h4 := (PC.grp 2 (CssL.pbest_str n _)).cat h5
  have h3 := (PC.of (Xml.pbest_spaces (w := []) (post := n ++ (ws ++ str ">") ++ post) hu (by intro c hc; cases hc) (by
    rw [List.append_assoc]; exact Xml.name_space hn))).cat h4
  have h2 := PC.cat (v := str "</") (w := [] ++ (n ++ (ws ++ str ">"))) (post := post) (by simpa using h1) h3
  refine h2.eq (by simp) ?_
  simp [shift, str]
  omega

end Parce.Html

import Verif.Lemmas.XmlPat
/-!
# Comments in XML texts
-/
namespace Parce.Xml
open Parce.Json (Uni str)
variable {u : Uni} {ci : Bool}

/-! ### What is marked in comments -/

/-- After each `-` that is matched, there is a word character that is also matched. -/
def Tame (word : Nat → Bool) (t : List Nat) (p q : Nat) : Prop := ∀ i, p ≤ i → i < q → t[i]? = some 45 → i + 1 < q ∧ ∃ x, t[i + 1]? = some x ∧ word x = true

theorem Tame.trans {word : Nat → Bool} {t : List Nat} {p q r : Nat} (h1 : Tame word t p q) (h2 : Tame word t q r) (hqr : q ≤ r) : Tame word t p r := by
  intro i hi1 hi2 h
  by_cases hq : i < q
  · obtain ⟨h3, h4⟩ := h1 i hi1 hq h
    exact ⟨by omega, h4⟩
  · exact h2 i (by omega) hi2 h

theorem tame_rtg {word : Nat → Bool} {t : List Nat} {a : Pat Nat} (h : ∀ p q, a.mat t p q → Tame word t p q) {p q : Nat}
    (hr : Relation.ReflTransGen (a.mat t) p q) : Tame word t p q := by
  induction hr with
  | refl => intro i h1 h2; omega
  | tail _ h2 ih => exact ih.trans (h _ _ h2) (mat_bounds t a _ _ h2).1

theorem tame_of_avoids {word : Nat → Bool} {t : List Nat} {a : Pat Nat} (ha : Ini.Avoids 45 a) {p q : Nat} (h : a.mat t p q) : Tame word t p q :=
  fun i h1 h2 h3 => absurd h3 (Ini.avoids_mat a ha p q h i h1 h2)

theorem tame_link {word : Nat → Bool} (hw : word 45 = false) {t : List Nat} {f : Nat → Bool} {p q : Nat} (h : (Pat.cat (.set f) (.plus (.set word))).mat t p q) :
    Tame word t p q := by
  obtain ⟨r, ⟨rfl, _⟩, s, ⟨rfl, x, hx, hx'⟩, h3⟩ := h
  have h4 := (mat_bounds t _ _ _ h3).1
  intro i h1 h2 h5
  by_cases hi : i = p
  · subst hi
    exact ⟨by omega, x, hx, hx'⟩
  · have ha : Ini.Avoids 45 (.plus (.set word)) := by simp [Ini.Avoids, Pat.plus, hw]
    exact absurd h5 (Ini.avoids_mat _ ha (p + 1) q ⟨p + 1 + 1, ⟨rfl, x, hx, hx'⟩, h3⟩ i (by omega) h2)

theorem email_tame {word : Nat → Bool} (hw : word 45 = false) {t : List Nat} {p q : Nat} (h : (Ini.emailPat word).mat t p q) : Tame word t p q := by
  obtain ⟨r0, ⟨rfl, _⟩, r1, h1, r2, h2, r3, h3, r4, h4, r5, h5, ⟨rfl, _⟩⟩ := h
  have hp : Ini.Avoids 45 (.plus (.set word)) := by simp [Ini.Avoids, Pat.plus, hw]
  have hat : Ini.Avoids 45 (Pat.chr 64) := by simp [Ini.Avoids, Pat.chr]
  have b2 := (mat_bounds t _ _ _ h2).1
  have b3 := (mat_bounds t _ _ _ h3).1
  have b4 := (mat_bounds t _ _ _ h4).1
  have b5 := (mat_bounds t _ _ _ h5).1
  exact ((((tame_of_avoids hp h1).trans (tame_rtg (fun _ _ h => tame_link hw h) h2) b2).trans (tame_of_avoids hat h3) b3).trans
    (tame_of_avoids hp h4) b4).trans (tame_rtg (fun _ _ h => tame_link hw h) h5) b5

/-- How a web address starts. -/
theorem url_start {word : Nat → Bool} {t : List Nat} {p q : Nat} (h : (Ini.urlPat word).mat t p q) :
    ∃ r s post, p ≤ s ∧ (∀ i, p ≤ i → i < r → t[i]? ≠ some 45) ∧ ((r = s + 2 ∧ t.drop s = str ":/" ++ post) ∨ (r = s + 4 ∧ t.drop s = str "www." ++ post)) := by
  obtain ⟨r, h1, _⟩ := h
  have ha : Ini.Avoids 45 (.alt (.cat (.alt (.cat (Pat.str (Ini.str "http")) (.opt (.chr 115))) (Pat.str (Ini.str "ftp"))) (Pat.str (Ini.str ":/")))
      (.cat (.bound word) (Pat.str (Ini.str "www.")))) := by
    simp [Ini.Avoids, Pat.opt, Pat.str, Pat.chr, Pat.bound, Ini.str]
  have hav := Ini.avoids_mat _ ha p r h1
  rcases h1 with ⟨s, h2, h3⟩ | ⟨s, ⟨rfl, _⟩, h3⟩
  · obtain ⟨h4, post, h5⟩ := str_mat _ h3
    exact ⟨r, s, post, (mat_bounds t _ _ _ h2).1, hav, Or.inl ⟨h4, h5⟩⟩
  · obtain ⟨h4, post, h5⟩ := str_mat _ h3
    exact ⟨r, p, post, Nat.le_refl _, hav, Or.inr ⟨h4, h5⟩⟩

/-! ### Text in comments -/

theorem comment_gap {p n : Nat} {w post t : List Nat} {m : Mtch RM} {is : List V} {fs : List Fr} {o : Bool}
    (ht : t.drop p = w ++ post) (hw : w ≠ [])
    (hn : ∀ i, p ≤ i → i < p + w.length → ¬ Starts (pats u .comment) t i) (hm : rxMatch (pats u .comment) t (p + w.length) = some m) :
    IGoes (lang u) meths t ⟨p, conv ((.comment, is) :: fs), n, o⟩ ⟨p + w.length, conv ((.comment, is ++ [.tok w .comment]) :: fs), 0, true⟩ := by
  have hl : 0 < w.length := List.length_pos_iff.2 hw
  have hst := (rxMatch_some hm).1
  have hld : (lang u).ld .comment = .regex (rxSearch (pats u .comment)) (rxMatch (pats u .comment)) (ruleOut .none (rules u .comment)) (.action fun _ => .comment) := by
    show compile .none (rules u .comment) (dflt u .comment) = _
    rw [compile_cons _ _ _ (rules_ne .comment)]
    rfl
  have := i_tok (lang := lang u) (m := meths) (is := is.map vit) (fs := conv fs) (n := n) (o := o) (a := .comment) (t := t) (l := .comment)
    (tok := ⟨p, w, none, .comment, none⟩) (ps' := .pend m) (p := p) ?_ rfl hw rfl rfl ?_
  · simpa [conv_cons, vit] using this
  · show parseNext _ ((lang u).ld .comment) _ _ = _
    rw [hld]
    simp only [parseNext, search_first (Nat.le_add_right _ _) hn hm, hst]
    rw [if_pos (by omega), slice_here ht]
  · show parseNext _ ((lang u).ld .comment) _ _ = parseNext _ ((lang u).ld .comment) _ _
    rw [hld]
    simp only [parseNext, search_here hm, hst]
    rw [if_neg (by omega)]

theorem comment_mark {p q n idx : Nat} {caps : Caps} {t : List Nat} {a : Pat Nat} {act : XA} {is : List V} {fs : List Fr} {o : Bool}
    (hm : rxMatch (pats u .comment) t p = some ⟨p, q, ⟨idx, caps⟩⟩) (hr : (rules u .comment)[idx]? = some (rule a act)) (hpq : p < q) (hq : q ≤ t.length)
    (hg : groups act = none) (hs : act ≠ .skip) :
    IGoes (lang u) meths t ⟨p, conv ((.comment, is) :: fs), n, o⟩ ⟨q, conv ((.comment, is ++ [.tok (slice t p q) act]) :: fs), 0, true⟩ := by
  obtain ⟨_, hsl⟩ := CssL.slice_split (t := t) (p := p) (q := q) (by omega) hq
  have hne : slice t p q ≠ [] := by
    intro h; rw [h] at hsl; simp at hsl; omega
  have hpar := parse_match (noAct := XA.none) (dl := dflt u .comment) hm hr
  have hb : (p == q) = false := by simp only [beq_eq_false_iff_ne]; omega
  rw [hb] at hpar
  have hstep := i_tok (lang := lang u) (l := .comment) (m := meths) (is := is.map vit) (fs := conv fs) (n := n) (o := o) (a := act)
    (tok := ⟨p, slice t p q, some ⟨p, q, ⟨idx, caps⟩⟩, act, none⟩) (ps' := .at q false) hpar rfl hne rfl (by simp [lang, grpLang, hg, hs])
    (by simp only [hsl])
  simp only [hsl] at hstep
  simpa [conv_cons, vit] using hstep

theorem flat_tok (is : List V) (w : List Nat) (a : XA) : (is ++ [V.tok w a]).flatMap vtext = is.flatMap vtext ++ w := by
  simp [vtext]

theorem slice_append {t : List Nat} {p q r : Nat} (h1 : p ≤ q) (h2 : q ≤ r) (h3 : r ≤ t.length) : slice t p q ++ slice t q r = slice t p r := by
  obtain ⟨a1, _⟩ := CssL.slice_split (t := t) h1 (by omega)
  obtain ⟨a2, _⟩ := CssL.slice_split (t := t) h2 h3
  obtain ⟨a3, _⟩ := CssL.slice_split (t := t) (Nat.le_trans h1 h2) h3
  rw [a1, a2, ← List.append_assoc] at a3
  exact List.append_cancel_right a3

theorem comment_body (hw : u.word 45 = false) {t : List Nat} {e : Nat} (he : t[e]? = some 45 ∧ t[e + 1]? = some 45) {fs : List Fr} :
    ∀ (d p n : Nat) (o : Bool) (is : List V), e - p ≤ d → p ≤ e → (∀ i, p ≤ i → i < e → ¬ (t[i]? = some 45 ∧ t[i + 1]? = some 45)) →
    (∀ i, p ≤ i → i < e → ∀ q, ¬ (Ini.urlPat u.word).mat t i q) →
    ∃ is' n' o', IGoes (lang u) meths t ⟨p, conv ((.comment, is) :: fs), n, o⟩ ⟨e, conv ((.comment, is') :: fs), n', o'⟩ ∧
      is'.flatMap vtext = is.flatMap vtext ++ slice t p e := by
  intro d
  have hlen : e < t.length := (List.getElem?_eq_some_iff.1 he.1).1
  have hnil : ∀ p, slice t p p = [] := fun p => by unfold slice; simp
  have hdash : ∀ {s : List Nat} {p q : Nat}, (Pat.str (45 :: 45 :: s)).mat t p q → t[p]? = some 45 ∧ t[p + 1]? = some 45 := by
    intro s p q h
    obtain ⟨_, post, h2⟩ := str_mat _ h
    refine ⟨drop_get h2, ?_⟩
    have : t.drop (p + 1) = 45 :: (s ++ post) := by rw [← List.drop_drop, h2]; rfl
    exact drop_get this
  induction d with
  | zero =>
    intro p n o is hd hp hn hurl
    have : p = e := by omega
    subst this
    exact ⟨is, n, o, .refl _, by rw [hnil]; simp⟩
  | succ d ih =>
    intro p n o is hd hp hn hurl
    by_cases hpe : p = e
    · exact ih p n o is (by omega) hp hn hurl
    have hend : Starts (pats u .comment) t e := ⟨chr "--", by simp [pats, rules, rule], e + 2, ⟨e + 1, ⟨rfl, 45, he.1, rfl⟩, rfl, 45, he.2, rfl⟩⟩
    obtain ⟨m, hm⟩ : ∃ m, rxSearch (pats u .comment) t p false = some m := by
      cases h : rxSearch (pats u .comment) t p false with
      | some m => exact ⟨m, rfl⟩
      | none => exact absurd hend ((C70_none _ _ _).1 h e hp (by omega))
    have hall : ∀ i, p ≤ i → i < m.start → ¬ Starts (pats u .comment) t i := by
      intro i h1 h2
      simp only [rxSearch, Bool.false_eq_true, if_false] at hm
      have h3 := rxScan_some hm
      have := rxMatch_some h3.2.1
      exact (rxMatch_none (by omega)).1 (h3.2.2 i h1 h2)
    obtain ⟨g1, g2, g3, _, g5, _⟩ := rxSearch_some hm
    have hms : rxMatch (pats u .comment) t m.start = some m := by
      rcases g5 with ⟨g5, _⟩ | g5
      · cases g5
      · exact g5
    have hse : m.start ≤ e := by
      by_cases h : m.start ≤ e
      · exact h
      · exact absurd hend (hall e hp (by omega))
    by_cases hsp : m.start = p
    · rw [hsp] at hms
      obtain ⟨a, cs, h1, ⟨_, x, h2, _⟩, _⟩ := match_wins hms
      have hmat := (C70_way a t _ _).1 ⟨x, cs, h2⟩
      rw [hsp] at hmat
      have hspec : ∃ act, (rules u .comment)[m.rest.index]? = some (rule a act) ∧ a.Consumes ∧ Tame u.word t p m.stop ∧ groups act = none ∧ act ≠ .skip := by
        obtain ⟨c1, c2, c3⟩ := Ini.special_consumes (word := u.word)
        match hi : m.rest.index with
        | 0 =>
          rw [hi] at h1
          simp only [pats, rules, rule, List.map_cons, List.getElem?_cons_zero, Option.some.injEq] at h1
          subst h1
          exact absurd (hdash hmat) (hn p (Nat.le_refl _) (by omega))
        | 1 =>
          rw [hi] at h1
          simp only [pats, rules, rule, List.map_cons, List.getElem?_cons_succ, List.getElem?_cons_zero, Option.some.injEq] at h1
          subst h1
          exact absurd (hdash (s := []) hmat) (hn p (Nat.le_refl _) (by omega))
        | 2 =>
          rw [hi] at h1
          simp only [pats, rules, rule, List.map_cons, List.getElem?_cons_succ, List.getElem?_cons_zero, Option.some.injEq] at h1
          subst h1
          exact ⟨_, rfl, c1, email_tame hw hmat, rfl, by decide⟩
        | 3 =>
          rw [hi] at h1
          simp only [pats, rules, rule, List.map_cons, List.getElem?_cons_succ, List.getElem?_cons_zero, Option.some.injEq] at h1
          subst h1
          exact absurd hmat (hurl p (Nat.le_refl _) (by omega) _)
        | 4 =>
          rw [hi] at h1
          simp only [pats, rules, rule, List.map_cons, List.getElem?_cons_succ, List.getElem?_cons_zero, Option.some.injEq] at h1
          subst h1
          refine ⟨_, rfl, c3, tame_of_avoids ?_ hmat, rfl, by decide⟩
          simp [Ini.alertPat, Ini.Avoids, Pat.plus, Pat.str, Pat.chr, Pat.alts, Pat.bound, Ini.str]
        | n + 5 =>
          rw [hi] at h1
          simp [pats, rules, rule] at h1
      obtain ⟨act, hr, hc, ha, hg, hs⟩ := hspec
      have hlt : p < m.stop := hc _ _ _ hmat
      have hle : m.stop ≤ e := by
        by_cases h : m.stop ≤ e
        · exact h
        · obtain ⟨_, y, hy, hy'⟩ := ha e hp (by omega) he.1
          rw [he.2] at hy
          obtain rfl := Option.some.inj hy
          rw [hw] at hy'
          cases hy'
      obtain ⟨st, sp, ⟨idx, caps⟩⟩ := m
      simp only at hsp
      subst hsp
      simp only at *
      have hstep := comment_mark (is := is) (fs := fs) (n := n) (o := o) hms hr hlt (by omega) hg hs
      obtain ⟨is', n', o', h1, h2⟩ := ih sp 0 true _ (by omega) hle (fun i hi1 hi2 => hn i (by omega) hi2) (fun i hi1 hi2 => hurl i (by omega) hi2)
      refine ⟨is', n', o', hstep.trans h1, ?_⟩
      rw [h2, flat_tok, List.append_assoc, slice_append (by omega) hle (by omega)]
    · obtain ⟨hdrop, hsl⟩ := CssL.slice_split (t := t) (p := p) (q := m.start) (by omega) (by omega)
      have hne : slice t p m.start ≠ [] := by
        intro h; rw [h] at hsl; simp at hsl; omega
      have hstep := comment_gap (u := u) (is := is) (fs := fs) (n := n) (o := o) hdrop hne
        (by rw [hsl]; exact hall) (by rw [hsl]; exact hms)
      rw [hsl] at hstep
      obtain ⟨is', n', o', h1, h2⟩ := ih m.start 0 true _ (by omega) hse (fun i hi1 hi2 => hn i (by omega) hi2) (fun i hi1 hi2 => hurl i (by omega) hi2)
      refine ⟨is', n', o', hstep.trans h1, ?_⟩
      rw [h2, flat_tok, List.append_assoc, slice_append (by omega) hse (by omega)]

theorem within_of {s : String} {w post post' : List Nat} {i : Nat} (h : w.drop i ++ post = str s ++ post') (hl : i + (str s).length ≤ w.length) : Within s w := by
  refine ⟨w.take i, w.drop (i + (str s).length), ?_⟩
  have h1 : (w.drop i).take (str s).length = str s := by
    have := congrArg (List.take (str s).length) h
    rw [List.take_append_of_le_length (by simp; omega), List.take_append_of_le_length (Nat.le_refl _), List.take_length] at this
    exact this
  have h2 : w.drop i = str s ++ w.drop (i + (str s).length) := by
    conv => lhs; rw [← List.take_append_drop (str s).length (w.drop i)]
    rw [h1, List.drop_drop]
  rw [List.append_assoc, ← h2, List.take_append_drop]

/-- A comment. -/
theorem go_comment (hu : u.Ascii) {l : XL} (hl : Cont l ci) {w post : List Nat} (h1 : ¬ Within "--" (w ++ str "-")) (h2 : ¬ Within ":/" w) (h3 : ¬ Within "www." w)
    {is : List V} {fs : List Fr} {n : Nat} {o : Bool} :
    Go u ⟨str "<!--" ++ w ++ str "-->" ++ post, (l, is) :: fs, n, o⟩
      ⟨post, (l, is ++ [.tok (str "<!--") .commentStart, .comment (w ++ str "-->")]) :: fs, 0, true⟩ := by
  have hw : u.word 45 = false := by rw [hu.word 45 (by decide)]; decide
  have g1 := s_enter (vs := [.tok (str "<!--") .commentStart]) (is := is) (fs := fs) (n := n) (o := o) (hits_comment (u := u) hl (w ++ str "-->" ++ post)) rfl (by decide)
  have g2 : Go u ⟨w ++ str "-->" ++ post, (.comment, []) :: (l, is ++ [.tok (str "<!--") .commentStart]) :: fs, 1, true⟩
      ⟨post, (l, (is ++ [.tok (str "<!--") .commentStart]) ++ [.comment (w ++ str "-->")]) :: fs, 0, true⟩ := by
    intro t p ht hp
    simp only at ht
    have hget : ∀ i, t[p + i]? = (w ++ str "-->" ++ post)[i]? := fun i => by
      rw [← ht, List.getElem?_drop]
    have hdr : ∀ i, i ≤ w.length → t.drop (p + i) = w.drop i ++ (str "-->" ++ post) := fun i hi => by
      rw [← List.drop_drop, ht, List.append_assoc, List.drop_append_of_le_length hi]
    have hend : t[p + w.length]? = some 45 ∧ t[p + w.length + 1]? = some 45 := by
      refine ⟨?_, ?_⟩
      · rw [hget, List.append_assoc, List.getElem?_append_right (by omega), Nat.sub_self]; rfl
      · rw [Nat.add_assoc, hget, List.append_assoc, List.getElem?_append_right (by omega), Nat.add_sub_cancel_left]; rfl
    have hn : ∀ i, p ≤ i → i < p + w.length → ¬ (t[i]? = some 45 ∧ t[i + 1]? = some 45) := by
      rintro i hi1 hi2 ⟨e1, e2⟩
      refine h1 (within_of (i := i - p) (post := str "->" ++ post) (post' := t.drop (i + 2)) ?_ (by simp [str]; omega))
      have e3 : t.drop i = 45 :: 45 :: t.drop (i + 2) := by
        obtain ⟨l1, l2⟩ := List.getElem?_eq_some_iff.1 e1
        obtain ⟨l3, l4⟩ := List.getElem?_eq_some_iff.1 e2
        rw [List.drop_eq_getElem_cons l1, List.drop_eq_getElem_cons l3, l2, l4]
      have e4 := hdr (i - p) (by omega)
      rw [show p + (i - p) = i by omega, e3] at e4
      rw [List.drop_append_of_le_length (by omega), List.append_assoc]
      exact e4.symm
    have hurl : ∀ i, p ≤ i → i < p + w.length → ∀ q, ¬ (Ini.urlPat u.word).mat t i q := by
      intro i hi1 hi2 q hq
      obtain ⟨r, s, post', a1, a2, a3⟩ := url_start hq
      have hr : r ≤ p + w.length := by
        by_cases h : r ≤ p + w.length
        · exact h
        · exact absurd hend.1 (a2 _ (by omega) (by omega))
      rcases a3 with ⟨a3, a4⟩ | ⟨a3, a4⟩
      · have e4 := hdr (s - p) (by omega)
        rw [show p + (s - p) = s by omega, a4] at e4
        exact h2 (within_of e4.symm (by simp [str]; omega))
      · have e4 := hdr (s - p) (by omega)
        rw [show p + (s - p) = s by omega, a4] at e4
        exact h3 (within_of e4.symm (by simp [str]; omega))
    obtain ⟨is', n', o', k1, k2⟩ := comment_body hw hend (fs := (l, is ++ [.tok (str "<!--") .commentStart]) :: fs) w.length p 1 true []
      (by omega) (by omega) hn hurl
    have hd : t.drop (p + w.length) = str "-->" ++ post := by
      rw [List.append_assoc] at ht; exact drop_add ht
    have k3 : Go u ⟨str "-->" ++ post, (.comment, is') :: (l, is ++ [.tok (str "<!--") .commentStart]) :: fs, n', o'⟩ _ :=
      s_leave (hits_first (l := .comment) (a := .commentEnd) (tg := some ⟨1, []⟩) (by decide) rfl rfl (PC.of (pbest_chr "-->" post))) rfl (by decide)
    obtain ⟨q, k4, k5, k6⟩ := k3 t (p + w.length) hd (by
      have := (List.getElem?_eq_some_iff.1 hend.1).1; omega)
    refine ⟨q, k4, k5, k1.trans ?_⟩
    have hsw : slice t p (p + w.length) = w := by
      rw [List.append_assoc] at ht; exact slice_here ht
    have hmk : mk .comment (is' ++ [V.tok (str "-->") .commentEnd]) = .comment (w ++ str "-->") := by
      simp only [mk, if_true, flat_tok, k2, hsw]
      simp
    rw [← hmk]
    exact k6
  have := g1.trans (by simpa using g2)
  simpa using this

end Parce.Xml

import Verif.Lemmas.CssStep
import Verif.Lemmas.IniBlock
/-!
# White space and comments in CSS texts
-/
namespace Parce.CssL
open Parce.Json (Uni str)
variable {Q K : Type} {u : Uni} {k : Words} {f : Funcs Q K}

/-! ### Comments -/

theorem special_avoids' (hw : u.word 42 = false) :
    Ini.Avoids 42 (Ini.emailPat u.word) ∧ Ini.Avoids 42 (Ini.urlPat u.word) ∧ Ini.Avoids 42 (Ini.alertPat u.word) := by
  refine ⟨?_, ?_, ?_⟩ <;>
    simp [Ini.emailPat, Ini.urlPat, Ini.alertPat, Ini.Avoids, hw, Pat.plus, Pat.opt, Pat.str, Pat.chr, Pat.alts, Pat.bound, Ini.wordOr, Ini.str]

/-- The end of a comment. -/
def EndC (t : List Nat) (e : Nat) : Prop := t[e]? = some 42 ∧ t[e + 1]? = some 47

theorem end_mat {t : List Nat} {p q : Nat} : (chr "*/").mat t p q ↔ q = p + 2 ∧ EndC t p := by
  constructor
  · intro h
    obtain ⟨h1, post, h2⟩ := str_mat _ h
    refine ⟨h1, drop_get h2, ?_⟩
    have : t.drop (p + 1) = [47] ++ post := by rw [← List.drop_drop, h2]; rfl
    exact drop_get this
  · rintro ⟨rfl, h1, h2⟩
    exact ⟨p + 1, ⟨rfl, 42, h1, rfl⟩, rfl, 47, h2, rfl⟩

theorem slice_split {t : List Nat} {p q : Nat} (h1 : p ≤ q) (h2 : q ≤ t.length) : t.drop p = slice t p q ++ t.drop q ∧ p + (slice t p q).length = q := by
  constructor
  · unfold slice
    rw [List.drop_take]
    have : t.drop q = (t.drop p).drop (q - p) := by rw [List.drop_drop]; congr 1; omega
    rw [this, List.take_append_drop]
  · simp only [slice, List.length_drop, List.length_take]
    omega

/-- Text with the default action, up to the next match. -/
theorem i_dflt {l : CL} {p n : Nat} {a : CA} {w post t : List Nat} {m : Mtch RM} {is : List (Itm Q K)} {fs : List (Fr Q K)} {o : Bool}
    (hd : dflt l = .action fun _ => a) (ha : plain a = true) (ht : t.drop p = w ++ post) (hw : w ≠ [])
    (hn : ∀ i, p ≤ i → i < p + w.length → ¬ Starts (pats u k l) t i) (hm : rxMatch (pats u k l) t (p + w.length) = some m) :
    IGoes (lang u k) (method k f) t ⟨p, (l, is) :: fs, n, o⟩ ⟨p + w.length, (l, is ++ [.tok w a]) :: fs, 0, true⟩ := by
  have hl : 0 < w.length := List.length_pos_iff.2 hw
  have hst := (rxMatch_some hm).1
  have hld : (lang u k).ld l = .regex (rxSearch (pats u k l)) (rxMatch (pats u k l)) (ruleOut .none (rules u k l)) (.action fun _ => a) := by
    show compile .none (rules u k l) (dflt l) = _
    rw [compile_cons _ _ _ (rules_ne l), hd]
    rfl
  refine i_tok (lang := lang u k) (tok := ⟨p, w, none, a, none⟩) (ps' := .pend m) ?_ rfl hw rfl (expand_plain ha ..) ?_
  · show parseNext _ ((lang u k).ld l) _ _ = _
    rw [hld]
    simp only [parseNext, search_first (Nat.le_add_right _ _) hn hm, hst]
    rw [if_pos (by omega), slice_here ht]
  · show parseNext _ ((lang u k).ld l) _ _ = parseNext _ ((lang u k).ld l) _ _
    rw [hld]
    simp only [parseNext, search_here hm, hst]
    rw [if_neg (by omega)]

theorem comment_body (hw : u.word 42 = false) {t : List Nat} {e : Nat} (he : EndC t e) {fs : List (Fr Q K)} :
    ∀ (d p n : Nat) (o : Bool) (is : List (Itm Q K)), e - p ≤ d → p ≤ e → (∀ i, p ≤ i → i < e → ¬ EndC t i) →
    ∃ is' n' o', IGoes (lang u k) (method k f) t ⟨p, (.comment, is) :: fs, n, o⟩ ⟨e, (.comment, is') :: fs, n', o'⟩ := by
  intro d
  have hlen : e < t.length := (List.getElem?_eq_some_iff.1 he.1).1
  induction d with
  | zero =>
    intro p n o is hd hp hn
    have : p = e := by omega
    subst this
    exact ⟨is, n, o, .refl _⟩
  | succ d ih =>
    intro p n o is hd hp hn
    by_cases hpe : p = e
    · exact ih p n o is (by omega) hp hn
    have hend : Starts (pats u k .comment) t e := ⟨chr "*/", by simp [pats, rules, rule], e + 2, end_mat.2 ⟨rfl, he⟩⟩
    obtain ⟨m, hm⟩ : ∃ m, rxSearch (pats u k .comment) t p false = some m := by
      cases h : rxSearch (pats u k .comment) t p false with
      | some m => exact ⟨m, rfl⟩
      | none => exact absurd hend ((C70_none _ _ _).1 h e hp (by omega))
    have hall : ∀ i, p ≤ i → i < m.start → ¬ Starts (pats u k .comment) t i := by
      intro i h1 h2
      simp only [rxSearch, Bool.false_eq_true, if_false] at hm
      have h3 := rxScan_some hm
      have := rxMatch_some h3.2.1
      exact (rxMatch_none (by omega)).1 (h3.2.2 i h1 h2)
    obtain ⟨g1, g2, g3, _, g5, _⟩ := rxSearch_some hm
    have hms : rxMatch (pats u k .comment) t m.start = some m := by
      rcases g5 with ⟨g5, _⟩ | g5
      · cases g5
      · exact g5
    have hse : m.start ≤ e := by
      by_cases h : m.start ≤ e
      · exact h
      · exact absurd hend (hall e hp (by omega))
    by_cases hsp : m.start = p
    · rw [hsp] at hms
      obtain ⟨a, cs, h1, ⟨_, x, h2, _⟩, _⟩ := match_wins hms
      have hmat := (C70_way a t _ _).1 ⟨x, cs, h2⟩
      rw [hsp] at hmat
      have h0 : m.rest.index ≠ 0 := by
        intro h0
        rw [h0] at h1
        simp only [pats, rules, rule, List.map_cons, List.getElem?_cons_zero, Option.some.injEq] at h1
        subst h1
        exact hn p (Nat.le_refl _) (by omega) (end_mat.1 hmat).2
      have hspec : ∃ pat act, (rules u k .comment)[m.rest.index]? = some (rule pat act) ∧ pat.Consumes ∧ Ini.Avoids 42 pat ∧ pat = a ∧ plain act = true := by
        obtain ⟨c1, c2, c3⟩ := Ini.special_consumes (word := u.word)
        obtain ⟨a1, a2, a3⟩ := special_avoids' hw
        match hi : m.rest.index with
        | 0 => exact absurd hi h0
        | 1 =>
          rw [hi] at h1
          simp only [pats, rules, rule, List.map_cons, List.getElem?_cons_succ, List.getElem?_cons_zero, Option.some.injEq] at h1
          exact ⟨_, _, rfl, c1, a1, h1, rfl⟩
        | 2 =>
          rw [hi] at h1
          simp only [pats, rules, rule, List.map_cons, List.getElem?_cons_succ, List.getElem?_cons_zero, Option.some.injEq] at h1
          exact ⟨_, _, rfl, c2, a2, h1, rfl⟩
        | 3 =>
          rw [hi] at h1
          simp only [pats, rules, rule, List.map_cons, List.getElem?_cons_succ, List.getElem?_cons_zero, Option.some.injEq] at h1
          exact ⟨_, _, rfl, c3, a3, h1, rfl⟩
        | n + 4 =>
          rw [hi] at h1
          simp [pats, rules, rule] at h1
      obtain ⟨pat, act, hr, hc, ha, rfl, hpl⟩ := hspec
      have hlt : p < m.stop := hc _ _ _ hmat
      have hle : m.stop ≤ e := by
        by_cases h : m.stop ≤ e
        · exact h
        · exact absurd he.1 (Ini.avoids_mat pat ha _ _ hmat e hp (by omega))
      obtain ⟨hdrop, hsl⟩ := slice_split (t := t) (p := p) (q := m.stop) (by omega) (by omega)
      obtain ⟨st, sp, ⟨idx, caps⟩⟩ := m
      simp only at hsp
      subst hsp
      simp only at *
      have hne : slice t st sp ≠ [] := by
        intro h; rw [h] at hsl; simp at hsl; omega
      have hpar := parse_match (noAct := CA.none) (dl := dflt .comment) hms hr
      have hb : (st == sp) = false := by simp; omega
      rw [hb] at hpar
      have hstep := i_tok (lang := lang u k) (l := .comment) (m := method k f) (is := is) (fs := fs) (n := n) (o := o) (a := act)
        (tok := ⟨st, slice t st sp, some ⟨st, sp, ⟨idx, caps⟩⟩, act, none⟩) (ps' := .at sp false) hpar rfl hne rfl (expand_plain hpl ..)
        (by simp only [hsl])
      simp only [hsl] at hstep
      obtain ⟨is', n', o', h1⟩ := ih sp 0 true _ (by omega) hle (fun i hi1 hi2 => hn i (by omega) hi2)
      exact ⟨is', n', o', hstep.trans h1⟩
    · obtain ⟨hdrop, hsl⟩ := slice_split (t := t) (p := p) (q := m.start) (by omega) (by omega)
      have hne : slice t p m.start ≠ [] := by
        intro h; rw [h] at hsl; simp at hsl; omega
      have hstep := i_dflt (u := u) (k := k) (f := f) (l := .comment) (is := is) (fs := fs) (n := n) (o := o) (a := .comment) rfl rfl hdrop hne
        (by rw [hsl]; exact hall) (by rw [hsl]; exact hms)
      rw [hsl] at hstep
      obtain ⟨is', n', o', h1⟩ := ih m.start 0 true _ (by omega) hse (fun i hi1 hi2 => hn i (by omega) hi2)
      exact ⟨is', n', o', hstep.trans h1⟩

/-- Where a comment can be: the number of the rule. -/
def commentAt (l : CL) : Option Nat := match l with
  | .root => some 1
  | .prelude => some 5
  | .selectorList => some 4
  | .rule => some 5
  | .atruleBlock => some 5
  | .declaration => some 5
  | .atrule => some 5
  | .function => some 4
  | _ => none

theorem hits_comment (hu : u.Ascii) {l : CL} {i : Nat} (hl : commentAt l = some i) (post : List Nat) :
    Hits u k l (str "/*") post .comment (some ⟨0, [.comment]⟩) := by
  have h1 : (rules u k l)[i]? = some (rule (chr "/*") .comment (some ⟨0, [.comment]⟩)) := by
    cases l <;> cases hl <;> rfl
  have h2 : onlyAt l i [] 47 = true := by
    cases l <;> cases hl <;> decide +kernel
  exact hits hu (c := 47) (w := [42]) i [] h1 (fun _ => rfl) (by decide) h2 (by simp) (pbest_str [47, 42] post)

/-- A comment. -/
theorem go_comment (hu : u.Ascii) {l : CL} {i : Nat} (hl : commentAt l = some i) {w post : List Nat} (hw : (Blank.comment w).ok)
    {is : List (Itm Q K)} {fs : List (Fr Q K)} {n : Nat} {o : Bool} :
    Go u k f ⟨(Blank.comment w).text ++ post, (l, is) :: fs, n, o⟩ ⟨post, (l, is ++ [.tok (str "/*") .comment]) :: fs, 0, true⟩ := by
  have h1 := s_target (f := f) (is := is) (fs := fs) (n := n) (o := o) (hits_comment (u := u) (k := k) hu hl (w ++ str "*/" ++ post)) (Nat.zero_le _)
  have h42 : u.word 42 = false := by rw [hu.word 42 (by decide)]; decide
  have h2 : Go u k f ⟨w ++ str "*/" ++ post, (.comment, []) :: (l, is ++ [.tok (str "/*") .comment]) :: fs, 1, true⟩
      ⟨post, (l, is ++ [.tok (str "/*") .comment]) :: fs, 0, true⟩ := by
    intro t p ht hp
    simp only at ht
    have hget : ∀ i, t[p + i]? = (w ++ str "*/" ++ post)[i]? := fun i => by
      rw [← ht, List.getElem?_drop]
    have hend : EndC t (p + w.length) := by
      refine ⟨?_, ?_⟩
      · rw [hget, List.append_assoc, List.getElem?_append_right (by omega), Nat.sub_self]; rfl
      · rw [Nat.add_assoc, hget, List.append_assoc, List.getElem?_append_right (by omega), Nat.add_sub_cancel_left]; rfl
    have hn : ∀ i, p ≤ i → i < p + w.length → ¬ EndC t i := by
      intro i h1 h2 h3
      refine hw (i - p) (by omega) ?_
      obtain ⟨h4, h5⟩ := h3
      rw [show i = p + (i - p) by omega, hget, List.getElem?_append_left (by simp; omega)] at h4
      rw [show i + 1 = p + (i - p + 1) by omega, hget, List.getElem?_append_left (by simp [str]; omega)] at h5
      exact ⟨h4, h5⟩
    obtain ⟨is', n', o', h3⟩ := comment_body (u := u) (k := k) (f := f) h42 hend (fs := (l, is ++ [.tok (str "/*") .comment]) :: fs) w.length p 1 true []
      (by omega) (by omega) hn
    have hd : t.drop (p + w.length) = str "*/" ++ post := by
      rw [List.append_assoc] at ht; exact drop_add ht
    have h4 : Go u k f ⟨str "*/" ++ post, (.comment, is') :: (l, is ++ [.tok (str "/*") .comment]) :: fs, n', o'⟩ _ :=
      s_target (tg := ⟨1, []⟩) (hits hu (l := .comment) (c := 42) (w := [47]) (r := rule (chr "*/") .comment (some ⟨1, []⟩)) (a := .comment) 0 [] rfl (fun _ => rfl)
        (by decide) (by decide +kernel) (by simp) (pbest_str [42, 47] post)) (by simp)
    obtain ⟨q, h5, h6, h7⟩ := h4 t (p + w.length) hd (by
      have := (List.getElem?_eq_some_iff.1 hend.1).1; omega)
    refine ⟨q, h5, h6, h3.trans ?_⟩
    simpa [closeN, closeF, done, method] using h7
  have h3 := h1.trans h2
  simpa [Blank.text, List.append_assoc] using h3

/-! ### Blanks -/

/-- The items for blanks: a token for each comment. -/
def Blank.items : Blank → List (Itm Q K)
  | .ws _ => []
  | .comment _ => [.tok (str "/*") .comment]

def bitems (bs : Blanks) : List (Itm Q K) := bs.flatMap Blank.items

/-- Lexicons that skip what does not match. -/
def gapLex (l : CL) : Prop := l = .rule ∨ l = .atruleBlock ∨ l = .atrule ∨ l = .function

/-- Lexicons with a rule for white space: the number of the rule. -/
def spaceAt (l : CL) : Option Nat := match l with
  | .root => some 2
  | .prelude => some 2
  | .selectorList => some 1
  | .declaration => some 13
  | .attributeSelector => some 6
  | _ => none

theorem isWs_lt {c : Nat} (h : IsWs c) : c < 128 := by unfold IsWs at h; omega

theorem isWs_space (hu : u.Ascii) {c : Nat} (h : IsWs c) : u.space c = true := by
  rw [hu.space c (isWs_lt h)]
  unfold IsWs at h
  simp only [Bool.or_eq_true, Bool.and_eq_true, decide_eq_true_eq]
  omega

theorem go_space (hu : u.Ascii) {l : CL} {i : Nat} (hl : spaceAt l = some i) {w post : List Nat} (hw : w ≠ []) (hw' : ∀ c ∈ w, IsWs c)
    (hp : ∀ c, post.head? = some c → u.space c = false) {is : List (Itm Q K)} {fs : List (Fr Q K)} {n : Nat} {o : Bool} :
    Go u k f ⟨w ++ post, (l, is) :: fs, n, o⟩ ⟨post, (l, is) :: fs, n, true⟩ := by
  refine s_skip ?_
  obtain ⟨c, w', rfl⟩ := List.exists_cons_of_ne_nil hw
  have hb : PBest (spacePat u) (c :: w') post := fun t p ht => best_plus ht (by simp) (fun x hx => isWs_space hu (hw' x hx)) hp
  have hc := hw' c (by simp)
  have key : ∀ l i, spaceAt l = some i → onlyAt l i [] c = true := by
    intro l i h
    unfold IsWs at hc
    cases l <;> cases h <;> rcases hc with rfl | rfl | rfl | rfl | rfl <;> decide +kernel
  have := key l i hl
  have h1 : (rules u k l)[i]? = some (rule (spacePat u) .skip) := by
    cases l <;> cases hl <;> rfl
  exact hits hu i [] h1 (fun _ => rfl) (isWs_lt hc) this (by simp) hb

theorem go_gap_ws (hu : u.Ascii) {l : CL} (hl : gapLex l) {c : Nat} {post : List Nat} (hc : IsWs c)
    {is : List (Itm Q K)} {fs : List (Fr Q K)} {n : Nat} {o : Bool} :
    Go u k f ⟨c :: post, (l, is) :: fs, n, o⟩ ⟨post, (l, is) :: fs, n, true⟩ := by
  have hm : noneAt l c = true := by
    unfold IsWs at hc
    rcases hl with rfl | rfl | rfl | rfl <;> rcases hc with rfl | rfl | rfl | rfl | rfl <;> decide +kernel
  refine s_gap (misses hu (isWs_lt hc) hm) ?_
  rcases hl with rfl | rfl | rfl | rfl <;> rfl

/-- Where blanks can be. -/
def blankLex (l : CL) : Prop := (gapLex l ∨ ∃ i, spaceAt l = some i) ∧ ∃ i, commentAt l = some i

/-- What is only in the pending target after blanks. -/
def bfresh (bs : Blanks) (n : Nat) : Nat := if bs.any Blank.isComment then 0 else n

theorem go_blanks (hu : u.Ascii) {l : CL} (hl : blankLex l) (bs : Blanks) (hb : Bok bs) {rest : List Nat}
    (hr : ∀ c, rest.head? = some c → u.space c = false) {is : List (Itm Q K)} {fs : List (Fr Q K)} {n : Nat} {o : Bool} :
    Go u k f ⟨btext bs ++ rest, (l, is) :: fs, n, o⟩ ⟨rest, (l, is ++ bitems bs) :: fs, bfresh bs n, o || !bs.isEmpty⟩ := by
  obtain ⟨hl, i, hi⟩ := hl
  rcases hl with hl | ⟨j, hj⟩
  · induction bs generalizing is n o with
    | nil => simpa [btext, bitems, bfresh] using Go.refl _
    | cons b bs ih =>
      have hb' : Bok bs := fun x hx => hb x (by simp [hx])
      cases b with
      | ws c =>
        have h1 := go_gap_ws (f := f) (k := k) (is := is) (fs := fs) (n := n) (o := o) (post := btext bs ++ rest) hu hl (hb (.ws c) (by simp))
        have := h1.trans (ih hb' (is := is) (n := n) (o := true))
        simpa [btext, bitems, bfresh, Blank.text, Blank.items, Blank.isComment] using this
      | comment w =>
        have h1 := go_comment (f := f) (k := k) (is := is) (fs := fs) (n := n) (o := o) (post := btext bs ++ rest) hu hi (hb (.comment w) (by simp))
        have := h1.trans (ih hb' (is := is ++ [.tok (str "/*") .comment]) (n := 0) (o := true))
        simpa [btext, bitems, bfresh, Blank.items, Blank.isComment] using this
  · suffices h : ∀ (w : List Nat) (is : List (Itm Q K)) (n : Nat) (o : Bool), (∀ c ∈ w, IsWs c) →
        Go u k f ⟨w ++ btext bs ++ rest, (l, is) :: fs, n, o⟩ ⟨rest, (l, is ++ bitems bs) :: fs, bfresh bs n, o || !w.isEmpty || !bs.isEmpty⟩ by
      simpa using h [] is n o (by simp)
    induction bs with
    | nil =>
      intro w is n o hw
      cases w with
      | nil => simpa [btext, bitems, bfresh] using Go.refl _
      | cons c w =>
        have := go_space (f := f) (k := k) (is := is) (fs := fs) (n := n) (o := o) hu hj (w := c :: w) (post := rest) (by simp) hw hr
        simpa [btext, bitems, bfresh] using this
    | cons b bs ih =>
      have hb' : Bok bs := fun x hx => hb x (by simp [hx])
      intro w is n o hw
      cases b with
      | ws c =>
        have := ih hb' (w ++ [c]) is n o (by
          intro x hx
          simp only [List.mem_append, List.mem_singleton] at hx
          rcases hx with hx | rfl
          · exact hw x hx
          · exact hb (.ws x) (by simp))
        have hE : (w ++ [c]).isEmpty = false := by cases w <;> rfl
        simpa [btext, bitems, bfresh, Blank.text, Blank.items, Blank.isComment, hE] using this
      | comment v =>
        have h1 : ∀ o, Go u k f ⟨(Blank.comment v).text ++ (btext bs ++ rest), (l, is) :: fs, n, o⟩ _ := fun o =>
          (go_comment (f := f) (k := k) (is := is) (fs := fs) (n := n) (o := o) (post := btext bs ++ rest) hu hi (hb (.comment v) (by simp))).trans
            (by simpa using ih hb' [] (is ++ [.tok (str "/*") .comment]) 0 true (by simp))
        cases w with
        | nil => simpa [btext, bitems, bfresh, Blank.items, Blank.isComment] using h1 o
        | cons c w =>
          have h2 := go_space (f := f) (k := k) (is := is) (fs := fs) (n := n) (o := o) hu hj (w := c :: w)
            (post := (Blank.comment v).text ++ (btext bs ++ rest)) (by simp) hw (by
              intro c hc
              obtain rfl : 47 = c := Option.some.inj hc
              rw [hu.space 47 (by decide)]; decide)
          have := h2.trans (h1 true)
          simpa [btext, bitems, bfresh, Blank.items, Blank.isComment] using this

end Parce.CssL

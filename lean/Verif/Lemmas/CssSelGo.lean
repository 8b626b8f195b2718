import Verif.Lemmas.CssSels
/-!
# The lexer in lists of selectors
-/
namespace Parce.CssL
open Parce.Json (Uni str)
variable {Q K : Type} {u : Uni} {k : Words} {f : Funcs Q K}

/-- The characters that can be after a selector. -/
def afterChars : List Nat := [9, 10, 12, 13, 32, 47, 62, 43, 126, 44, 123, 41]

def After (rest : List Nat) : Prop := ∃ c r, rest = c :: r ∧ c ∈ afterChars

theorem After.cut (hu : u.Ascii) {rest : List Nat} (h : After rest) : Cut u rest := by
  obtain ⟨c, r, rfl, h⟩ := h
  have : ∀ c ∈ afterChars, c < 128 ∧
      ((48 ≤ c && c ≤ 57) || (65 ≤ c && c ≤ 90) || c == 95 || (97 ≤ c && c ≤ 122) || c == 45 || c == 92 || c == 40) = false := by decide
  exact cut_ascii hu (this c h).1 (this c h).2

theorem After.misses (hu : u.Ascii) {rest : List Nat} (h : After rest) : Misses u k .selector rest := by
  obtain ⟨c, r, rfl, h⟩ := h
  have : ∀ c ∈ afterChars, c < 128 ∧ noneAt .selector c = true := by decide +kernel
  exact CssL.misses hu (this c h).1 (this c h).2

theorem After.ne {rest : List Nat} (h : After rest) : rest ≠ [] := by
  obtain ⟨c, r, rfl, h⟩ := h
  simp

theorem After.blanks {g : Blanks} (hg : Bok g) (h : g ≠ []) (rest : List Nat) : After (btext g ++ rest) := by
  cases g with
  | nil => exact absurd rfl h
  | cons b g =>
    cases b with
    | ws c =>
      refine ⟨c, btext g ++ rest, rfl, ?_⟩
      have : IsWs c := hg (.ws c) (by simp)
      unfold IsWs at this
      rcases this with rfl | rfl | rfl | rfl | rfl <;> decide
    | comment w => exact ⟨47, 42 :: (w ++ str "*/" ++ (btext g ++ rest)), by simp [btext, Blank.text, str], by decide⟩

theorem After.blanks' {g : Blanks} (hg : Bok g) {rest : List Nat} (h : After rest) : After (btext g ++ rest) := by
  by_cases h' : g = []
  · subst h'; exact h
  · exact After.blanks hg h' rest

/-- The characters that start a selector. -/
def selHead (c : Nat) : Bool := startChar c || [42, 35, 46, 58, 91].contains c

theorem Simple.head (s : Simple) (post : List Nat) : ∃ c r, s.text ++ post = c :: r ∧ c ∈ [35, 46, 58, 91] := by
  cases s with
  | id w => exact ⟨35, w ++ post, by simp [Simple.text, str], by decide⟩
  | cls w => exact ⟨46, w ++ post, by simp [Simple.text, str], by decide⟩
  | pelem w => exact ⟨58, 58 :: (w ++ post), by simp [Simple.text, str], by decide⟩
  | pcls w => exact ⟨58, w ++ post, by simp [Simple.text, str], by decide⟩
  | pfun w s => exact ⟨58, w ++ str "(" ++ s.text ++ str ")" ++ post, by simp [Simple.text, str], by decide⟩
  | attr w g => exact ⟨91, w ++ g ++ str "]" ++ post, by simp [Simple.text, str], by decide⟩
  | attrVal w g op g' v g'' => exact ⟨91, w ++ g ++ op ++ g' ++ v ++ g'' ++ str "]" ++ post, by simp [Simple.text, str], by decide⟩

theorem Simples.cut (hu : u.Ascii) (ss : Simples) {post : List Nat} (h : Cut u post) : Cut u (ss.text ++ post) := by
  cases ss with
  | nil => exact h
  | cons s ss =>
    obtain ⟨c, r, h1, h2⟩ := s.head (ss.text ++ post)
    have : ∀ c ∈ [35, 46, 58, 91], c < 128 ∧
      ((48 ≤ c && c ≤ 57) || (65 ≤ c && c ≤ 90) || c == 95 || (97 ≤ c && c ≤ 122) || c == 45 || c == 92 || c == 40) = false := by decide
    rw [Simples.text, List.append_assoc, h1]
    exact cut_ascii hu (this c h2).1 (this c h2).2

theorem compound_head {e : Option Elem} {s : Simples} (he : Elem.ok u e) (hn : e ≠ none ∨ s ≠ .nil) (post : List Nat) :
    ∃ c r, Elem.text e ++ s.text ++ post = c :: r ∧ c < 128 ∧ selHead c = true := by
  match e, he with
  | none, _ =>
    cases s with
    | nil => simp at hn
    | cons s ss =>
      obtain ⟨c, r, h1, h2⟩ := s.head (ss.text ++ post)
      refine ⟨c, r, by simpa [Elem.text, Simples.text] using h1, ?_⟩
      have : ∀ c ∈ [35, 46, 58, 91], c < 128 ∧ selHead c = true := by decide
      exact this c h2
  | some .any, _ => exact ⟨42, s.text ++ post, rfl, by decide, by decide⟩
  | some (.name w), he =>
    obtain ⟨c, r, rfl, h1, h2⟩ := Ident.first he
    exact ⟨c, r ++ s.text ++ post, by simp [Elem.text], h1, by simp [selHead, h2]⟩

/-- Lexicons with lists of selectors; the number of the rule for white space. -/
def listOff (l : CL) : Option Nat := match l with
  | .prelude => some 2
  | .selectorList => some 1
  | _ => none

theorem listOff_blank {l : CL} {i : Nat} (h : listOff l = some i) : blankLex l := by
  cases l <;> cases h
  · exact ⟨Or.inr ⟨2, rfl⟩, 5, rfl⟩
  · exact ⟨Or.inr ⟨1, rfl⟩, 4, rfl⟩

theorem sel_space (hu : u.Ascii) {c : Nat} {r : List Nat} (hc : c < 128) (h : selHead c = true) : ∀ d, (c :: r).head? = some d → u.space d = false := by
  have : ∀ c < 128, selHead c = true → ((9 ≤ c && c ≤ 13) || (28 ≤ c && c ≤ 32)) = false := by decide
  exact not_space hu hc (this c hc h)

theorem sel_go (hu : u.Ascii) {l : CL} {i : Nat} (hl : listOff l = some i) {e : Option Elem} {s : Simples} (he : Elem.ok u e)
    (hn : e ≠ none ∨ s ≠ .nil) {post : List Nat} (hp : After post)
    (hs : ∀ {is : List (Itm Q K)} {fs : List (Fr Q K)} {n : Nat} {o : Bool}, ∃ n' o', n' ≤ n ∧ (s ≠ .nil → n' = 0) ∧
      Go u k f ⟨s.text ++ post, (.selector, is) :: fs, n, o⟩ ⟨post, (.selector, is ++ s.items) :: fs, n', o'⟩)
    {is : List (Itm Q K)} {fs : List (Fr Q K)} {n : Nat} :
    Go u k f ⟨Elem.text e ++ s.text ++ post, (l, is) :: fs, n, true⟩ ⟨post, (l, is ++ [selItem e s]) :: fs, 0, false⟩ := by
  obtain ⟨c, r, h1, h2, h3⟩ := compound_head he hn post
  have hm : Misses u k l (Elem.text e ++ s.text ++ post) := by
    have key : ∀ l i, listOff l = some i → ∀ c < 128, selHead c = true → noneAt l c = true := by
      intro l i h
      cases l <;> cases h <;> decide +kernel
    rw [h1]
    exact misses hu h2 (key l i hl c h2 h3)
  have hd : dflt l = .target ⟨0, [.selector]⟩ := by cases l <;> cases hl <;> rfl
  have s1 := s_push (f := f) (is := is) (fs := fs) (n := n) hm (by rw [h1]; simp) hd
  obtain ⟨n1, o1, a1, a2, s2⟩ := Elem.go (k := k) (f := f) (is := []) (fs := (l, is) :: fs) (n := n + 1) (o := true) hu e he (Simples.cut hu s (hp.cut hu))
  obtain ⟨n2, o2, b1, b2, s3⟩ := hs (is := [] ++ Elem.items e) (fs := (l, is) :: fs) (n := n1) (o := o1)
  have hz : n2 = 0 := by
    rcases hn with h | h
    · have := a2 h; omega
    · exact b2 h
  subst hz
  rw [List.append_assoc] at s1 ⊢
  have s4 := ((s1.trans s2).trans s3).trans (s_pop (hp.misses hu) hp.ne)
  rw [List.nil_append, done_ok _ (by decide) (by rw [failed_append, Elem.not_failed, Simples.not_failed]; rfl)] at s4
  have hm' : methOf k f .selector (Elem.items e ++ s.items) = .sel (grouped (Elem.pairs e ++ s.pairs)) := selector_eq e s
  rw [hm'] at s4
  exact s4

theorem Comb.after {c : Comb} (h : c.ok false) (rest : List Nat) : After (c.text ++ rest) := by
  cases c with
  | desc g =>
    simp only [Comb.ok] at h
    obtain ⟨c, hc⟩ := h.2
    exact After.blanks h.1 (by rintro rfl; simp at hc) rest
  | op g o g' =>
    simp only [Comb.ok] at h
    obtain ⟨h1, h2, h3⟩ := h
    simp only [Comb.text, List.append_assoc]
    by_cases hg : g = []
    · subst hg
      rcases h3 with rfl | rfl | rfl | ⟨rfl, h | h⟩
      · exact ⟨62, btext g' ++ rest, rfl, by decide⟩
      · exact ⟨43, btext g' ++ rest, rfl, by decide⟩
      · exact ⟨126, btext g' ++ rest, rfl, by decide⟩
      · cases h
      · exact absurd rfl h
    · exact After.blanks h1 hg _

theorem Steps.after : ∀ (s : Steps) (_ : s.ok u false) {rest : List Nat} (_ : After rest), After (s.text ++ rest)
  | .nil, _, _, h => h
  | .cons c e s r, ho, rest, h => by
    simp only [Steps.ok] at ho
    simp only [Steps.text, List.append_assoc]
    exact Comb.after ho.1 _

theorem hits_op (hu : u.Ascii) {l : CL} {i : Nat} (hl : listOff l = some i) {o post : List Nat}
    (ho : o = str ">" ∨ o = str "+" ∨ o = str "~" ∨ o = str "||") : Hits u k l o post .operator none := by
  have h1 : (rules u k l)[i + 1]? = some (rule (.alt (.set fun c => (str ">+~").contains c) (chr "||")) .operator) := by
    cases l <;> cases hl <;> rfl
  have h2 : ∀ c ∈ [62, 43, 126, 124], onlyAt l (i + 1) [] c = true := by
    cases l <;> cases hl <;> decide +kernel
  rcases ho with rfl | rfl | rfl | rfl
  · exact hits hu (c := 62) (w := []) (i + 1) [] h1 (fun _ => rfl) (by decide) (h2 _ (by decide)) (by simp) (PBest.alt (pbest_set rfl))
  · exact hits hu (c := 43) (w := []) (i + 1) [] h1 (fun _ => rfl) (by decide) (h2 _ (by decide)) (by simp) (PBest.alt (pbest_set rfl))
  · exact hits hu (c := 126) (w := []) (i + 1) [] h1 (fun _ => rfl) (by decide) (h2 _ (by decide)) (by simp) (PBest.alt (pbest_set rfl))
  · refine hits hu (c := 124) (w := [124]) (i + 1) [] h1 (fun _ => rfl) (by decide) (h2 _ (by decide)) (by simp) (PBest.alt' (pfail_set ?_) (pbest_str [124, 124] _))
    intro c hc
    obtain rfl : 124 = c := Option.some.inj hc
    rfl

theorem hits_comma (hu : u.Ascii) {l : CL} {i : Nat} (hl : listOff l = some i) (post : List Nat) : Hits u k l [44] post .delimiter none := by
  have h1 : (rules u k l)[i + 2]? = some (rule (chr ",") .delimiter) := by
    cases l <;> cases hl <;> rfl
  have h2 : onlyAt l (i + 2) [] 44 = true := by
    cases l <;> cases hl <;> decide +kernel
  exact hits hu (c := 44) (w := []) (i + 2) [] h1 (fun _ => rfl) (by decide) h2 (by simp) (pbest_str [44] _)

/-- A combinator. -/
theorem comb_go (hu : u.Ascii) {l : CL} {i : Nat} (hl : listOff l = some i) {c : Comb} (hc : c.ok false) {post : List Nat}
    (hp : ∀ c, post.head? = some c → u.space c = false) {is : List (Itm Q K)} {fs : List (Fr Q K)} {o : Bool} :
    Go u k f ⟨c.text ++ post, (l, is) :: fs, 0, o⟩ ⟨post, (l, is ++ c.items) :: fs, 0, true⟩ := by
  have hb0 : ∀ g, bfresh g 0 = 0 := fun g => by unfold bfresh; split <;> rfl
  cases c with
  | desc g =>
    simp only [Comb.ok] at hc
    obtain ⟨c, hm⟩ := hc.2
    have s1 := go_blanks (k := k) (f := f) (is := is) (fs := fs) (n := 0) (o := o) hu (listOff_blank hl) g hc.1 hp
    have hE : g.isEmpty = false := by cases g with
      | nil => simp at hm
      | cons => rfl
    rw [hb0, hE] at s1
    simpa [Comb.text, Comb.items] using s1
  | op g w g' =>
    simp only [Comb.ok] at hc
    obtain ⟨h1, h2, h3⟩ := hc
    have ho : w = str ">" ∨ w = str "+" ∨ w = str "~" ∨ w = str "||" := by
      rcases h3 with h | h | h | h
      · exact Or.inl h
      · exact Or.inr (Or.inl h)
      · exact Or.inr (Or.inr (Or.inl h))
      · exact Or.inr (Or.inr (Or.inr h.1))
    have hs : ∀ c, (w ++ (btext g' ++ post)).head? = some c → u.space c = false := by
      rcases ho with rfl | rfl | rfl | rfl
      · exact not_space hu (c := 62) (by decide) (by decide)
      · exact not_space hu (c := 43) (by decide) (by decide)
      · exact not_space hu (c := 126) (by decide) (by decide)
      · exact not_space hu (c := 124) (by decide) (by decide)
    have s1 := go_blanks (k := k) (f := f) (is := is) (fs := fs) (n := 0) (o := o) hu (listOff_blank hl) g h1 hs
    have s2 := s1.trans (s_tok (hits_op hu hl ho))
    have s3 := s2.trans (go_blanks hu (listOff_blank hl) g' h2 hp)
    rw [hb0] at s3
    simpa [Comb.text, Comb.items] using s3

theorem list_close {c : Nat} (h : c = 123 ∨ c = 41) (r : List Nat) : After (c :: r) := by
  refine ⟨c, r, rfl, ?_⟩
  rcases h with rfl | rfl <;> decide

mutual
theorem Simple.go (hu : u.Ascii) : ∀ (s : Simple) (_ : s.ok u false) {post : List Nat} (_ : Cut u post)
    {is : List (Itm Q K)} {fs : List (Fr Q K)} {n : Nat} {o : Bool},
    ∃ o', Go u k f ⟨s.text ++ post, (.selector, is) :: fs, n, o⟩ ⟨post, (.selector, is ++ s.items) :: fs, 0, o'⟩
  | .id w, ho, post, hp, is, fs, n, o => ⟨false, by
      have := go_id (k := k) (f := f) (is := is) (fs := fs) (n := n) (o := o) hu (by simpa only [Simple.ok] using ho) hp
      simpa [Simple.text, Simple.items, Simple.mark, Simple.pair] using this⟩
  | .cls w, ho, post, hp, is, fs, n, o => ⟨false, by
      have := go_cls (k := k) (f := f) (is := is) (fs := fs) (n := n) (o := o) hu (by simpa only [Simple.ok] using ho) hp
      simpa [Simple.text, Simple.items, Simple.mark, Simple.pair] using this⟩
  | .pelem w, ho, post, hp, is, fs, n, o => ⟨false, by
      have := go_pelem (k := k) (f := f) (is := is) (fs := fs) (n := n) (o := o) hu (by simpa only [Simple.ok] using ho) hp
      simpa [Simple.text, Simple.items, Simple.mark, Simple.pair] using this⟩
  | .pcls w, ho, post, hp, is, fs, n, o => ⟨false, by
      have := go_pcls (k := k) (f := f) (is := is) (fs := fs) (n := n) (o := o) hu (by simpa only [Simple.ok] using ho) hp
      simpa [Simple.text, Simple.items, Simple.mark, Simple.pair] using this⟩
  | .pfun w s, ho, post, hp, is, fs, n, o => ⟨true, by
      simp only [Simple.ok] at ho
      have hv := s.prelude_eq (Q := Q) (K := K) (is := []) ho.2 (fun _ _ => rfl)
      rw [List.append_nil] at hv
      have := go_pfun (k := k) (f := f) (is := is) (fs := fs) (n := n) (o := o) hu (w := w) (s := s.text) (rest := post) (js := s.items) (vs := s.values) ho.1 s.not_failed hv (by
        intro fs
        obtain ⟨o', h⟩ := Sels.go hu s ho.2 (l := .selectorList) (i := 1) rfl (c := 41) (Or.inr rfl) (r := post) (is := []) (fs := fs) (n := 1)
        exact ⟨0, o', h⟩)
      simpa [Simple.text, Simple.items, Simple.mark, Simple.pair] using this⟩
  | .attr w g, ho, post, hp, is, fs, n, o => ⟨true, by
      simp only [Simple.ok] at ho
      have := go_attr (k := k) (f := f) (is := is) (fs := fs) (n := n) (o := o) (post := post) hu ho.1 ho.2
      simpa [Simple.text, Simple.items, Simple.mark, Simple.pair] using this⟩
  | .attrVal w g op g' v g'', ho, post, hp, is, fs, n, o => ⟨true, by
      simp only [Simple.ok] at ho
      obtain ⟨h1, h2, h3, h4, h5, h6⟩ := ho
      have := go_attrVal (k := k) (f := f) (is := is) (fs := fs) (n := n) (o := o) (post := post) hu h1 h2 h3 h4 h5 h6
      simpa [Simple.text, Simple.items, Simple.mark, Simple.pair] using this⟩

theorem Simples.go (hu : u.Ascii) : ∀ (ss : Simples) (_ : ss.ok u false) {post : List Nat} (_ : Cut u post)
    {is : List (Itm Q K)} {fs : List (Fr Q K)} {n : Nat} {o : Bool},
    ∃ n' o', n' ≤ n ∧ (ss ≠ .nil → n' = 0) ∧ Go u k f ⟨ss.text ++ post, (.selector, is) :: fs, n, o⟩ ⟨post, (.selector, is ++ ss.items) :: fs, n', o'⟩
  | .nil, _, post, _, is, fs, n, o => ⟨n, o, Nat.le_refl _, fun h => absurd rfl h, by simpa [Simples.text, Simples.items] using Go.refl _⟩
  | .cons s ss, ho, post, hp, is, fs, n, o => by
    simp only [Simples.ok] at ho
    obtain ⟨o1, s1⟩ := Simple.go hu s ho.1 (Simples.cut hu ss hp) (is := is) (fs := fs) (n := n) (o := o)
    obtain ⟨n2, o2, h1, _, s2⟩ := Simples.go hu ss ho.2 hp (is := is ++ s.items) (fs := fs) (n := 0) (o := o1)
    have : n2 = 0 := by omega
    subst this
    refine ⟨0, o2, Nat.zero_le _, fun _ => rfl, ?_⟩
    simpa [Simples.text, Simples.items] using s1.trans s2

theorem Steps.go (hu : u.Ascii) : ∀ (st : Steps) (_ : st.ok u false) {l : CL} {i : Nat} (_ : listOff l = some i) {post : List Nat} (_ : After post)
    {is : List (Itm Q K)} {fs : List (Fr Q K)} {o : Bool},
    ∃ o', Go u k f ⟨st.text ++ post, (l, is) :: fs, 0, o⟩ ⟨post, (l, is ++ st.items) :: fs, 0, o'⟩
  | .nil, _, l, i, _, post, _, is, fs, o => ⟨o, by simpa [Steps.text, Steps.items] using Go.refl _⟩
  | .cons c e s st, ho, l, i, hl, post, hp, is, fs, o => by
    simp only [Steps.ok] at ho
    obtain ⟨h1, h2, h3, h4, h5⟩ := ho
    have hp' := Steps.after st h5 hp
    obtain ⟨d, r, e1, e2, e3⟩ := compound_head h2 h3 (st.text ++ post)
    have s1 := comb_go (k := k) (f := f) (is := is) (fs := fs) (o := o) hu hl h1 (post := Elem.text e ++ s.text ++ (st.text ++ post)) (by rw [e1]; exact sel_space hu e2 e3)
    have s2 := s1.trans (sel_go hu hl h2 h3 hp' (Simples.go hu s h4 (hp'.cut hu)))
    obtain ⟨o3, s3⟩ := Steps.go hu st h5 hl hp (is := is ++ c.items ++ [selItem e s]) (fs := fs) (o := false)
    refine ⟨o3, ?_⟩
    have := s2.trans s3
    simpa [Steps.text, Steps.items] using this

theorem Sels.go (hu : u.Ascii) : ∀ (ss : Sels) (_ : ss.ok u false) {l : CL} {i : Nat} (_ : listOff l = some i) {c : Nat} (_ : c = 123 ∨ c = 41)
    {r : List Nat} {is : List (Itm Q K)} {fs : List (Fr Q K)} {n : Nat},
    ∃ o', Go u k f ⟨ss.text ++ c :: r, (l, is) :: fs, n, true⟩ ⟨c :: r, (l, is ++ ss.items) :: fs, 0, o'⟩
  | .one g e s st g', ho, l, i, hl, c, hc, r, is, fs, n => by
    simp only [Sels.ok] at ho
    obtain ⟨h1, h2, h3, h4, h5, h6⟩ := ho
    have hp0 : After (btext g' ++ c :: r) := After.blanks' h6 (list_close hc r)
    have hp := Steps.after st h5 hp0
    obtain ⟨d, r', e1, e2, e3⟩ := compound_head h2 h3 (st.text ++ (btext g' ++ c :: r))
    have s1 := go_blanks (k := k) (f := f) (is := is) (fs := fs) (n := n) (o := true) hu (listOff_blank hl) g h1
      (rest := Elem.text e ++ s.text ++ (st.text ++ (btext g' ++ c :: r))) (by rw [e1]; exact sel_space hu e2 e3)
    have s2 := s1.trans (sel_go hu hl h2 h3 hp (Simples.go hu s h4 (hp.cut hu)))
    obtain ⟨o3, s3⟩ := Steps.go hu st h5 hl hp0 (is := is ++ bitems g ++ [selItem e s]) (fs := fs) (o := false)
    have s4 := (s2.trans s3).trans (go_blanks hu (listOff_blank hl) g' h6 (by
      rcases hc with rfl | rfl
      · exact not_space hu (c := 123) (by decide) (by decide)
      · exact not_space hu (c := 41) (by decide) (by decide)))
    have hb0 : bfresh g' 0 = 0 := by unfold bfresh; split <;> rfl
    rw [hb0] at s4
    exact ⟨_, by simpa [Sels.text, Sels.items] using s4⟩
  | .more g e s st g' ss, ho, l, i, hl, c, hc, r, is, fs, n => by
    simp only [Sels.ok] at ho
    obtain ⟨h1, h2, h3, h4, h5, h6, h7⟩ := ho
    have hp0 : After (btext g' ++ 44 :: (ss.text ++ c :: r)) := After.blanks' h6 ⟨44, _, rfl, by decide⟩
    have hp := Steps.after st h5 hp0
    obtain ⟨d, r', e1, e2, e3⟩ := compound_head h2 h3 (st.text ++ (btext g' ++ 44 :: (ss.text ++ c :: r)))
    have s1 := go_blanks (k := k) (f := f) (is := is) (fs := fs) (n := n) (o := true) hu (listOff_blank hl) g h1
      (rest := Elem.text e ++ s.text ++ (st.text ++ (btext g' ++ 44 :: (ss.text ++ c :: r)))) (by rw [e1]; exact sel_space hu e2 e3)
    have s2 := s1.trans (sel_go hu hl h2 h3 hp (Simples.go hu s h4 (hp.cut hu)))
    obtain ⟨o3, s3⟩ := Steps.go hu st h5 hl hp0 (is := is ++ bitems g ++ [selItem e s]) (fs := fs) (o := false)
    have s4 := (s2.trans s3).trans (go_blanks hu (listOff_blank hl) g' h6 (not_space hu (c := 44) (by decide) (by decide)))
    have s5 := s4.trans (s_tok (w := [44]) (hits_comma hu hl (ss.text ++ c :: r)))
    obtain ⟨o6, s6⟩ := Sels.go hu ss h7 hl hc (r := r) (is := is ++ bitems g ++ [selItem e s] ++ st.items ++ bitems g' ++ [.tok [44] .delimiter]) (fs := fs) (n := 0)
    refine ⟨o6, ?_⟩
    have := s5.trans s6
    simpa [Sels.text, Sels.items, str] using this
end

end Parce.CssL

import Verif.Lemmas.TomlTree
/-!
# TOML documents
-/
namespace Parce.Toml
open Parce.Json (Uni str)
open Parce.CssL (PBest PFail)
open Parce.Xml (PC shift rel_shift)
variable {u : Uni} {t : List Nat}

theorem root_only : ∀ c < 128, c = 34 ∨ c = 39 ∨ isKey c = true → onlyAt .root 6 [] c = true := by decide +kernel

theorem hits_assign (hu : u.Ascii) (post : List Nat) : Hits u t .key [61] post .assign (some ⟨1, [.value]⟩) [] :=
  hits hu 1 [] (c := 61) (r := rule (chr "=") .assign (some ⟨1, [.value]⟩)) rfl rfl (by decide) (by decide +kernel) (by simp) (PC.of (Xml.pbest_chr "=" _))

theorem go_eol (hu : u.Ascii) {post : List Nat} {l0 : TL} {is is0 : List V} {fs : List Fr} {o : Bool} :
    Go u t ⟨10 :: post, (.value, is) :: (l0, is0) :: fs, 0, o⟩ ⟨10 :: post, (l0, is0 ++ [mk .value is]) :: fs, 0, false⟩ := by
  refine s_pop (i := 1) (r := rule Ini.dollar .none (some ⟨1, []⟩)) (a := .none) ?_ rfl rfl
  intro p ht hp
  have hg : t[p]? = some 10 := drop_get ht
  have hb : Best t Ini.dollar p p := best_test (by simp [hg])
  have := match_rule (g := []) (rs := rules u .value) (i := 1) (r := rule Ini.dollar .none (some ⟨1, []⟩)) rfl (leads_fail' [] ?_ (by simp)) hb hp
  · exact this
  · rw [hg, leads_ascii hu (by decide)]
    decide +kernel

theorem pair_go (hu : u.Ascii) {k : Key} {b a r : List Nat} {v : Val} (hk : k.ok false) (hb : Blank b) (ha : Blank a) (hv : v.ok false) (hr : Blank r) {e0 : Nat} (he0 : e0 = 10 ∨ e0 = 35) {post : List Nat}
    (hs : (k.text ++ (b ++ 61 :: (a ++ (v.text ++ (r ++ e0 :: post))))) <:+ t) (is : List V) (fs : List Fr) :
    ∃ o, Go u t ⟨k.text ++ (b ++ 61 :: (a ++ (v.text ++ (r ++ e0 :: post)))), (.root, is) :: fs, 0, true⟩
      ⟨e0 :: post, (.value, v.view) :: (.root, is ++ [mk .key (k.view .variable ++ [.tok [61] .assign])]) :: fs, 0, o⟩ := by
  obtain ⟨x, q, e, hx⟩ := key_head hk
  obtain ⟨hx1, hx2⟩ := head_lt hx
  have g1 : Go u t ⟨k.text ++ (b ++ 61 :: (a ++ (v.text ++ (r ++ e0 :: post)))), (.root, is) :: fs, 0, true⟩
      ⟨k.text ++ (b ++ 61 :: (a ++ (v.text ++ (r ++ e0 :: post)))), (.key, []) :: (.root, is) :: fs, 0 + 1, true⟩ := by
    rw [e]
    exact s_push rfl (misses hu [] hx1 (root_only x hx1 hx2) (by simp))
  have hkl : KL .key .variable 2 := .inl ⟨rfl, rfl, rfl⟩
  have hstop : Stop (b ++ 61 :: (a ++ (v.text ++ (r ++ e0 :: post)))) := by
    by_cases h : b = []
    · subst h
      exact ⟨61, _, rfl, by decide⟩
    · exact blank_stop hb h
  have g2 := key_go (t := t) (is := []) (fs := (.root, is) :: fs) (n := 0 + 1) (o := true) hu hkl hstop hk
  have g3 := go_blank (t := t) (is := [] ++ k.view .variable) (fs := (.root, is) :: fs) (n := 0) (post := 61 :: (a ++ (v.text ++ (r ++ e0 :: post)))) hu hkl hb (by
    intro y hy
    obtain rfl : 61 = y := Option.some.inj hy
    decide)
  have g4 := s_switch (is := [] ++ k.view .variable) (l0 := .root) (is0 := is) (fs := fs) (n := 0) (o := true) (vs := [.tok [61] .assign])
    (hits_assign (t := t) hu (a ++ (v.text ++ (r ++ e0 :: post)))) rfl (by simp)
  have hgap : ∀ {w : List Nat}, Blank w → ∀ c ∈ w, c = 32 ∨ c = 9 ∨ (c = 10 ∧ TL.value = .array) := fun h c hc => by
    rcases h c hc with h | h
    · exact .inl h
    · exact .inr (.inl h)
  have hws : ∀ {w : List Nat}, Blank w → Ws w := fun h c hc => by
    have := h c hc
    omega
  obtain ⟨o5, g5⟩ := go_gap (t := t) hu (.inl rfl) (hgap ha) (v.text ++ (r ++ e0 :: post)) [] ((.root, is ++ [mk .key ([] ++ k.view .variable ++ [.tok [61] .assign])]) :: fs) 1 true
  have hf : Free u t (a ++ (v.text ++ (r ++ e0 :: post))) := by
    refine ⟨61, List.IsSuffix.trans ?_ hs, word_low hu 61 (by simp)⟩
    rw [← List.append_assoc k.text]
    exact List.suffix_append _ _
  obtain ⟨r', hr', g6⟩ := val_go hu v hv (.inl rfl) (hws hr) ⟨e0, post, rfl, by omega⟩ (free_ws hu hf (hws ha)) []
    ((.root, is ++ [mk .key ([] ++ k.view .variable ++ [.tok [61] .assign])]) :: fs) 1 o5
  obtain ⟨o7, g7⟩ := go_gap (t := t) hu (.inl rfl) (hgap (w := r') (fun c hc => hr c (hr'.subset hc))) (e0 :: post) ([] ++ v.view)
    ((.root, is ++ [mk .key ([] ++ k.view .variable ++ [.tok [61] .assign])]) :: fs) 0 true
  exact ⟨o7, by simpa [mk] using (((((g1.trans g2).trans g3).trans g4).trans g5).trans g6).trans g7⟩

/-! ### Headers -/

/-- The lexicons for headers, their brackets, and where the rule that enters them is. -/
def HL (d : Bool) : TL := if d then .arrayTable else .table

def opens (d : Bool) : String := if d then "[[" else "["

def closes (d : Bool) : String := if d then "]]" else "]"

theorem pc_open (s : String) {a post : List Nat} (ha : Blank a) {x : Nat} (hx : x ≠ 32 ∧ x ≠ 9 ∧ x ≠ 46) :
    PC (openPat s) (str s) (a ++ x :: post) [(1, 0, (str s).length)] := by
  have hf : PFail (.cat blanks (.grp 2 (chr "."))) (a ++ x :: post) := by
    refine Xml.pfail_run (.inl rfl) ?_ ?_
    · intro c hc
      obtain rfl : x = c := Option.some.inj hc
      exact not_blank hx.1 hx.2.1
    · intro i _
      obtain ⟨d, r, h3, h4⟩ := drop_stop (v := a) (c := x) (post := post) (P := (· ≠ 46)) (fun y hy => by rcases ha y hy with rfl | rfl <;> decide) hx.2.2 i
      rw [h3]
      exact Xml.pfail_grp (CssL.pfail_chr (c := 46) (w := []) (by simpa using h4))
  have := (PC.grp 1 (Xml.pbest_chr s ([] ++ (a ++ x :: post)))).cat (PC.of (CssL.pbest_none hf))
  exact this.eq (List.append_nil _) rfl

theorem hits_header (hu : u.Ascii) (d : Bool) {a post : List Nat} (ha : Blank a) {x : Nat} (hx : x ≠ 32 ∧ x ≠ 9 ∧ x ≠ 46 ∧ x ≠ 91) :
    Hits u t .root (str (opens d)) (a ++ x :: post) .openGroups (some ⟨0, [HL d]⟩) [(1, 0, (str (opens d)).length)] := by
  cases d with
  | true =>
    exact hits hu 1 [] (c := 91) (w := [91]) (r := rule (openPat "[[") .openGroups (some ⟨0, [.arrayTable]⟩)) rfl rfl (by decide) (by decide +kernel) (by simp)
      (pc_open "[[" ha ⟨hx.1, hx.2.1, hx.2.2.1⟩)
  | false =>
    refine hits hu 2 [1] (c := 91) (w := []) (r := rule (openPat "[") .openGroups (some ⟨0, [.table]⟩)) rfl rfl (by decide) (by decide +kernel) ?_
      (pc_open "[" ha ⟨hx.1, hx.2.1, hx.2.2.1⟩)
    intro j hj r hr
    obtain rfl : j = 1 := by simpa using hj
    obtain rfl := Option.some.inj hr
    refine CssL.pfail_cat (Xml.pfail_grp (CssL.pfail_str (fun q he => ?_)))
    obtain ⟨y, r, h3, h4⟩ := drop_stop (v := a) (c := x) (post := post) (P := (· ≠ 91)) (fun y hy => by rcases ha y hy with rfl | rfl <;> decide) hx.2.2.2 0
    rw [List.drop_zero] at h3
    rw [h3] at he
    simp only [str, List.cons_append, List.nil_append] at he
    have : y = 91 := by
      have h5 := congrArg (fun l => l[1]?) he
      exact Option.some.inj h5
    exact h4 this

theorem hits_close (hu : u.Ascii) (d : Bool) {r post : List Nat} (hr : Blank r) {e0 : Nat} (he0 : e0 = 10 ∨ e0 = 35) :
    ∃ a, Hits u t (HL d) (str (closes d) ++ r) (e0 :: post) a (some ⟨1, []⟩)
      [(3, (str (closes d)).length, (str (closes d)).length + r.length), (2, 0, (str (closes d)).length)] ∧
      expV a (str (closes d) ++ r) [(3, (str (closes d)).length, (str (closes d)).length + r.length), (2, 0, (str (closes d)).length)] =
        [.tok (str (closes d)) .bracketEnd] := by
  have hall : r.all u.space = true := by
    rw [List.all_eq_true]
    intro c hc
    rcases hr c hc with rfl | rfl
    · rw [hu.space 32 (by decide)]; rfl
    · rw [hu.space 9 (by decide)]; rfl
  have hpc : ∀ s, (∃ w, str s = 93 :: w) → PC (closeRule u s).pat (str s ++ r) (e0 :: post) [(3, (str s).length, (str s).length + r.length), (2, 0, (str s).length)] := by
    rintro s ⟨w, hs⟩
    have h0 : PFail (.cat (.grp 1 (chr ".")) blanks) (str s ++ r ++ e0 :: post) := by
      refine CssL.pfail_cat (Xml.pfail_grp (CssL.pfail_chr (c := 46) (w := []) ?_))
      rw [hs]
      simp
    have h2 := (PC.grp 2 (Xml.pbest_chr s (r ++ e0 :: post))).cat (PC.grp 3 (w := r) (post := e0 :: post) (CssL.pbest_star (g := fun c => !(c == 10 || c == 35))
      (by intro c hc; rcases hr c hc with rfl | rfl <;> decide) (by intro c hc; obtain rfl : e0 = c := Option.some.inj hc; rcases he0 with rfl | rfl <;> decide)))
    have := (PC.of (CssL.pbest_none h0)).cat h2
    refine this.eq rfl ?_
    simp [shift, Nat.add_comm]
  have hsl : ∀ s : List Nat, slice (s ++ r) s.length (s.length + r.length) = r := by
    intro s
    rw [slice, List.take_of_length_le (by simp), List.drop_left]
  have hsl0 : ∀ s : List Nat, slice (s ++ r) 0 s.length = s := by
    intro s
    simp [slice]
  have htx : ∀ s : List Nat, texts (s ++ r) [(3, s.length, s.length + r.length), (2, 0, s.length)] = [(3, r), (2, s)] := by
    intro s
    simp only [texts, List.map_cons, List.map_nil, hsl, hsl0]
  have hout : ∀ s, ((closeRule u s).out (str s ++ r) [(3, r), (2, str s)]) = (if r = [] then TA.closeBadGroups else .closeGroups, some ⟨1, []⟩) := by
    intro s
    by_cases he : r = []
    · subst he
      simp [closeRule, spaceGroup, List.lookup]
    · have : (r != []) = true := by simpa using he
      simp only [closeRule, spaceGroup, List.lookup, beq_self_eq_true, this, hall, Bool.and_self, if_true, he, if_false]
  refine ⟨if r = [] then TA.closeBadGroups else .closeGroups, ?_, ?_⟩
  · cases d with
    | true => exact hits hu 0 [] (c := 93) (w := 93 :: r) (r := closeRule u "]]") rfl ((congrArg _ (htx [93, 93])).trans (hout "]]")) (by decide) (by decide +kernel) (by simp) (hpc "]]" ⟨_, rfl⟩)
    | false => exact hits hu 0 [] (c := 93) (w := r) (r := closeRule u "]") rfl ((congrArg _ (htx [93])).trans (hout "]")) (by decide) (by decide +kernel) (by simp) (hpc "]" ⟨_, rfl⟩)
  · have h3 := hsl (str (closes d))
    have h2 := hsl0 (str (closes d))
    have hne : str (closes d) ≠ [] := by cases d <;> simp [closes, str]
    by_cases he : r = []
    · rw [if_pos he]
      subst he
      simp only [List.length_nil, Nat.add_zero] at h3
      simp [expV, groups, List.zipIdx, groupOf, h3, h2, hne, slice]
    · rw [if_neg he]
      simp [expV, groups, List.zipIdx, groupOf, h3, h2, he, hne]

theorem table_go (hu : u.Ascii) (d : Bool) {k : Key} {a b r : List Nat} (ha : Blank a) (hk : k.ok false) (hb : Blank b) (hr : Blank r) {e0 : Nat} (he0 : e0 = 10 ∨ e0 = 35) {post : List Nat} (is : List V) (fs : List Fr) :
    Go u t ⟨str (opens d) ++ (a ++ (k.text ++ (b ++ (str (closes d) ++ (r ++ e0 :: post))))), (.root, is) :: fs, 0, true⟩
      ⟨e0 :: post, (.root, is ++ (Item.table d a k b r).view) :: fs, 0, true⟩ := by
  obtain ⟨x, q, e, hx⟩ := key_head hk
  have hk' := head_key hx
  have hx91 : x ≠ 91 := by
    rcases hx with rfl | rfl | h
    · decide
    · decide
    · unfold IsBare IsDigit at h
      omega
  have hh := hits_header (t := t) (post := q ++ (b ++ (str (closes d) ++ (r ++ e0 :: post)))) hu d ha ⟨hk'.2.1, hk'.2.2.1, hk'.2.2.2.2, hx91⟩
  rw [show a ++ x :: (q ++ (b ++ (str (closes d) ++ (r ++ e0 :: post)))) = a ++ (k.text ++ (b ++ (str (closes d) ++ (r ++ e0 :: post)))) by rw [e]; rfl] at hh
  have g1 := s_enter (is := is) (fs := fs) (n := 0) (o := true) (vs := [.tok (str (opens d)) .bracketStart]) hh (by cases d <;> rfl) (by simp)
  have hkl : KL (HL d) .namespace 1 := by
    cases d
    · exact .inr (.inl ⟨rfl, rfl, rfl⟩)
    · exact .inr (.inr (.inl ⟨rfl, rfl, rfl⟩))
  obtain ⟨w, hw⟩ : ∃ w, str (closes d) = 93 :: w := by cases d <;> exact ⟨_, rfl⟩
  have hstop : Stop (b ++ (str (closes d) ++ (r ++ e0 :: post))) := by
    by_cases h : b = []
    · subst h
      rw [hw]
      exact ⟨93, _, rfl, by decide⟩
    · exact blank_stop hb h
  have g2 := go_blank (t := t) (is := []) (fs := (.root, is ++ [.tok (str (opens d)) .bracketStart]) :: fs) (n := 1)
    (post := k.text ++ (b ++ (str (closes d) ++ (r ++ e0 :: post)))) hu hkl ha (by
      rw [e]
      intro y hy
      obtain rfl : x = y := Option.some.inj hy
      exact ⟨hk'.2.1, hk'.2.2.1⟩)
  have g3 := key_go (t := t) (is := []) (fs := (.root, is ++ [.tok (str (opens d)) .bracketStart]) :: fs) (n := 1) (o := true) hu hkl hstop hk
  have g4 := go_blank (t := t) (is := [] ++ k.view .namespace) (fs := (.root, is ++ [.tok (str (opens d)) .bracketStart]) :: fs) (n := 0)
    (post := str (closes d) ++ (r ++ e0 :: post)) hu hkl hb (by
      rw [hw]
      intro y hy
      obtain rfl : 93 = y := Option.some.inj hy
      decide)
  obtain ⟨A, h1, h2⟩ := hits_close (t := t) (post := post) hu d hr he0
  have g5 := s_leave (is := [] ++ k.view .namespace) (l0 := .root) (is0 := is ++ [.tok (str (opens d)) .bracketStart]) (fs := fs) (n := 0) (o := true) h1 h2 (by simp)
  rw [List.append_assoc (str (closes d))] at g5
  have := (((g1.trans g2).trans g3).trans g4).trans g5
  cases d
  · simpa [Item.view, mk, HL, opens, closes, hashView, comView] using this
  · simpa [Item.view, mk, HL, opens, closes, hashView, comView] using this

/-! ### Documents -/

theorem item_go (hu : u.Ascii) {i : Item} (h : i.ok false) {post : List Nat} (hs : (i.text ++ 10 :: post) <:+ t) (is : List V) (fs : List Fr) :
    ∃ o, Go u t ⟨i.text ++ 10 :: post, (.root, is) :: fs, 0, true⟩ ⟨10 :: post, (.root, is ++ i.view) :: fs, 0, o⟩ := by
  cases i with
  | pair k b a v r c =>
    obtain ⟨h1, h2, h3, h4, h5, h6⟩ := h
    have e : (Item.pair k b a v r c).text ++ 10 :: post = k.text ++ (b ++ 61 :: (a ++ (v.text ++ (r ++ (comText c ++ 10 :: post))))) := by simp [Item.text]
    rw [e] at hs ⊢
    cases c with
    | none =>
      obtain ⟨o, g1⟩ := pair_go hu h1 h2 h3 h4 h5 (.inl rfl) hs is fs
      have := g1.trans (go_eol hu)
      exact ⟨false, by simpa [Item.view, hashView, comView, mk, comText] using this⟩
    | some w =>
      obtain ⟨o, g1⟩ := pair_go (e0 := 35) (post := w ++ 10 :: post) hu h1 h2 h3 h4 h5 (.inr rfl) hs is fs
      have := g1.trans (vhash_go hu h6 _ _ _ _)
      exact ⟨false, by simpa [Item.view, mk, comText] using this⟩
  | table d a k b r c =>
    obtain ⟨h1, h2, h3, h4, h6⟩ := h
    have e : (Item.table d a k b r c).text ++ 10 :: post = str (opens d) ++ (a ++ (k.text ++ (b ++ (str (closes d) ++ (r ++ (comText c ++ 10 :: post)))))) := by
      cases d <;> simp [Item.text, opens, closes]
    rw [e]
    cases c with
    | none => exact ⟨true, table_go hu d h1 h2 h3 h4 (.inl rfl) is fs⟩
    | some w =>
      have g1 := table_go (t := t) (e0 := 35) (post := w ++ 10 :: post) hu d h1 h2 h3 h4 (.inr rfl) is fs
      have := g1.trans (hash_go hu h6 _ _ _)
      exact ⟨false, by simpa [Item.view, comText, hashView, comView] using this⟩
  | comment w =>
    have := hash_go (t := t) (post := post) hu h is fs true
    exact ⟨false, by simpa [Item.text, Item.view] using this⟩

theorem root_space : ∀ c < 128, c = 32 ∨ c = 9 ∨ c = 10 → onlyAt .root 5 [] c = true := by decide +kernel

theorem lines_head (hu : u.Ascii) {l : List (Item × List Nat)} (h : ∀ x ∈ l, x.1.ok false ∧ Ws x.2) (c : Nat) (hc : (linesText l).head? = some c) : u.space c = false := by
  cases l with
  | nil => cases hc
  | cons x l =>
    obtain ⟨i, w⟩ := x
    have hi := (h (i, w) (by simp)).1
    cases i with
    | comment w =>
      obtain rfl : 35 = c := Option.some.inj hc
      rw [hu.space 35 (by decide)]
      decide
    | pair k b a v r m =>
      obtain ⟨x, q, e, hx⟩ := key_head hi.1
      simp only [linesText, Item.text, e] at hc
      obtain rfl : x = c := Option.some.inj hc
      rw [hu.space x (head_lt hx).1]
      rcases hx with rfl | rfl | hx
      · decide
      · decide
      · unfold IsBare IsDigit at hx
        simp only [Bool.or_eq_false_iff, Bool.and_eq_false_iff, decide_eq_false_iff_not]
        omega
    | table d a k b r m =>
      obtain rfl : 91 = c := by cases d <;> exact Option.some.inj hc
      rw [hu.space 91 (by decide)]
      decide

theorem skip_ws (hu : u.Ascii) {w post : List Nat} (hw : Ws w) (hp : ∀ c, post.head? = some c → u.space c = false) {is : List V} {fs : List Fr} {o : Bool}
    (ho : w = [] → o = true) : Go u t ⟨w ++ post, (.root, is) :: fs, 0, o⟩ ⟨post, (.root, is) :: fs, 0, true⟩ := by
  by_cases he : w = []
  · obtain rfl := ho he
    subst he
    exact Go.refl _
  · obtain ⟨c, w, rfl⟩ := List.exists_cons_of_ne_nil he
    have hc := hw c (by simp)
    exact s_skip (hits hu 5 [] (r := rule (.plus (.set u.space)) .skip) rfl rfl (by omega) (root_space c (by omega) hc) (by simp)
      (PC.of (CssL.pbest_plus (by simp) (fun x hx => by
        have := hw x hx
        rw [hu.space x (by omega)]
        rcases this with rfl | rfl | rfl <;> decide) hp)))

theorem lines_go (hu : u.Ascii) : ∀ (l : List (Item × List Nat)), (∀ x ∈ l, x.1.ok false ∧ Ws x.2) → ∀ {w : List Nat}, Ws w → ∀ {is : List V} {fs : List Fr} {o : Bool},
    (w = [] → o = true) → (w ++ linesText l) <:+ t → Go u t ⟨w ++ linesText l, (.root, is) :: fs, 0, o⟩ ⟨[], (.root, is ++ docView l) :: fs, 0, true⟩
  | [], h, w, hw, is, fs, o, ho, hs => by
    simpa [linesText, docView] using skip_ws (t := t) (post := []) (is := is) (fs := fs) hu hw (by simp) ho
  | (i, w') :: l, h, w, hw, is, fs, o, ho, hs => by
    have g1 := skip_ws (t := t) (is := is) (fs := fs) hu hw (lines_head hu h) ho
    have hs1 : (i.text ++ 10 :: (w' ++ linesText l)) <:+ t := (List.suffix_append w _).trans hs
    obtain ⟨o', g2⟩ := item_go hu (h (i, w') (by simp)).1 hs1 is fs
    have hs2 : (10 :: w' ++ linesText l) <:+ t := (List.suffix_append i.text _).trans hs1
    have g3 := lines_go hu l (fun x hx => h x (by simp [hx])) (w := 10 :: w') (is := is ++ i.view) (fs := fs) (o := o') (by
      intro c hc
      rcases List.mem_cons.1 hc with rfl | hc
      · simp
      · exact (h (i, w') (by simp)).2 c hc) (by simp) hs2
    have := (g1.trans g2).trans g3
    simpa [docView] using this

theorem end_step {t : List Nat} {s : LState TL RM} (hs : s.stack = [.root])
    (hps : parseNext TA.none ((lang u).ld .root) t s.ps = parseNext TA.none ((lang u).ld .root) t (.at t.length false)) :
    lexStep (lang u) t s = none := by
  have hm : rxMatch (pats u .root) t t.length = none := by
    rw [rxMatch_none (Nat.le_refl _)]
    refine misses_all (u := u) (t := t) (l := .root) (rest := []) ?_ t.length (List.drop_length ..)
    intro r hr
    simp only [rules, rule, List.mem_cons, List.not_mem_nil, or_false] at hr
    rcases hr with rfl | rfl | rfl | rfl | rfl | rfl
    · exact CssL.pfail_chr (c := 35) (w := []) (by simp)
    · exact CssL.pfail_cat (Xml.pfail_grp (CssL.pfail_chr (c := 91) (w := [91]) (by simp)))
    · exact CssL.pfail_cat (Xml.pfail_grp (CssL.pfail_chr (c := 91) (w := []) (by simp)))
    · exact CssL.pfail_cat (CssL.pfail_chr (c := 61) (w := []) (by simp))
    · exact CssL.pfail_cat (CssL.pfail_chr (c := 46) (w := []) (by simp))
    · exact CssL.pfail_cat (CssL.pfail_set (by simp))
  have hn : parseNext TA.none ((lang u).ld .root) t (.at t.length false) = none := by
    show parseNext _ (compile .none (rules u .root) (dflt .root)) _ _ = _
    rw [compile_cons _ _ _ (rules_ne _)]
    show parseNext _ (.regex _ _ _ (.target _)) _ _ = _
    simp only [parseNext]
    unfold pats at hm
    rw [hm]
    simp [tailTok]
  have h3 : parseNext (lang u).noAct ((lang u).ld .root) t s.ps = none := hps.trans hn
  unfold lexStep
  rw [hs]
  simp only
  rw [h3]

theorem run_doc (hu : u.Ascii) (ws : List Nat) (c : List (Item × List Nat)) (h : docOk false ws c) :
    ∃ n evs cs, lexRun (lang u) (docText ws c) n (LState.start [.root] 0) = (evs, none) ∧ buildEvents .root evs = .ctx .root cs ∧
      views cs = docView c := by
  have g := lines_go (t := docText ws c) hu c h.2 h.1 (is := []) (fs := []) (o := true) (fun _ => rfl) (List.suffix_refl _)
  rw [show ws ++ linesText c = docText ws c from rfl] at g
  generalize docText ws c = t at g
  obtain ⟨q, k1, k2, k3⟩ := g 0 rfl (Nat.zero_le _)
  have hq : q = t.length := by
    have := congrArg List.length k1
    simp only [List.length_drop, List.length_nil] at this
    omega
  subst hq
  obtain ⟨B, c', i1, i2, i3⟩ := k3 (⟨⟨.root, []⟩, []⟩ : BState Nat TL TA) [] rfl (cok_nil _)
  obtain ⟨⟨l, ks⟩, up⟩ := B
  have hfr := i1
  simp only [frs, BState.frames, List.map_cons, conv, List.map_nil, List.nil_append, List.cons.injEq, Prod.mk.injEq, List.map_eq_nil_iff] at hfr
  obtain ⟨⟨rfl, hks⟩, rfl⟩ := hfr
  obtain ⟨n, evs, e1, e2⟩ := fgoes_finish (b' := ⟨⟨.root, ks⟩, []⟩) i3 rfl (by
    intro s b hat
    exact end_step hat.stack hat.parse)
  refine ⟨n, evs, ks, e1, e2, ?_⟩
  rw [nodes_its] at hks
  have := congrArg (List.map unvit) hks
  rwa [map_unvit, map_unvit] at this

theorem doc_tree (hu : u.Ascii) (ws : List Nat) (c : List (Item × List Nat)) (h : docOk false ws c) (n : Nat) (hn : RB.Finished (lang u) .root (docText ws c) n) :
    ∃ cs, buildTree (lang u) .root (docText ws c) 0 n = .ctx .root cs ∧ views cs = docView c := by
  obtain ⟨m, evs, cs, h1, h2, h3⟩ := run_doc hu ws c h
  have : (lexRun (lang u) (docText ws c) n (LState.start [.root] 0)).1 = evs := by
    have e1 : RB.Ends (lang u) (docText ws c) m (LState.start [.root] 0) evs := h1
    have e2 : RB.Ends (lang u) (docText ws c) n (LState.start [.root] 0) (lexRun (lang u) (docText ws c) n (LState.start [.root] 0)).1 := by
      unfold RB.Ends
      unfold RB.Finished at hn
      rw [Option.isNone_iff_eq_none] at hn
      rw [← hn]
    exact e2.unique e1
  refine ⟨cs, ?_, h3⟩
  unfold buildTree
  rw [this, h2]

end Parce.Toml

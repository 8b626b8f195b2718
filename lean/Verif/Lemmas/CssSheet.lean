import Verif.Lemmas.CssBlock
import Verif.Lemmas.CssSelGo
/-!
# Rules and at-rules of CSS texts
-/
namespace Parce.CssL
open Parce.Json (Uni str)
variable {Q K : Type} {u : Uni} {k : Words} {f : Funcs Q K}

/-! ### Pieces -/

/-- A piece of a style sheet that adds the items `js`. The last token is a match with a target that leaves contexts; `com` tells whether
    a comment is among them. -/
def Piece (u : Uni) (k : Words) (f : Funcs Q K) (text : List Nat) (js : List (Itm Q K)) (com : Bool) : Prop :=
  ∀ (is : List (Itm Q K)) (post t : List Nat) (p : Nat), t.drop p = text ++ post → p ≤ t.length →
    ∃ q l is' fs n' o' w a pop, t.drop q = w ++ post ∧ q ≤ t.length ∧
      IGoes (lang u k) (method k f) t ⟨p, [(.root, is)], 0, true⟩ ⟨q, (l, is') :: fs, n', o'⟩ ∧
      Hits u k l w post a (some ⟨pop, []⟩) ∧ plain a = true ∧ pop ≤ fs.length ∧
      closeN (method k f) pop ((l, is' ++ [.tok w a]) :: fs) = [(.root, is ++ js)] ∧ (CL.comment ∈ l :: fs.map (·.1) ↔ com = true)

theorem Piece.go {text : List Nat} {js : List (Itm Q K)} {com : Bool} (h : Piece u k f text js com) (is : List (Itm Q K)) (post : List Nat) :
    Go u k f ⟨text ++ post, [(.root, is)], 0, true⟩ ⟨post, [(.root, is ++ js)], 0, true⟩ := by
  intro t p ht hp
  obtain ⟨q, l, is', fs, n', o', w, a, pop, h1, h2, h3, h4, h5, h6, h7, _⟩ := h is post t p ht hp
  obtain ⟨r, g1, g2, g3⟩ := s_target (f := f) (is := is') (fs := fs) (n := n') (o := o') h4 h6 rfl h5 t q h1 h2
  refine ⟨r, g1, g2, h3.trans ?_⟩
  simp only [List.reverse_nil, List.map_nil, List.nil_append, List.length_nil, h7] at g3
  exact g3

/-- A piece, when its last token is known. -/
theorem piece_of {pre w : List Nat} {js : List (Itm Q K)} {l : CL} {a : CA} {pop : Nat} (ha : plain a = true)
    (hit : ∀ post, Hits u k l w post a (some ⟨pop, []⟩))
    (h : ∀ (is : List (Itm Q K)) (post : List Nat), ∃ is' fs n' o',
      Go u k f ⟨pre ++ (w ++ post), [(.root, is)], 0, true⟩ ⟨w ++ post, (l, is') :: fs, n', o'⟩ ∧ pop ≤ fs.length ∧
      closeN (method k f) pop ((l, is' ++ [.tok w a]) :: fs) = [(.root, is ++ js)] ∧ CL.comment ∉ l :: fs.map (·.1)) :
    Piece u k f (pre ++ w) js false := by
  intro is post t p ht hp
  obtain ⟨is', fs, n', o', h1, h2, h3, h4⟩ := h is post
  rw [List.append_assoc] at ht
  obtain ⟨q, g1, g2, g3⟩ := h1 t p ht hp
  exact ⟨q, l, is', fs, n', o', w, a, pop, g1, g2, g3, hit post, ha, h2, h3, by simpa using h4⟩

/-! ### Comments -/

theorem piece_comment (hu : u.Ascii) {w : List Nat} (hw : (Blank.comment w).ok) :
    Piece u k f (Blank.comment w).text [.tok (str "/*") .comment] true := by
  intro is post t p ht hp
  have h0 : (Blank.comment w).text ++ post = str "/*" ++ (w ++ str "*/" ++ post) := by simp [Blank.text]
  rw [h0] at ht
  obtain ⟨p', ht', hp', h1⟩ := s_target (f := f) (is := is) (fs := []) (n := 0) (o := true)
    (hits_comment (u := u) (k := k) hu (l := .root) rfl (w ++ str "*/" ++ post)) (Nat.zero_le _) rfl rfl t p ht hp
  have h42 : u.word 42 = false := by rw [hu.word 42 (by decide)]; decide
  simp only at ht'
  have hget : ∀ i, t[p' + i]? = (w ++ str "*/" ++ post)[i]? := fun i => by
    rw [← ht', List.getElem?_drop]
  have hend : EndC t (p' + w.length) := by
    refine ⟨?_, ?_⟩
    · rw [hget, List.append_assoc, List.getElem?_append_right (by omega), Nat.sub_self]; rfl
    · rw [Nat.add_assoc, hget, List.append_assoc, List.getElem?_append_right (by omega), Nat.add_sub_cancel_left]; rfl
  have hn : ∀ i, p' ≤ i → i < p' + w.length → ¬ EndC t i := by
    intro i h1 h2 h3
    refine hw (i - p') (by omega) ?_
    obtain ⟨h4, h5⟩ := h3
    rw [show i = p' + (i - p') by omega, hget, List.getElem?_append_left (by simp; omega)] at h4
    rw [show i + 1 = p' + (i - p' + 1) by omega, hget, List.getElem?_append_left (by simp [str]; omega)] at h5
    exact ⟨h4, h5⟩
  obtain ⟨is', n', o', h3⟩ := comment_body (u := u) (k := k) (f := f) h42 hend (fs := [(.root, is ++ [.tok (str "/*") .comment])]) w.length p' 1 true []
    (by omega) (by omega) hn
  have hd : t.drop (p' + w.length) = str "*/" ++ post := by
    rw [List.append_assoc] at ht'; exact drop_add ht'
  have hlt := (List.getElem?_eq_some_iff.1 hend.1).1
  refine ⟨p' + w.length, .comment, is', [(.root, is ++ [.tok (str "/*") .comment])], n', o', str "*/", .comment, 1, hd, by omega, (by simpa [closeN] using h1 : IGoes (lang u k) (method k f) t ⟨p, [(.root, is)], 0, true⟩
      ⟨p', [(.comment, []), (.root, is ++ [.tok (str "/*") .comment])], 1, true⟩).trans h3,
    hits hu (l := .comment) (c := 42) (w := [47]) (r := rule (chr "*/") .comment (some ⟨1, []⟩)) (a := .comment) 0 [] rfl (fun _ => rfl)
        (by decide) (by decide +kernel) (by simp) (pbest_str [42, 47] post), rfl, by simp, ?_, by simp⟩
  simp [closeN, closeF, done, method]

/-! ### Style rules -/

theorem hits_close (hu : u.Ascii) {l : CL} {n : Nat} (hl : (rules u k l)[0]? = some (rule (chr "}") .bracket (some ⟨n, []⟩))) (post : List Nat) :
    Hits u k l [125] post .bracket (some ⟨n, []⟩) :=
  hits hu (c := 125) (w := []) 0 [] hl (fun _ => rfl) (by decide) rfl (by simp) (pbest_str [125] post)

theorem Sels.head (s : Sels) (ho : s.ok u false) (hl : s.lead = []) (post : List Nat) : ∃ c r, s.text ++ post = c :: r ∧ c < 128 ∧ selHead c = true := by
  cases s with
  | one g e s r g' =>
    simp only [Sels.ok] at ho
    simp only [Sels.lead] at hl
    subst hl
    have := compound_head ho.2.1 ho.2.2.1 (r.text ++ btext g' ++ post)
    simpa [Sels.text, btext] using this
  | more g e s r g' ss =>
    simp only [Sels.ok] at ho
    simp only [Sels.lead] at hl
    subst hl
    have := compound_head ho.2.1 ho.2.2.1 (r.text ++ btext g' ++ str "," ++ ss.text ++ post)
    simpa [Sels.text, btext] using this

theorem root_sel : ∀ c < 128, selHead c = true → noneAt .root c = true := by decide +kernel

theorem piece_rule (hu : u.Ascii) (hd : ∀ c, u.digit c = true → u.word c = true) (s : Sels) (b : Block) (ho : (Stmt.rule s b).ok u k false) :
    Piece u k f (s.text ++ 123 :: b.text ++ [125]) [.item .prelude (.list s.values), .item .rule (b.value k f)] false := by
  obtain ⟨h1, h2, h3⟩ := ho
  refine piece_of (l := .rule) rfl (fun post => hits_close hu rfl post) (fun is post => ?_)
  obtain ⟨c, r, e1, e2, e3⟩ := s.head h1 h2 (123 :: b.text ++ ([125] ++ post))
  have g1 : Go u k f ⟨s.text ++ (123 :: b.text ++ ([125] ++ post)), [(.root, is)], 0, true⟩ _ :=
    s_push (l' := .prelude) (by rw [e1]; exact misses hu e2 (root_sel c e2 e3)) (by rw [e1]; simp)
  obtain ⟨o1, g2⟩ := s.go (f := f) (k := k) hu h1 (l := .prelude) (i := 2) rfl (c := 123) (Or.inl rfl) (r := b.text ++ ([125] ++ post)) (is := [])
    (fs := [(.root, is)]) (n := 1)
  have g3 := s_target (f := f) (is := s.items) (fs := [(.root, is)]) (n := 0) (o := o1)
    (hits hu (u := u) (k := k) (l := .prelude) (c := 123) (w := []) (post := b.text ++ ([125] ++ post)) 0 [] rfl (fun _ => rfl) (by decide) (by decide +kernel) (by simp)
      (pbest_str [123] _)) (by simp)
  obtain ⟨n', o', g4⟩ := b.go (f := f) hu hd (l := .rule) (Or.inl rfl) (rest := post) h3 (is := []) (fs := [(.root, is ++ [.item .prelude (.list s.values)])])
    (n := 1) (o := true)
  have hdone : done (method k f) .prelude (s.items ++ [.tok [123] .bracket]) = [.item .prelude (.list s.values)] := by
    rw [done_ok _ (by decide) (by rw [failed_append, s.not_failed]; rfl)]
    show [BItm.item _ (preludeOf _)] = _
    rw [s.prelude_eq h1 (fun _ _ => by simp [preludeLoop])]
  simp only [closeN, closeF, hdone] at g3
  refine ⟨b.items k f, [(.root, is ++ [.item .prelude (.list s.values)])], n', o', ?_, by simp, ?_, by simp⟩
  · have := ((g1.trans g2).trans g3).trans g4
    simpa using this
  · simp only [closeN, closeF]
    rw [done_ok _ (by decide) (by rw [failed_append, b.not_failed]; rfl)]
    show [(CL.root, _ ++ [BItm.item _ (inline _)])] = _
    rw [b.inline_eq]
    simp

/-! ### At-rules -/

/-- Items over which `atruleLoop` goes. -/
def argItem : Itm Q K → Bool
  | .tok w _ => w != [59]
  | .item m _ => m != .atruleNested && m != .atruleBlock

theorem arg_items (a : Arg) {b : Bool} {rest : List Nat} (h : a.ok u k false b rest) : ∀ i ∈ a.items k f, argItem i = true := by
  have h1 := List.filter_eq_self.1 (a.filter (f := f) h)
  intro i hi
  have h2 := h1 i hi
  cases i with
  | tok w c =>
    simp only [notColon, Bool.and_eq_true] at h2
    exact h2.2
  | item m o =>
    cases a with
    | num w un => cases un <;> simp [Arg.items, numItems] at hi <;> simp [argItem, hi]
    | gap bs =>
      simp only [Arg.items, bitems, List.mem_flatMap] at hi
      obtain ⟨x, _, hx⟩ := hi
      cases x <;> simp [Blank.items] at hx
    | _ => simp [Arg.items, Arg.vals] at hi <;> simp [argItem, hi]

theorem args_items : ∀ (as : Args) {b : Bool} {rest : List Nat}, as.ok u k false b rest → ∀ i ∈ as.items k f, argItem i = true
  | .nil, _, _, _, i, hi => by simp [Args.items] at hi
  | .cons a as, _, _, h, i, hi => by
    simp only [Args.ok] at h
    simp only [Args.items, List.mem_append] at hi
    rcases hi with hi | hi
    · exact arg_items a h.1 i hi
    · exact args_items as h.2 i hi

theorem atruleLoop_skip (all : List (Itm Q K)) (rest : List (Itm Q K)) : ∀ (is : List (Itm Q K)) (n : Nat), (∀ i ∈ is, argItem i = true) →
    atruleLoop f all n (is ++ rest) = atruleLoop f all (n + is.length) rest
  | [], n, _ => rfl
  | i :: is, n, h => by
    have h1 := h i (by simp)
    have ih := atruleLoop_skip all rest is (n + 1) (fun j hj => h j (by simp [hj]))
    rw [List.length_cons, show n + (is.length + 1) = n + 1 + is.length by omega, ← ih]
    cases i with
    | tok w c =>
      simp only [argItem, bne_iff_ne, ne_eq] at h1
      rw [List.cons_append, atruleLoop, if_neg h1]
    | item m o =>
      simp only [argItem, Bool.and_eq_true, bne_iff_ne, ne_eq] at h1
      simp only [List.cons_append, atruleLoop, h1.1, h1.2, if_false]

theorem common_args (as : Args) {b : Bool} {rest : List Nat} (h : as.ok u k false b rest) : common f (as.items k f) = as.vals k f := by
  have := as.loop (f := f) h noUnit_nil
  simpa [common, commonLoop, Await.flush] using this

/-- The keyword is not one of the at-rules with nested rules. -/
theorem nesting_fails {kw rest : List Nat} (hu : u.Ascii) (h : Keyword u kw rest) :
    PFail (.cat (.grp 1 (.alts [chr "media", chr "supports", chr "document"])) (.bound u.word)) (kw ++ rest) := by
  obtain ⟨h1, h2, h3⟩ := h
  rintro t p ht q ⟨r, hr, hb⟩
  have key : ∃ n ∈ nesting, r = p + n.length ∧ ∃ post, t.drop p = n ++ post := by
    simp only [Pat.mat, Pat.alts] at hr
    rcases hr with hr | hr | hr
    · obtain ⟨a, b⟩ := str_mat _ hr
      exact ⟨_, by simp [nesting], a, b⟩
    · obtain ⟨a, b⟩ := str_mat _ hr
      exact ⟨_, by simp [nesting], a, b⟩
    · obtain ⟨a, b⟩ := str_mat _ hr
      exact ⟨_, by simp [nesting], a, b⟩
  obtain ⟨n, hn, rfl, post, hpost⟩ := key
  have hword : ∀ c ∈ n, u.word c = true := by
    have hall : ∀ m ∈ nesting, ∀ c ∈ m, c < 128 ∧ uni0.word c = true := by decide
    intro c hc
    obtain ⟨a, b⟩ := hall n hn c hc
    rw [hu.word c a]
    exact b
  have hne : n ≠ [] := by
    have : ∀ m ∈ nesting, m ≠ [] := by decide
    exact this n hn
  -- the keyword starts with `n`
  have hpre : n <+: kw := by
    have e : kw ++ rest = n ++ post := ht.symm.trans hpost
    have p1 : n <+: kw ++ rest := ⟨post, e.symm⟩
    rcases List.prefix_or_prefix_of_prefix p1 (List.prefix_append kw rest) with hp | ⟨x, hx⟩
    · exact hp
    · cases x with
      | nil => rw [← hx]; simp
      | cons c x =>
        exfalso
        have hc : rest.head? = some c := by
          rw [← hx, List.append_assoc] at e
          rw [List.append_cancel_left e]; rfl
        exact (h2 c hc).1 (Or.inl (hword c (by rw [← hx]; simp)))
  obtain ⟨x, hx⟩ := hpre
  obtain ⟨c, hc, hw⟩ := h3 n hn x hx.symm
  obtain ⟨x', rfl⟩ : ∃ x', x = c :: x' := by
    cases x with
    | nil => cases hc
    | cons d x => cases hc; exact ⟨x, rfl⟩
  have hd : t.drop (p + n.length) = c :: (x' ++ rest) := by
    rw [← List.drop_drop, ht, ← hx]
    simp
  have hg : t[p + n.length]? = some c := drop_get hd
  have hl : t[p + n.length - 1]? = some (n.getLast hne) := by
    have hpos := List.length_pos_iff.2 hne
    have : t[p + (n.length - 1)]? = (n ++ post)[n.length - 1]? := by rw [← hpost, List.getElem?_drop]
    rw [show p + n.length - 1 = p + (n.length - 1) by omega, this, List.getElem?_append_left (by omega), ← List.getLast?_eq_getElem?, List.getLast?_eq_some_getLast hne]
  simp only [Pat.bound, Pat.mat] at hb
  obtain ⟨_, hb⟩ := hb
  rw [hg, hl] at hb
  simp [hw, hword _ (List.getLast_mem hne)] at hb
  exact hne hb.2

theorem keyword_go (hu : u.Ascii) {kw rest : List Nat} (h : Keyword u kw rest) (hr : rest ≠ []) (is : List (Itm Q K)) :
    Go u k f ⟨64 :: (kw ++ rest), [(.root, is)], 0, true⟩
      ⟨rest, [(.atrule, [.item .atruleKeyword (.text kw)]), (.root, is ++ [.tok [64] .keyword])], 0, false⟩ := by
  have g1 := s_target (f := f) (is := is) (fs := []) (n := 0) (o := true)
    (hits hu (u := u) (k := k) (l := .root) (c := 64) (w := []) (post := kw ++ rest) 0 [] rfl (fun _ => rfl) (by decide) (by decide +kernel) (by simp)
      (pbest_str [64] _)) (by simp)
  have g2 := s_tok (f := f) (is := []) (fs := [(.atrule, []), (.root, is ++ [.tok [64] .keyword])]) (n := 2) (o := true)
    (hits_name (u := u) (k := k) hu 2 [0] (l := .atruleKeyword) (a := fun _ => .keyword) (tg := none) h.1 h.2.1 rfl (by decide +kernel) (by
      intro j hj r hr
      simp only [List.mem_singleton] at hj
      subst hj
      cases hr
      exact nesting_fails hu h))
  have hm : Misses u k .atruleKeyword rest := by
    refine misses_of (fun r hr => ?_)
    simp only [rules, identRules, List.mem_cons, List.not_mem_nil, or_false] at hr
    rcases hr with rfl | rfl | rfl
    · refine pfail_can ?_
      cases rest with
      | nil => exact absurd rfl hr
      | cons c rest =>
        have h1 := (h.2.1 c rfl).1
        have h2 : c ≠ 109 ∧ c ≠ 115 ∧ c ≠ 100 := by
          refine ⟨?_, ?_, ?_⟩ <;> rintro rfl <;> exact h1 (Or.inl (by rw [hu.word _ (by decide)]; decide))
        simp [rule, Pat.can, Pat.fst, Pat.nul, Pat.alts, chr, Pat.str, Pat.chr, str, h2.1, h2.2.1, h2.2.2]
    · exact pfail_escape h.2.1.not_escape
    · exact pfail_name h.2.1
  have g3 := s_pop (f := f) (k := k) (is := [.tok kw .keyword]) (l' := .atrule) (is' := []) (fs := [(.root, is ++ [.tok [64] .keyword])]) (o := true) hm hr
  have hdone : done (method k f) .atruleKeyword [.tok kw .keyword] = [.item .atruleKeyword (.text kw)] := by
    rw [done_ok _ (by decide) rfl]
    simp [methOf, identText, identToken, isDelimiter]
  rw [hdone] at g3
  have := (g1.trans g2).trans g3
  simpa using this

theorem piece_at (hu : u.Ascii) (hd : ∀ c, u.digit c = true → u.word c = true) (kw : List Nat) (as : Args) (ho : (Stmt.at kw as).ok u k false) :
    Piece u k f (64 :: (kw ++ as.text) ++ [59]) [.tok [64] .keyword, .item .atrule ((Stmt.at kw as).value k f)] false := by
  obtain ⟨h1, h2⟩ := ho
  refine piece_of (l := .atrule) (a := .delimiter) (pop := 1) rfl (fun post => hits hu (c := 59) (w := []) 1 [] rfl (fun _ => rfl) (by decide) (by decide +kernel) (by simp)
    (pbest_str [59] post)) (fun is post => ?_)
  have hk : Keyword u kw (as.text ++ ([59] ++ post)) := ⟨h1.1, stops_head (head_append (r := str ";") rfl) h1.2.1, h1.2.2⟩
  have g1 := keyword_go (f := f) (k := k) hu hk (by simp) is
  have h2' : as.ok u k false false ([59] ++ post) := as.ok_head (r := str ";") rfl h2
  obtain ⟨n', o', _, g2⟩ := as.go (f := f) hu hd (l := .atrule) (i := 3) rfl (b := false) (by simp) (rest := [59] ++ post) (by simp) h2'
    (is := [.item .atruleKeyword (.text kw)]) (fs := [(.root, is ++ [.tok [64] .keyword])]) (n := 0) (o := false)
  refine ⟨.item .atruleKeyword (.text kw) :: as.items k f, [(.root, is ++ [.tok [64] .keyword])], n', o', ?_, by simp, ?_, by simp⟩
  · have := g1.trans g2
    simpa using this
  · simp only [closeN, closeF]
    have hf : failed (.item .atruleKeyword (.text kw) :: as.items k f ++ [.tok [59] .delimiter]) = false := by
      have : failed (.item .atruleKeyword (.text kw) :: as.items k f ++ [.tok [59] .delimiter]) =
        failed (as.items k f ++ [.tok [59] .delimiter]) := rfl
      rw [this, failed_append, as.not_failed]; rfl
    rw [done_ok _ (by decide) hf]
    show [(CL.root, _ ++ [BItm.item _ (atruleOf f (.item .atruleKeyword (.text kw) :: (as.items k f ++ [.tok [59] .delimiter])))])] = _
    have hl := atruleLoop_skip (f := f) (as.items k f ++ [.tok [59] .delimiter]) [.tok [59] .delimiter] (as.items k f) 0 (args_items as h2)
    have hl2 : atruleLoop f (as.items k f ++ [.tok [59] .delimiter]) (0 + (as.items k f).length) [.tok [59] .delimiter] = (.list (as.vals k f), .none) := by
      simp [atruleLoop, common_args as h2]
    simp [atruleOf, hl.trans hl2, Stmt.value]

theorem piece_atBlock (hu : u.Ascii) (hd : ∀ c, u.digit c = true → u.word c = true) (kw : List Nat) (as : Args) (b : Block)
    (ho : (Stmt.atBlock kw as b).ok u k false) :
    Piece u k f (64 :: (kw ++ as.text) ++ 123 :: b.text ++ [125]) [.tok [64] .keyword, .item .atrule ((Stmt.atBlock kw as b).value k f)] false := by
  obtain ⟨h1, h2, h3⟩ := ho
  refine piece_of (l := .atruleBlock) rfl (fun post => hits_close hu rfl post) (fun is post => ?_)
  have hk : Keyword u kw (as.text ++ (123 :: b.text ++ ([125] ++ post))) := ⟨h1.1, stops_head (head_append (r := str "{") rfl) h1.2.1, h1.2.2⟩
  have g1 := keyword_go (f := f) (k := k) hu hk (by simp) is
  have h2' : as.ok u k false false (123 :: b.text ++ ([125] ++ post)) := as.ok_head (r := str "{") rfl h2
  obtain ⟨n', o', _, g2⟩ := as.go (f := f) hu hd (l := .atrule) (i := 3) rfl (b := false) (by simp) (rest := 123 :: b.text ++ ([125] ++ post)) (by simp) h2'
    (is := [.item .atruleKeyword (.text kw)]) (fs := [(.root, is ++ [.tok [64] .keyword])]) (n := 0) (o := false)
  have g3 := s_target (f := f) (is := [.item .atruleKeyword (.text kw)] ++ as.items k f) (fs := [(.root, is ++ [.tok [64] .keyword])]) (n := n') (o := o')
    (hits hu (u := u) (k := k) (l := .atrule) (c := 123) (w := []) (post := b.text ++ ([125] ++ post)) 0 [] rfl (fun _ => rfl) (by decide) (by decide +kernel) (by simp)
      (pbest_str [123] _)) (by simp)
  obtain ⟨n2, o2, g4⟩ := b.go (f := f) hu hd (l := .atruleBlock) (Or.inr rfl) (rest := post) h3 (is := [])
    (fs := [(.atrule, [.item .atruleKeyword (.text kw)] ++ as.items k f ++ [.tok [123] .bracket]), (.root, is ++ [.tok [64] .keyword])])
    (n := 1) (o := true)
  simp only [closeN] at g3
  refine ⟨b.items k f, [(.atrule, [.item .atruleKeyword (.text kw)] ++ as.items k f ++ [.tok [123] .bracket]), (.root, is ++ [.tok [64] .keyword])], n2, o2, ?_, by simp, ?_, by simp⟩
  · have := ((g1.trans g2).trans g3).trans g4
    simpa using this
  · simp only [closeN, closeF]
    rw [done_ok (l := .atruleBlock) _ (by decide) (by rw [failed_append, b.not_failed]; rfl)]
    have hb : methOf k f .atruleBlock (b.items k f ++ [.tok [125] .bracket]) = b.value k f := b.inline_eq
    rw [hb]
    have hf : failed ([.item .atruleKeyword (.text kw)] ++ as.items k f ++ [.tok [123] .bracket] ++ [.item .atruleBlock (b.value k f)]) = false := by
      rw [failed_append, failed_append, failed_append, as.not_failed]; rfl
    rw [done_ok _ (by decide) hf]
    have hl := atruleLoop_skip (f := f) (as.items k f ++ [.tok [123] .bracket, .item .atruleBlock (b.value k f)])
      [.tok [123] .bracket, .item .atruleBlock (b.value k f)] (as.items k f) 0 (args_items as h2)
    have hl2 : atruleLoop f (as.items k f ++ [.tok [123] .bracket, .item .atruleBlock (b.value k f)]) (0 + (as.items k f).length)
        [.tok [123] .bracket, .item .atruleBlock (b.value k f)] = (.list (as.vals k f), b.value k f) := by
      simp [atruleLoop, common_args as h2]
    simp [methOf, atruleOf, hl.trans hl2, Stmt.value]

end Parce.CssL

import Verif.Lemmas.CssPat
/-!
# Values in CSS texts
-/
namespace Parce.CssL
open Parce.Json (Uni str)
variable {Q K : Type} {u : Uni} {k : Words} {f : Funcs Q K}

theorem done_eq {l : CL} (is : List (Itm Q K)) (h : l ≠ .comment) :
    done (method k f) l is = [.item l (if failed is then .error else methOf k f l is)] := by
  simp only [done, method, if_neg h]

theorem done_ok {l : CL} (is : List (Itm Q K)) (h : l ≠ .comment) (hf : failed is = false) :
    done (method k f) l is = [.item l (methOf k f l is)] := by
  rw [done_eq is h, hf]; rfl

/-- Lexicons with the rules `common`: the number of the first one. -/
def argOff (l : CL) : Option Nat := match l with
  | .declaration => some 3
  | .function => some 2
  | .atrule => some 3
  | _ => none

theorem argOff_blank {l : CL} {i : Nat} (h : argOff l = some i) : blankLex l := by
  cases l <;> cases h
  · exact ⟨Or.inr ⟨13, rfl⟩, 5, rfl⟩
  · exact ⟨Or.inl (by simp [gapLex]), 5, rfl⟩
  · exact ⟨Or.inl (by simp [gapLex]), 4, rfl⟩

/-! ### Identifiers and functions -/

theorem url_fails {w post : List Nat} (hw : Ident u w) (hu : u.Ascii) (hs : Stops u post) (h : ¬ (w = str "url" ∧ post.head? = some 40)) :
    PFail (.cat (.grp 1 (chr "url")) (.grp 2 (chr "("))) (w ++ post) := by
  rintro t p ht q ⟨r, h1, h2⟩
  simp only [Pat.mat] at h1 h2
  obtain ⟨rfl, p1, e1⟩ := str_mat _ h1
  obtain ⟨_, p2, e2⟩ := str_mat _ h2
  have e3 : w ++ post = str "url" ++ (str "(" ++ p2) := by
    have : t.drop (p + (str "url").length) = p1 := drop_add e1
    rw [e2] at this
    rw [← ht, e1, ← this]
  have h40 : ¬ IsName u 40 := by
    unfold IsName
    rw [hu.word 40 (by decide)]
    decide
  have hn : ∀ c, IsLetter c → IsName u c := by
    intro c hc
    unfold IsLetter at hc
    refine Or.inl ?_
    rw [hu.word c (by omega)]
    simp only [Bool.or_eq_true, Bool.and_eq_true, decide_eq_true_eq, beq_iff_eq]
    omega
  have hu' : str "url" = [117, 114, 108] := rfl
  have hp' : str "(" = [40] := rfl
  rw [hu', hp'] at e3
  simp only [List.cons_append, List.nil_append] at e3
  match w, hw, e3 with
  | [], hw, _ => exact hw.ne rfl
  | [a], _, e3 =>
    simp only [List.cons_append, List.nil_append, List.cons.injEq] at e3
    exact (hs 114 (by rw [e3.2]; rfl)).1 (hn _ (by unfold IsLetter; omega))
  | [a, b], _, e3 =>
    simp only [List.cons_append, List.nil_append, List.cons.injEq] at e3
    exact (hs 108 (by rw [e3.2.2]; rfl)).1 (hn _ (by unfold IsLetter; omega))
  | [a, b, c], _, e3 =>
    simp only [List.cons_append, List.nil_append, List.cons.injEq] at e3
    obtain ⟨rfl, rfl, rfl, e⟩ := e3
    exact h ⟨rfl, by rw [e]; rfl⟩
  | a :: b :: c :: d :: w, hw, e3 =>
    simp only [List.cons_append, List.cons.injEq] at e3
    obtain ⟨rfl, rfl, rfl, rfl, e⟩ := e3
    exact h40 (hw.all 40 (by simp))

theorem hits_ident (hu : u.Ascii) {l : CL} {i : Nat} (hl : argOff l = some i) {w post : List Nat} (hw : Ident u w) (hs : Stops u post)
    (h : ¬ (w = str "url" ∧ post.head? = some 40)) : Hits u k l w post (identifierAct k w) (some ⟨0, [.identifier]⟩) := by
  have h1 : (rules u k l)[i + 8]? = some (ruleOf (namePat u) (identifierAct k) (some ⟨0, [.identifier]⟩)) := by
    cases l <;> cases hl <;> rfl
  have h2 : ∀ c < 128, startChar c = true → onlyAt l (i + 8) [i + 4, i + 6] c = true := by
    cases l <;> cases hl <;> decide +kernel
  refine hits_name hu (i + 8) [i + 4, i + 6] hw hs h1 h2 ?_
  intro j hj r hr
  have h4 : (rules u k l)[i + 4]? = some (rule (numberPat u) .number (some ⟨0, [.unit]⟩)) := by
    cases l <;> cases hl <;> rfl
  have h6 : (rules u k l)[i + 6]? = some (rule (.cat (.grp 1 (chr "url")) (.grp 2 (chr "("))) .urlGroups (some ⟨0, [.urlFunction]⟩)) := by
    cases l <;> cases hl <;> rfl
  simp only [List.mem_cons, List.not_mem_nil, or_false] at hj
  rcases hj with rfl | rfl
  · rw [h4] at hr
    cases hr
    exact number_fails hu hw
  · rw [h6] at hr
    cases hr
    exact url_fails hw hu hs h

theorem plain_ident (w : List Nat) : plain (identifierAct k w) = true := by
  unfold identifierAct
  split
  · rfl
  · split <;> rfl

theorem misses_ident {rest : List Nat} (hs : Stops u rest) (h : rest.head? ≠ some 40) : Misses u k .identifier rest := by
  refine misses_of ?_
  intro r hr
  simp only [rules, identRules, List.mem_cons, List.not_mem_nil, or_false] at hr
  rcases hr with rfl | rfl | rfl
  · exact pfail_chr h
  · exact pfail_escape hs.not_escape
  · exact pfail_name hs

theorem go_start (hu : u.Ascii) {l : CL} {i : Nat} (hl : argOff l = some i) {w post : List Nat} (hw : Ident u w) (hs : Stops u post)
    (h : ¬ (w = str "url" ∧ post.head? = some 40)) {is : List (Itm Q K)} {fs : List (Fr Q K)} {n : Nat} {o : Bool} :
    Go u k f ⟨w ++ post, (l, is) :: fs, n, o⟩ ⟨post, (.identifier, [.tok w (identifierAct k w)]) :: (l, is) :: fs, 0, true⟩ :=
  s_consume (ls := []) (hits_ident hu hl hw hs h) rfl (plain_ident w)

theorem not_escape (w : List Nat) : identifierAct k w ≠ .escape := by
  unfold identifierAct
  split
  · decide
  · split <;> decide

theorem not_delim (w : List Nat) : isDelimiter (identifierAct k w) = false := by
  unfold identifierAct
  split
  · decide
  · split <;> decide

theorem identToken_name (w : List Nat) : identToken f [.tok w (identifierAct k w)] = some (w, if isName (identifierAct k w) then some (identifierAct k w) else none) := by
  simp [identToken, not_escape, not_delim]

theorem identifier_name (w : List Nat) (h : w ≠ str "transparent" ∨ k.isColor w = true) :
    methOf k f .identifier [.tok w (identifierAct k w)] =
      if k.isColor w ∨ w = str "transparent" then Value (color := some (f.named w)) (text := some w) else Value (text := some w) := by
  simp only [methOf, identifierOf, identToken_name, List.getLast?_singleton]
  have hc : isName .color = false := rfl
  by_cases hk : k.isColor w = true
  · simp [hk]
  · have ht : w ≠ str "transparent" := by
      rcases h with h | h
      · exact h
      · exact absurd h hk
    simp [identifierAct, hk, ht, isName]

theorem go_ident (hu : u.Ascii) {l : CL} {i : Nat} (hl : argOff l = some i) {w post : List Nat} (hw : Ident u w) (hs : Stops u post)
    (h40 : post.head? ≠ some 40) (hc : w ≠ str "transparent" ∨ k.isColor w = true) (hp : post ≠ [])
    {is : List (Itm Q K)} {fs : List (Fr Q K)} {n : Nat} {o : Bool} :
    Go u k f ⟨w ++ post, (l, is) :: fs, n, o⟩ ⟨post, (l, is ++ ((Arg.ident w).vals k f).map (.item .identifier)) :: fs, 0, false⟩ := by
  have h1 := go_start (k := k) (f := f) (is := is) (fs := fs) (n := n) (o := o) hu hl hw hs (fun h => h40 h.2)
  have h2 := h1.trans (s_pop (misses_ident hs h40) hp)
  rw [done_ok _ (by decide) rfl, identifier_name w hc] at h2
  simpa [Arg.vals] using h2

/-! ### Numbers -/

theorem hits_number (hu : u.Ascii) {l : CL} {i : Nat} (hl : argOff l = some i) {w post : List Nat} (hw : NumText w) (hp : NumEnd u post) :
    Hits u k l w post .number (some ⟨0, [.unit]⟩) := by
  have h1 : (rules u k l)[i + 4]? = some (rule (numberPat u) .number (some ⟨0, [.unit]⟩)) := by
    cases l <;> cases hl <;> rfl
  have h2 : ∀ c < 128, (IsDigit c ∨ c = 43 ∨ c = 45 ∨ c = 46) → onlyAt l (i + 4) [] c = true := by
    have : ∀ c < 128, ((48 ≤ c && c ≤ 57) || c == 43 || c == 45 || c == 46) = true → onlyAt l (i + 4) [] c = true := by
      cases l <;> cases hl <;> decide +kernel
    intro c hc h
    refine this c hc ?_
    unfold IsDigit at h
    simp only [Bool.or_eq_true, Bool.and_eq_true, decide_eq_true_eq, beq_iff_eq]
    omega
  obtain ⟨c, r, rfl, h3, h4⟩ := hw.first
  exact hits hu (i + 4) [] h1 (fun _ => rfl) h3 (h2 c h3 h4) (by simp) (pbest_number hu hw hp)

theorem go_number (hu : u.Ascii) {l : CL} {i : Nat} (hl : argOff l = some i) {w post : List Nat} (hw : NumText w) (hp : NumEnd u post)
    {is : List (Itm Q K)} {fs : List (Fr Q K)} {n : Nat} {o : Bool} :
    Go u k f ⟨w ++ post, (l, is) :: fs, n, o⟩ ⟨post, (.unit, []) :: (l, is ++ [.tok w .number]) :: fs, 1, true⟩ :=
  s_target (hits_number hu hl hw hp) (Nat.zero_le _)

theorem exp_fails {rest : List Nat} (h : ∀ c, rest.head? = some c → c ≠ 69 ∧ c ≠ 101) : PFail (expPat u) rest := by
  refine pfail_cat (pfail_set ?_)
  intro c hc
  simp [h c hc]

theorem numEnd_stops (hu : u.Ascii) (hd : ∀ c, u.digit c = true → u.word c = true) {rest : List Nat} (hs : Stops u rest) (h : rest.head? ≠ some 46) :
    NumEnd u rest := by
  refine ⟨fun c hc => ?_, h, exp_fails fun c hc => ?_⟩
  · cases hdc : u.digit c with
    | false => rfl
    | true => exact absurd (Or.inl (hd c hdc)) (hs c hc).1
  · have := (hs c hc).1
    unfold IsName at this
    constructor <;> rintro rfl
    · rw [hu.word 69 (by decide)] at this
      simp at this
    · rw [hu.word 101 (by decide)] at this
      simp at this

theorem ascii_digit (hu : u.Ascii) {c : Nat} (hc : c < 128) (h : ¬ IsDigit c) : u.digit c = false := by
  rw [hu.digit c hc]
  unfold IsDigit at h
  simp only [Bool.and_eq_false_iff, decide_eq_false_iff_not]
  omega

theorem numEnd_percent (hu : u.Ascii) (rest : List Nat) : NumEnd u (37 :: rest) := by
  refine ⟨fun c hc => ?_, by simp, exp_fails fun c hc => ?_⟩ <;> obtain rfl : 37 = c := Option.some.inj hc
  · exact ascii_digit hu (by decide) (by unfold IsDigit; omega)
  · decide

theorem numEnd_unit (hu : u.Ascii) {x rest : List Nat} (hx : x ≠ []) (hl : ∀ c ∈ x, IsLetter c) (hs : Stops u rest) (h : rest.head? ≠ some 43) :
    NumEnd u (x ++ rest) := by
  obtain ⟨a, x, rfl⟩ := List.exists_cons_of_ne_nil hx
  have ha := hl a (by simp)
  unfold IsLetter at ha
  refine ⟨fun c hc => ?_, ?_, ?_⟩
  · obtain rfl : a = c := Option.some.inj hc
    exact ascii_digit hu (by omega) (by unfold IsDigit; omega)
  · intro hc
    obtain rfl : a = 46 := Option.some.inj hc
    omega
  · refine pfail_cat_set (pfail_cat (pfail_set ?_))
    intro c hc
    simp only [sign, Bool.or_eq_false_iff, beq_eq_false_iff_ne]
    cases x with
    | nil =>
      refine ⟨?_, ?_⟩ <;> rintro rfl
      · exact h hc
      · exact (hs 45 hc).1 (Or.inr rfl)
    | cons b x =>
      obtain rfl : b = c := Option.some.inj hc
      have := hl b (by simp)
      unfold IsLetter at this
      omega

theorem unit_ident (hu : u.Ascii) {x : List Nat} (hx : x ≠ []) (hl : ∀ c ∈ x, IsLetter c) : Ident u x := by
  refine ⟨?_, ?_⟩
  · obtain ⟨a, x, rfl⟩ := List.exists_cons_of_ne_nil hx
    exact ⟨a, x, rfl, Or.inl (hl a (by simp))⟩
  · intro c hc
    have := hl c hc
    unfold IsLetter at this
    refine Or.inl ?_
    rw [hu.word c (by omega)]
    simp only [Bool.or_eq_true, Bool.and_eq_true, decide_eq_true_eq, beq_iff_eq]
    omega

theorem misses_unit {rest : List Nat} (hs : Stops u rest) (h : rest.head? ≠ some 37) : Misses u k .unit rest := by
  refine misses_of ?_
  intro r hr
  simp only [rules, identRules, List.mem_cons, List.not_mem_nil, or_false] at hr
  rcases hr with rfl | rfl | rfl
  · exact pfail_chr h
  · exact pfail_escape hs.not_escape
  · exact pfail_name hs

theorem word_percent (hu : u.Ascii) : nameChar u 37 = false := by
  unfold nameChar
  rw [hu.word 37 (by decide)]
  decide

theorem identToken_tok {w : List Nat} {a : CA} (h1 : a ≠ .escape) (h2 : isDelimiter a = false) :
    identToken f [.tok w a] = some (w, if isName a then some a else none) := by
  simp [identToken, h1, h2]

/-- The items for a number with its unit. -/
def numItems (w : List Nat) : NUnit → List (Itm Q K)
  | .none => [.tok w .number]
  | .percent => [.tok w .number, .item .unit (.text (str "%"))]
  | .word x => [.tok w .number, .item .unit (.text x)]

theorem go_num (hu : u.Ascii) (hd : ∀ c, u.digit c = true → u.word c = true) {l : CL} {i : Nat} (hl : argOff l = some i) {w rest : List Nat} {un : NUnit} {b : Bool}
    (h : (Arg.num w un).ok u k false b rest) (hr : rest ≠ [])
    {is : List (Itm Q K)} {fs : List (Fr Q K)} {n : Nat} {o : Bool} :
    ∃ o', Go u k f ⟨w ++ un.text ++ rest, (l, is) :: fs, n, o⟩ ⟨rest, (l, is ++ numItems w un) :: fs, 0, o'⟩ := by
  rw [List.append_assoc]
  cases un with
  | none =>
    simp only [Arg.ok] at h
    obtain ⟨h1, h2, h3, h4⟩ := h
    exact ⟨false, (go_number hu hl h1 (numEnd_stops hu hd h2 h4)).trans (s_pop_fresh (misses_unit h2 h3) hr)⟩
  | percent =>
    simp only [Arg.ok] at h
    refine ⟨true, (go_number hu hl h (numEnd_percent hu rest)).trans ?_⟩
    have := s_target (f := f) (is := []) (n := 1) (o := true) (fs := (l, is ++ [.tok w .number]) :: fs) (tg := ⟨1, []⟩)
      (hits hu (l := .unit) (k := k) (c := 37) (w := []) (post := rest) (r := rule (chr "%") .percent (some ⟨1, []⟩)) (a := .percent) 0 [] rfl (fun _ => rfl)
        (by decide) (by decide +kernel) (by simp) (pbest_str [37] rest)) (by simp)
    simpa [closeN, closeF, done, method, failed, methOf, unitOf, numItems, str] using this
  | word x =>
    simp only [Arg.ok] at h
    obtain ⟨h1, h2, h3, h4, h5, h6⟩ := h
    have hx := unit_ident hu h2 h3
    refine ⟨false, (go_number hu hl h1 (numEnd_unit hu h2 h3 h4 h5)).trans ?_⟩
    have s1 := s_tok (f := f) (k := k) (is := []) (n := 1) (o := true) (fs := (l, is ++ [.tok w .number]) :: fs)
      (hits_name hu (l := .unit) 2 [] (a := fun _ => .unit) (tg := none) hx h4 rfl (by decide +kernel) (by simp))
    have hne : x ≠ [37] := by
      rintro rfl
      have := h3 37 (by simp)
      unfold IsLetter at this
      omega
    have hm : methOf k f .unit [.tok x .unit] = .text x := by
      simp only [methOf]
      unfold unitOf
      split
      · next heq => simp only [List.cons.injEq, BItm.tok.injEq] at heq; exact absurd heq.1.1 hne
      · simp [identText, identToken, isDelimiter]
    have s2 := s1.trans (s_pop (misses_unit h4 h6) hr)
    rw [done_ok _ (by decide) (by rfl)] at s2
    simp only [List.nil_append, hm] at s2
    simpa [numItems] using s2

/-! ### Colours, commas and operators -/

theorem go_color (hu : u.Ascii) {l : CL} {i : Nat} (hl : argOff l = some i) {w rest : List Nat} (h1 : ∀ c ∈ w, IsHexDigit c)
    (h2 : w.length = 3 ∨ w.length = 4 ∨ w.length = 6 ∨ w.length = 8) (hs : Stops u rest)
    {is : List (Itm Q K)} {fs : List (Fr Q K)} {n : Nat} {o : Bool} :
    Go u k f ⟨str "#" ++ w ++ rest, (l, is) :: fs, n, o⟩ ⟨rest, (l, is ++ [.tok (str "#" ++ w) .color]) :: fs, 0, true⟩ := by
  have h3 : (rules u k l)[i + 5]? = some (rule colorPat .color) := by
    cases l <;> cases hl <;> rfl
  have h4 : onlyAt l (i + 5) [] 35 = true := by
    cases l <;> cases hl <;> decide +kernel
  refine s_tok (hits hu (c := 35) (w := w) (i + 5) [] h3 (fun _ => rfl) (by decide) h4 (by simp) (pbest_color h1 h2 ?_))
  intro c hc
  have := (hs c hc).1
  cases hh : isHex c with
  | false => rfl
  | true =>
    refine absurd (Or.inl ?_) this
    have := hex_iff.1 hh
    unfold IsHexDigit IsDigit at this
    rw [hu.word c (by omega)]
    simp only [Bool.or_eq_true, Bool.and_eq_true, decide_eq_true_eq, beq_iff_eq]
    omega

theorem go_comma (hu : u.Ascii) {l : CL} {i : Nat} (hl : argOff l = some i) {rest : List Nat}
    {is : List (Itm Q K)} {fs : List (Fr Q K)} {n : Nat} {o : Bool} :
    Go u k f ⟨str "," ++ rest, (l, is) :: fs, n, o⟩ ⟨rest, (l, is ++ [.tok (str ",") .delimiter]) :: fs, 0, true⟩ := by
  have h3 : (rules u k l)[i + 9]? = some (rule (.set fun c => (str ":,;@%!").contains c) .delimiter) := by
    cases l <;> cases hl <;> rfl
  have h4 : onlyAt l (i + 9) [] 44 = true := by
    cases l <;> cases hl <;> decide +kernel
  exact s_tok (hits hu (c := 44) (w := []) (i + 9) [] h3 (fun _ => rfl) (by decide) h4 (by simp) (pbest_set rfl))

theorem numTail_fails' {rest : List Nat} (h : ∀ c, rest.head? = some c → u.digit c = false ∧ c ≠ 46) : PFail (numTail u) rest := by
  refine pfail_can ?_
  cases hr : rest.head? with
  | none => simp [numTail, Pat.can, Pat.opt, Pat.plus, Pat.nul]
  | some c =>
    obtain ⟨hd, h3⟩ := h c hr
    simp [numTail, Pat.can, Pat.opt, Pat.plus, Pat.nul, Pat.fst, hd, chr, Pat.str, Pat.chr, str, h3]

theorem go_op (hu : u.Ascii) {c : Nat} {rest : List Nat} (h : c = 42 ∨ (c = 43 ∧ ∀ d, rest.head? = some d → u.digit d = false ∧ d ≠ 46) ∨
      (c = 47 ∧ rest.head? ≠ some 42))
    {is : List (Itm Q K)} {fs : List (Fr Q K)} {n : Nat} {o : Bool} :
    Go u k f ⟨[c] ++ rest, (.function, is) :: fs, n, o⟩ ⟨rest, (.function, is ++ [.tok [c] .operator]) :: fs, 0, true⟩ := by
  rcases h with rfl | ⟨rfl, h⟩ | ⟨rfl, h⟩
  · exact s_tok (hits hu (l := .function) (r := rule (.set fun c => (str "*/+-").contains c) .operator) (c := 42) (w := []) 12 [] rfl (fun _ => rfl)
      (by decide) (by decide +kernel) (by simp) (pbest_set rfl))
  · refine s_tok (hits hu (l := .function) (r := rule (.set fun c => (str "*/+-").contains c) .operator) (c := 43) (w := []) 12 [6] rfl (fun _ => rfl)
      (by decide) (by decide +kernel) ?_ (pbest_set rfl))
    intro j hj r hr
    simp only [List.mem_cons, List.not_mem_nil, or_false] at hj
    subst hj
    have : r = rule (numberPat u) .number (some ⟨0, [.unit]⟩) := (Option.some.inj hr).symm
    subst this
    refine pfail_opt_cat (b := numTail u) (numTail_fails hu ?_) (numTail_fails' h)
    intro c hc
    obtain rfl : 43 = c := Option.some.inj hc
    unfold IsDigit
    omega
  · refine s_tok (hits hu (l := .function) (r := rule (.set fun c => (str "*/+-").contains c) .operator) (c := 47) (w := []) 12 [4] rfl (fun _ => rfl)
      (by decide) (by decide +kernel) ?_ (pbest_set rfl))
    intro j hj r hr
    simp only [List.mem_cons, List.not_mem_nil, or_false] at hj
    subst hj
    have : r = rule (chr "/*") .comment (some ⟨0, [.comment]⟩) := (Option.some.inj hr).symm
    subst this
    refine pfail_str (fun post he => h ?_)
    have : rest = 42 :: post := (List.cons.inj he).2
    rw [this]; rfl

/-! ### Addresses -/

theorem url_best {post : List Nat} {t : List Nat} {p : Nat} (ht : t.drop p = str "url(" ++ post) :
    BestC t (.cat (.grp 1 (chr "url")) (.grp 2 (chr "("))) p (p + 4) [(2, p + 3, p + 4), (1, p, p + 3)] :=
  BestC.cat (Best.grp 1 (pbest_str (str "url") (str "(" ++ post) t p ht)) (Best.grp 2 (pbest_str (str "(") post t (p + 3) (by
    rw [← List.drop_drop, ht]; rfl)))

theorem go_urlStart (hu : u.Ascii) {l : CL} {i : Nat} (hl : argOff l = some i) {post : List Nat}
    {is : List (Itm Q K)} {fs : List (Fr Q K)} {n : Nat} {o : Bool} :
    Go u k f ⟨str "url(" ++ post, (l, is) :: fs, n, o⟩
      ⟨post, (.urlFunction, []) :: (l, is ++ [.tok (str "url") .name, .tok (str "(") .delimiter]) :: fs, 1, true⟩ := by
  intro t p ht hp
  simp only at ht
  have h3 : (rules u k l)[i + 6]? = some (rule (.cat (.grp 1 (chr "url")) (.grp 2 (chr "("))) .urlGroups (some ⟨0, [.urlFunction]⟩)) := by
    cases l <;> cases hl <;> rfl
  have h4 : onlyAt l (i + 6) [] 117 = true := by
    cases l <;> cases hl <;> decide +kernel
  have hg : t[p]? = some 117 := drop_get ht
  have hm := match_rule (rs := rules u k l) (t := t) h3 (leads_fail' [] (by rw [hg, leads_ascii hu (by decide)]; exact h4) (by simp)) (url_best ht) hp
  have hp := parse_match (noAct := CA.none) (dl := dflt l) hm h3
  have hs : slice t p (p + 4) = str "url(" := slice_here (w := str "url(") ht
  have hs1 : slice t p (p + 3) = str "url" := slice_here (w := str "url") (post := str "(" ++ post) ht
  have hs2 : slice t (p + 3) (p + 4) = str "(" := slice_here (w := str "(") (post := post) (by rw [← List.drop_drop, ht]; rfl)
  have he : (lang u k).expand ⟨p, str "url(", some ⟨p, p + 4, ⟨i + 6, Caps.rel p [(2, p + 3, p + 4), (1, p, p + 3)]⟩⟩, .urlGroups, some ⟨0, [.urlFunction]⟩⟩ =
      [⟨p, str "url", .name⟩, ⟨p + 3, str "(", .delimiter⟩] := by
    simp [lang, grpLang, groups, groupLexemes, groupLexeme, groupOf, Caps.rel, List.zipIdx, slice, str]
  refine ⟨p + 4, drop_add (w := str "url(") ht, drop_le (w := str "url(") ht (by decide), ?_⟩
  simp only [rule, hs] at hp
  have := i_target (lang := lang u k) (m := method k f) (l := l) (n := n) (is := is) (o := o) (fs := fs) hp rfl (by decide : str "url(" ≠ []) rfl
    (by rw [he]; simp) (Nat.zero_le _) rfl
  rw [he] at this
  exact this

theorem go_url (hu : u.Ascii) {l : CL} {i : Nat} (hl : argOff l = some i) {w rest : List Nat} (h1 : ∀ c ∈ w, c ≠ 41 ∧ c ≠ 34 ∧ c ≠ 39 ∧ c ≠ 92)
    (h2 : ∀ i, ¬ (w[i]? = some 47 ∧ w[i + 1]? = some 42))
    {is : List (Itm Q K)} {fs : List (Fr Q K)} {n : Nat} {o : Bool} :
    Go u k f ⟨str "url(" ++ w ++ str ")" ++ rest, (l, is) :: fs, n, o⟩
      ⟨rest, (l, is ++ [.tok (str "url") .name, .tok (str "(") .delimiter, .item .urlFunction (Value (url := some w))]) :: fs, 0, true⟩ := by
  have s1 := go_urlStart (k := k) (f := f) (is := is) (fs := fs) (n := n) (o := o) (post := w ++ str ")" ++ rest) hu hl
  have hc : Hits u k .urlFunction (str ")") rest .delimiter (some ⟨1, []⟩) :=
    hits hu (l := .urlFunction) (c := 41) (w := []) (r := rule (chr ")") .delimiter (some ⟨1, []⟩)) 0 [] rfl (fun _ => rfl)
        (by decide) (by decide +kernel) (by simp) (pbest_str [41] rest)
  have s3 : ∀ (js : List (Itm Q K)) n o, Go u k f ⟨str ")" ++ rest, (.urlFunction, js) :: (l, is ++ [.tok (str "url") .name, .tok (str "(") .delimiter]) :: fs, n, o⟩ _ :=
    fun js n o => s_target (tg := ⟨1, []⟩) hc (by simp)
  have s2 : ∃ n o, Go u k f ⟨w ++ str ")" ++ rest, (.urlFunction, []) :: (l, is ++ [.tok (str "url") .name, .tok (str "(") .delimiter]) :: fs, 1, true⟩
      ⟨str ")" ++ rest, (.urlFunction, if w = [] then [] else [.tok w .url]) :: (l, is ++ [.tok (str "url") .name, .tok (str "(") .delimiter]) :: fs, n, o⟩ := by
    by_cases hw : w = []
    · subst hw
      exact ⟨1, true, Go.refl _⟩
    · rw [if_neg hw]
      refine ⟨0, true, ?_⟩
      intro t p ht hp
      simp only [List.append_assoc] at ht
      obtain ⟨j, c, r, hm, _⟩ := hc.hit t (p + w.length) (drop_add ht)
      refine ⟨p + w.length, drop_add ht, drop_le ht hw, ?_⟩
      have := i_dflt (u := u) (k := k) (f := f) (l := .urlFunction) (a := .url) (n := 1) (o := true) (is := [])
        (fs := (l, is ++ [.tok (str "url") .name, .tok (str "(") .delimiter]) :: fs) rfl rfl ht hw ?_ hm
      · simpa using this
      · intro j hj1 hj2
        have hget : ∀ x, t[p + x]? = (w ++ (str ")" ++ rest))[x]? := fun x => by rw [← ht, List.getElem?_drop]
        obtain ⟨c, hcj⟩ : ∃ c, t[j]? = some c ∧ c ∈ w := by
          have h5 := hget (j - p)
          rw [show p + (j - p) = j by omega, List.getElem?_append_left (by omega), List.getElem?_eq_getElem (l := w) (by omega)] at h5
          exact ⟨_, h5, List.getElem_mem _⟩
        obtain ⟨c1, c2, c3, c4⟩ := h1 c hcj.2
        rintro ⟨a, ha, q, hq⟩
        simp only [pats, rules, rule, List.map_cons, List.map_nil, List.mem_cons, List.not_mem_nil, or_false] at ha
        have hcan := can_sound a j q hq
        rw [hcj.1] at hcan
        rcases ha with rfl | rfl | rfl | rfl | rfl
        · simp [chr, Pat.str, Pat.chr, Pat.can, str, c1] at hcan
        · simp [chr, Pat.str, Pat.chr, Pat.can, str, c2] at hcan
        · simp [chr, Pat.str, Pat.chr, Pat.can, str, c3] at hcan
        · obtain ⟨_, post, e⟩ := str_mat _ hq
          have e1 : t[j]? = some 47 := drop_get e
          have e2 : t[j + 1]? = some 42 := by
            have : t.drop (j + 1) = [42] ++ post := by rw [← List.drop_drop, e]; rfl
            exact drop_get this
          refine h2 (j - p) ⟨?_, ?_⟩
          · have h5 := hget (j - p)
            rw [show p + (j - p) = j by omega, List.getElem?_append_left (by omega), e1] at h5
            exact h5.symm
          · have h5 := hget (j - p + 1)
            rw [show p + (j - p + 1) = j + 1 by omega, e2] at h5
            by_cases hlt : j - p + 1 < w.length
            · rw [List.getElem?_append_left hlt] at h5
              exact h5.symm
            · rw [List.getElem?_append_right (by omega), show j - p + 1 - w.length = 0 by omega] at h5
              cases h5
        · simp [escapePat, chr, Pat.str, Pat.chr, Pat.can, Pat.nul, str, c4] at hcan
  obtain ⟨n', o', s2⟩ := s2
  have := s1.trans (by simpa using s2.trans (s3 _ n' o'))
  rw [closeN, closeN, closeF] at this
  rw [done_ok _ (by decide) (by split <;> rfl)] at this
  have hm : methOf k f .urlFunction ((if w = [] then [] else [.tok w .url]) ++ [.tok (str ")") .delimiter]) = Value (url := some w) := by
    by_cases hw : w = []
    · subst hw; rfl
    · simp [if_neg hw, methOf, urlFunctionOf, urlParts]
  rw [hm] at this
  simpa using this

/-! ### Items of values -/

/-- The items for a part of a value. -/
def Arg.items (k : Words) (f : Funcs Q K) : Arg → List (Itm Q K)
  | .ident w => ((Arg.ident w).vals k f).map (.item .identifier)
  | .num w un => numItems w un
  | .color w => [.tok (Json.str "#" ++ w) .color]
  | .func n as => ((Arg.func n as).vals k f).map (.item .identifier)
  | .url w => [.tok (Json.str "url") .name, .tok (Json.str "(") .delimiter, .item .urlFunction (Value (url := some w))]
  | .str _ => []
  | .comma => [.tok (Json.str ",") .delimiter]
  | .op c => [.tok [c] .operator]
  | .gap bs => bitems bs

def Args.items (k : Words) (f : Funcs Q K) : Args → List (Itm Q K)
  | .nil => []
  | .cons a as => a.items k f ++ as.items k f

/-- The items do not start with a unit. -/
def NoUnit (is : List (Itm Q K)) : Prop := ∀ o r, is ≠ .item .unit o :: r

theorem loop_unit {w : List Nat} {is : List (Itm Q K)} (h : NoUnit is) :
    commonLoop f (.unit w) is = Value (text := some w) (number := some (f.num w)) :: commonLoop f .any is := by
  cases is with
  | nil => rfl
  | cons i is =>
    rw [commonLoop]
    · simp [commonLoop, Await.flush]
    · simp
    · rintro _ o _ rfl
      exact h o is rfl

theorem loop_any (i : Itm Q K) (is : List (Itm Q K)) :
    commonLoop f .any (i :: is) = (commonItem f i).1 ++ commonLoop f (commonItem f i).2 is := by
  rw [commonLoop] <;> simp [Await.flush]

theorem loop_blanks (bs : Blanks) (is : List (Itm Q K)) : commonLoop f .any (bitems bs ++ is) = commonLoop f .any is := by
  induction bs with
  | nil => rfl
  | cons b bs ih =>
    cases b with
    | ws c => exact ih
    | comment w =>
      show commonLoop f .any (.tok (str "/*") .comment :: (bitems bs ++ is)) = _
      rw [loop_any, ← ih]
      rfl

theorem noUnit_nil : NoUnit ([] : List (Itm Q K)) := by rintro o r ⟨⟩

theorem noUnit_tok (w : List Nat) (a : CA) (is : List (Itm Q K)) : NoUnit (.tok w a :: is) := by rintro o r ⟨⟩

theorem noUnit_item {l : CL} (hl : l ≠ .unit) (v : CV Q K) (is : List (Itm Q K)) : NoUnit (.item l v :: is) := by
  rintro o r h
  simp only [List.cons.injEq, BItm.item.injEq] at h
  exact hl h.1.1

theorem noUnit_blanks (bs : Blanks) {is : List (Itm Q K)} (h : NoUnit is) : NoUnit (bitems bs ++ is) := by
  induction bs with
  | nil => exact h
  | cons b bs ih =>
    cases b with
    | ws c => exact ih
    | comment w => exact noUnit_tok _ _ _

theorem Arg.noUnit (a : Arg) {is : List (Itm Q K)} (h : NoUnit is) : NoUnit (a.items k f ++ is) := by
  cases a with
  | ident w => exact noUnit_item (l := .identifier) (by decide) _ _
  | num w un => cases un <;> exact noUnit_tok _ _ _
  | color w => exact noUnit_tok _ _ _
  | func n as => simp only [Arg.items, Arg.vals]; exact noUnit_item (l := .identifier) (by decide) _ _
  | url w => exact noUnit_tok _ _ _
  | str w => exact h
  | comma => exact noUnit_tok _ _ _
  | op c => exact noUnit_tok _ _ _
  | gap bs => exact noUnit_blanks bs h

theorem Args.noUnit : ∀ (as : Args) {is : List (Itm Q K)}, NoUnit is → NoUnit (as.items k f ++ is)
  | .nil, _, h => h
  | .cons a as, is, h => by
    rw [Args.items, List.append_assoc]
    exact a.noUnit (as.noUnit h)

theorem Arg.loop (a : Arg) {b : Bool} {rest : List Nat} (ho : a.ok u k false b rest) {is : List (Itm Q K)} (h : NoUnit is) :
    commonLoop f .any (a.items k f ++ is) = a.vals k f ++ commonLoop f .any is := by
  cases a with
  | ident w => simp only [Arg.items, Arg.vals, List.map_cons, List.map_nil, List.cons_append, List.nil_append]; rw [loop_any]; rfl
  | num w un =>
    cases un with
    | none =>
      simp only [Arg.items, numItems, List.cons_append, List.nil_append]
      rw [loop_any]
      exact loop_unit h
    | percent =>
      simp only [Arg.items, numItems, List.cons_append, List.nil_append]
      rw [loop_any]
      simp [commonItem, commonLoop, Arg.vals, NUnit.name, CV.str?]
    | word x =>
      simp only [Arg.items, numItems, List.cons_append, List.nil_append]
      rw [loop_any]
      simp [commonItem, commonLoop, Arg.vals, NUnit.name, CV.str?]
  | color w => simp only [Arg.items, List.cons_append, List.nil_append]; rw [loop_any]; simp [commonItem, Arg.vals, Json.str]
  | func n as => simp only [Arg.items, Arg.vals, List.map_cons, List.map_nil, List.cons_append, List.nil_append]; rw [loop_any]; rfl
  | url w =>
    simp only [Arg.items, List.cons_append, List.nil_append]
    rw [loop_any]
    have e1 : commonItem f (.tok (Json.str "url") .name : Itm Q K) = ([], .paren) := rfl
    rw [e1]
    simp only [List.nil_append]
    rw [commonLoop, loop_any]
    rfl
  | str w => simp [Arg.ok] at ho
  | comma => simp only [Arg.items, List.cons_append, List.nil_append]; rw [loop_any]; rfl
  | op c => simp only [Arg.items, List.cons_append, List.nil_append]; rw [loop_any]; rfl
  | gap bs => exact loop_blanks bs is

theorem Args.loop : ∀ (as : Args) {b : Bool} {rest : List Nat}, as.ok u k false b rest → ∀ {is : List (Itm Q K)}, NoUnit is →
    commonLoop f .any (as.items k f ++ is) = as.vals k f ++ commonLoop f .any is
  | .nil, _, _, _, _, _ => rfl
  | .cons a as, b, rest, ho, is, h => by
    simp only [Args.ok] at ho
    rw [Args.items, List.append_assoc, a.loop ho.1 (as.noUnit h), as.loop ho.2 h, Args.vals, List.append_assoc]

theorem failed_append (is js : List (Itm Q K)) : failed (is ++ js) = (failed is || failed js) := by
  simp [failed]

theorem failed_blanks (bs : Blanks) : failed (bitems bs : List (Itm Q K)) = false := by
  induction bs with
  | nil => rfl
  | cons b bs ih =>
    cases b with
    | ws c => exact ih
    | comment w => exact ih

theorem Arg.not_failed (a : Arg) : failed (a.items k f) = false := by
  cases a with
  | ident w => simp only [Arg.items, Arg.vals]; split <;> rfl
  | num w un => cases un <;> rfl
  | func n as => simp only [Arg.items, Arg.vals]; split <;> rfl
  | gap bs => exact failed_blanks bs
  | _ => rfl

theorem Args.not_failed : ∀ as : Args, failed (as.items k f) = false
  | .nil => rfl
  | .cons a as => by rw [Args.items, failed_append, a.not_failed, as.not_failed]; rfl

/-! ### Going over values -/

theorem stops_paren (hu : u.Ascii) (rest : List Nat) : Stops u (40 :: rest) := by
  intro c hc
  obtain rfl : 40 = c := Option.some.inj hc
  refine ⟨?_, by decide⟩
  unfold IsName
  rw [hu.word 40 (by decide)]
  decide

theorem functionCall_eq {n : List Nat} (hn : n ≠ str "url") (as : Args) : functionCall f n (as.vals k f) = (if n = Json.str "rgb" ∨ n = Json.str "rgba" then
    Value (color := some (f.rgba (as.vals k f))) else Value (func := some n) (args := as.vals k f)) := by
  simp only [functionCall, if_neg hn]

mutual
theorem Arg.go (hu : u.Ascii) (hd : ∀ c, u.digit c = true → u.word c = true) : ∀ (a : Arg) {l : CL} {i : Nat} (_ : argOff l = some i) {b : Bool}
    (_ : b = true → l = .function) {rest : List Nat} (_ : rest ≠ []) (_ : a.ok u k false b rest) {is : List (Itm Q K)} {fs : List (Fr Q K)} {n : Nat} {o : Bool},
    ∃ n' o', n' ≤ n ∧ Go u k f ⟨a.text ++ rest, (l, is) :: fs, n, o⟩ ⟨rest, (l, is ++ a.items k f) :: fs, n', o'⟩
  | .ident w, l, i, hl, b, hb, rest, hr, ho, is, fs, n, o => by
    simp only [Arg.ok] at ho
    obtain ⟨h1, h2, h3, h4⟩ := ho
    exact ⟨0, false, Nat.zero_le _, go_ident hu hl h1 h2 h3 (by simpa using h4) hr⟩
  | .num w un, l, i, hl, b, hb, rest, hr, ho, is, fs, n, o => by
    obtain ⟨o', h⟩ := go_num (k := k) (f := f) (is := is) (fs := fs) (n := n) (o := o) hu hd hl ho hr
    exact ⟨0, o', Nat.zero_le _, h⟩
  | .color w, l, i, hl, b, hb, rest, hr, ho, is, fs, n, o => by
    simp only [Arg.ok] at ho
    exact ⟨0, true, Nat.zero_le _, go_color hu hl ho.1 ho.2.1 ho.2.2⟩
  | .func nm as, l, i, hl, b, hb, rest, hr, ho, is, fs, n, o => by
    simp only [Arg.ok] at ho
    obtain ⟨h1, h2, h3⟩ := ho
    have s1 := go_start (k := k) (f := f) (is := is) (fs := fs) (n := n) (o := o) (post := str "(" ++ (as.text ++ (str ")" ++ rest))) hu hl h1
      (stops_paren hu _) (fun h => h2 h.1)
    have s2 := s1.trans (s_target (tg := ⟨0, [.function]⟩) (hits hu (l := .identifier) (c := 40) (w := []) (post := as.text ++ (str ")" ++ rest))
      (r := rule (chr "(") .delimiter (some ⟨0, [.function]⟩)) (a := .delimiter) 0 [] rfl (fun _ => rfl)
        (by decide) (by decide +kernel) (by simp) (pbest_str [40] _)) (Nat.zero_le _))
    obtain ⟨n', o', _, s3⟩ := as.go hu hd (l := .function) rfl (fun _ => rfl) (rest := str ")" ++ rest) (by simp [str]) h3 (is := [])
      (fs := (.identifier, [.tok nm (identifierAct k nm), .tok (str "(") .delimiter]) :: (l, is) :: fs) (n := 1) (o := true)
    have s4 := s_target (f := f) (is := as.items k f) (fs := (.identifier, [.tok nm (identifierAct k nm), .tok (str "(") .delimiter]) :: (l, is) :: fs) (n := n') (o := o')
      (tg := ⟨2, []⟩) (hits hu (l := .function) (k := k) (c := 41) (w := []) (post := rest)
      (r := rule (chr ")") .delimiter (some ⟨2, []⟩)) (a := .delimiter) 0 [] rfl (fun _ => rfl)
        (by decide) (by decide +kernel) (by simp) (pbest_str [41] _)) (by simp)
    have hf : failed (as.items k f ++ [.tok [41] .delimiter]) = false := by rw [failed_append, as.not_failed]; rfl
    have hm : methOf k f .function (as.items k f ++ [.tok [41] .delimiter]) = .list (as.vals k f) := by
      have he : endsWith 41 (as.items k f ++ [.tok [41] .delimiter]) = true := by simp [endsWith]
      have := as.loop (f := f) (is := []) h3 noUnit_nil
      simp only [List.append_nil] at this
      simp only [methOf, functionOf, he, if_true, List.dropLast_concat, common, this]
      simp [commonLoop, Await.flush]
    have hm2 : methOf k f .identifier ([.tok nm (identifierAct k nm), .tok [40] .delimiter] ++ [.item .function (.list (as.vals k f))]) =
        (if nm = Json.str "rgb" ∨ nm = Json.str "rgba" then Value (color := some (f.rgba (as.vals k f))) else Value (func := some nm) (args := as.vals k f)) := by
      have hd : isDelimiter .delimiter = true := rfl
      have ht : identToken f ([.tok nm (identifierAct k nm), .tok [40] .delimiter] ++ [.item .function (.list (as.vals k f))]) =
          some (nm, if isName (identifierAct k nm) then some (identifierAct k nm) else none) := by
        simp [identToken, not_escape, not_delim, hd]
      have hl : ([.tok nm (identifierAct k nm), .tok [40] .delimiter] ++ [.item .function (.list (as.vals k f))] : List (Itm Q K)).getLast? =
          some (.item .function (.list (as.vals k f))) := by simp
      simp only [methOf, identifierOf, ht, hl]
      exact functionCall_eq h2 as
    have s5 := s2.trans (by simpa [str, closeN] using s3.trans s4)
    simp only [closeF] at s5
    rw [done_ok _ (by decide) hf, hm, done_ok _ (by decide) (by rfl), hm2] at s5
    refine ⟨0, true, Nat.zero_le _, ?_⟩
    simpa [Arg.text, Arg.items, Arg.vals, str] using s5
  | .url w, l, i, hl, b, hb, rest, hr, ho, is, fs, n, o => by
    simp only [Arg.ok] at ho
    exact ⟨0, true, Nat.zero_le _, go_url hu hl ho.1 ho.2⟩
  | .str w, l, i, hl, b, hb, rest, hr, ho, is, fs, n, o => by
    simp [Arg.ok] at ho
  | .comma, l, i, hl, b, hb, rest, hr, ho, is, fs, n, o => ⟨0, true, Nat.zero_le _, go_comma hu hl⟩
  | .op c, l, i, hl, b, hb, rest, hr, ho, is, fs, n, o => by
    simp only [Arg.ok, Bool.false_eq_true, false_and, or_false] at ho
    obtain rfl := hb ho.1
    exact ⟨0, true, Nat.zero_le _, go_op hu ho.2⟩
  | .gap bs, l, i, hl, b, hb, rest, hr, ho, is, fs, n, o => by
    simp only [Arg.ok] at ho
    exact ⟨_, _, by unfold bfresh; split <;> omega, go_blanks hu (argOff_blank hl) bs ho.1 ho.2⟩
theorem Args.go (hu : u.Ascii) (hd : ∀ c, u.digit c = true → u.word c = true) : ∀ (as : Args) {l : CL} {i : Nat} (_ : argOff l = some i) {b : Bool}
    (_ : b = true → l = .function) {rest : List Nat} (_ : rest ≠ []) (_ : as.ok u k false b rest) {is : List (Itm Q K)} {fs : List (Fr Q K)} {n : Nat} {o : Bool},
    ∃ n' o', n' ≤ n ∧ Go u k f ⟨as.text ++ rest, (l, is) :: fs, n, o⟩ ⟨rest, (l, is ++ as.items k f) :: fs, n', o'⟩
  | .nil, l, i, hl, b, hb, rest, hr, ho, is, fs, n, o => ⟨n, o, Nat.le_refl _, by simpa [Args.text, Args.items] using Go.refl _⟩
  | .cons a as, l, i, hl, b, hb, rest, hr, ho, is, fs, n, o => by
    simp only [Args.ok] at ho
    obtain ⟨n1, o1, h1, g1⟩ := a.go hu hd hl hb (rest := as.text ++ rest) (by simp [hr]) ho.1 (is := is) (fs := fs) (n := n) (o := o)
    obtain ⟨n2, o2, h2, g2⟩ := as.go hu hd hl hb hr ho.2 (is := is ++ a.items k f) (fs := fs) (n := n1) (o := o1)
    refine ⟨n2, o2, Nat.le_trans h2 h1, ?_⟩
    have := g1.trans g2
    simpa [Args.text, Args.items] using this
end

end Parce.CssL

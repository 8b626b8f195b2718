import Verif.Lemmas.CssBlock
/-!
# Selectors in CSS texts
-/
namespace Parce.CssL
open Parce.Json (Uni str)
variable {Q K : Type} {u : Uni} {k : Words} {f : Funcs Q K}

/-- An identifier ends here, that is not the name of a function. -/
structure Cut (u : Uni) (post : List Nat) : Prop where
  ne : post ≠ []
  stops : Stops u post
  paren : post.head? ≠ some 40

theorem cut_ascii (hu : u.Ascii) {c : Nat} {rest : List Nat} (hc : c < 128)
    (h : ((48 ≤ c && c ≤ 57) || (65 ≤ c && c ≤ 90) || c == 95 || (97 ≤ c && c ≤ 122) || c == 45 || c == 92 || c == 40) = false) : Cut u (c :: rest) := by
  rw [Bool.or_eq_false_iff] at h
  refine ⟨by simp, stops_ascii hu hc h.1, ?_⟩
  have := h.2
  simpa using this

/-! ### Names in lexicons of their own -/

/-- Lexicons with only the rules of `identifier_common`: the action. -/
def nameAct (l : CL) : Option CA := match l with
  | .elementSelector => some .tag
  | .attribute => some .attribute
  | .idSelector => some .identifierDef
  | .classSelector => some .cls
  | .pseudoElement => some .pseudoTag
  | .identToken => some .symbol
  | _ => none

theorem misses_name {l : CL} {a : CA} (hl : nameAct l = some a) {rest : List Nat} (hs : Stops u rest) : Misses u k l rest := by
  refine misses_of ?_
  intro r hr
  have : ∃ b, rules u k l = identRules u b := by cases l <;> cases hl <;> exact ⟨_, rfl⟩
  obtain ⟨b, hb⟩ := this
  rw [hb] at hr
  simp only [identRules, List.mem_cons, List.not_mem_nil, or_false] at hr
  rcases hr with rfl | rfl
  · exact pfail_escape hs.not_escape
  · exact pfail_name hs

theorem done_name {l : CL} {a : CA} (hl : nameAct l = some a) (w : List Nat) :
    done (method k f) l [.tok w a] = [.item l (.text w)] := by
  cases l <;> cases hl <;> (rw [done_ok _ (by decide) rfl]; simp [methOf, identText, identToken, isDelimiter])

theorem go_nameIn (hu : u.Ascii) {l : CL} {a : CA} (hl : nameAct l = some a) {w post : List Nat} (hw : Ident u w) (hs : Stops u post) (hp : post ≠ [])
    {l' : CL} {is : List (Itm Q K)} {fs : List (Fr Q K)} {n : Nat} {o : Bool} :
    Go u k f ⟨w ++ post, (l, []) :: (l', is) :: fs, n, o⟩ ⟨post, (l', is ++ [.item l (.text w)]) :: fs, 0, false⟩ := by
  have h1 : (rules u k l)[1]? = some (ruleOf (namePat u) (fun _ => a) none) := by
    cases l <;> cases hl <;> rfl
  have h2 : ∀ c < 128, startChar c = true → onlyAt l 1 [] c = true := by
    cases l <;> cases hl <;> decide +kernel
  have h3 : plain a = true := by cases l <;> cases hl <;> rfl
  have h4 : dflt l = .target ⟨1, []⟩ := by cases l <;> cases hl <;> rfl
  have s1 := s_tok (f := f) (is := []) (fs := (l', is) :: fs) (n := n) (o := o) (hits_name hu 1 [] hw hs h1 h2 (by simp)) h3
  have s2 := s1.trans (s_pop (misses_name hl hs) hp h4)
  simp only [List.nil_append] at s2
  rw [done_name hl] at s2
  exact s2

/-! ### Elements -/

def Elem.items : Option Elem → List (Itm Q K)
  | none => []
  | some .any => [.tok (str "*") .keyword]
  | some (.name w) => [.item .elementSelector (.text w)]

theorem Elem.go (hu : u.Ascii) (e : Option Elem) (he : Elem.ok u e) {post : List Nat} (hc : Cut u post)
    {is : List (Itm Q K)} {fs : List (Fr Q K)} {n : Nat} {o : Bool} :
    ∃ n' o', n' ≤ n ∧ (e ≠ none → n' = 0) ∧
      Go u k f ⟨Elem.text e ++ post, (.selector, is) :: fs, n, o⟩ ⟨post, (.selector, is ++ Elem.items e) :: fs, n', o'⟩ := by
  match e, he with
  | none, _ => exact ⟨n, o, Nat.le_refl _, fun h => absurd rfl h, by simpa [Elem.text, Elem.items] using Go.refl _⟩
  | some .any, _ =>
    exact ⟨0, true, Nat.zero_le _, fun _ => rfl, s_tok (w := str "*") (hits hu (l := .selector) (c := 42) (w := []) (post := post)
      (r := rule (chr "*") .keyword) (a := .keyword) 0 [] rfl (fun _ => rfl) (by decide) (by decide +kernel) (by simp) (pbest_str [42] _))⟩
  | some (.name w), he =>
    refine ⟨0, false, Nat.zero_le _, fun _ => rfl, ?_⟩
    have s1 := s_consume (f := f) (is := is) (fs := fs) (n := n) (o := o) (ls := []) (l' := .elementSelector)
      (hits_name hu (l := .selector) (k := k) 8 [] (a := fun _ => .tag) (tg := some ⟨0, [.elementSelector]⟩) he hc.stops rfl (by decide +kernel) (by simp))
    have s2 := s1.trans (s_pop (misses_name (l := .elementSelector) rfl hc.stops) hc.ne)
    rw [done_name rfl] at s2
    exact s2

/-! ### Other simple selectors -/

theorem go_id (hu : u.Ascii) {w post : List Nat} (hw : Ident u w) (hc : Cut u post) {is : List (Itm Q K)} {fs : List (Fr Q K)} {n : Nat} {o : Bool} :
    Go u k f ⟨str "#" ++ w ++ post, (.selector, is) :: fs, n, o⟩ ⟨post, (.selector, is ++ [.tok (str "#") .identifierDef, .item .idSelector (.text w)]) :: fs, 0, false⟩ := by
  have s1 := s_target (f := f) (k := k) (is := is) (fs := fs) (n := n) (o := o) (tg := ⟨0, [.idSelector]⟩) (hits hu (l := .selector) (c := 35) (w := []) (post := w ++ post)
    (r := rule (chr "#") .identifierDef (some ⟨0, [.idSelector]⟩)) (a := .identifierDef) 2 [] rfl (fun _ => rfl) (by decide) (by decide +kernel) (by simp) (pbest_str [35] _))
    (Nat.zero_le _)
  have s2 := s1.trans (go_nameIn hu (l := .idSelector) rfl hw hc.stops hc.ne)
  simpa [str] using s2

theorem best_look_not {a : Pat Nat} {post : List Nat} (h : PFail a post) : PBest (.look true a) [] post := by
  intro t p ht c
  refine ⟨[], ?_⟩
  have := (h t p ht).run c
  simp [Pat.run, this]

theorem go_cls (hu : u.Ascii) {w post : List Nat} (hw : Ident u w) (hc : Cut u post) {is : List (Itm Q K)} {fs : List (Fr Q K)} {n : Nat} {o : Bool} :
    Go u k f ⟨str "." ++ w ++ post, (.selector, is) :: fs, n, o⟩ ⟨post, (.selector, is ++ [.tok (str ".") .keyword, .item .classSelector (.text w)]) :: fs, 0, false⟩ := by
  have hd : PFail (.set u.digit) (w ++ post) := by
    obtain ⟨c, r, rfl, h1, h2⟩ := hw.first
    refine pfail_set ?_
    intro d hd
    obtain rfl : c = d := Option.some.inj hd
    have : ∀ c < 128, startChar c = true → (48 ≤ c && c ≤ 57) = false := by decide
    rw [hu.digit c h1]
    exact this c h1 h2
  have hb : PBest (.cat (chr ".") (.look true (.set u.digit))) [46] (w ++ post) := PBest.cat (v := [46]) (w := []) (pbest_str [46] _) (best_look_not hd)
  have s1 := s_target (f := f) (k := k) (is := is) (fs := fs) (n := n) (o := o) (tg := ⟨0, [.classSelector]⟩) (hits hu (l := .selector) (c := 46) (w := []) (post := w ++ post)
    (r := rule (.cat (chr ".") (.look true (.set u.digit))) .keyword (some ⟨0, [.classSelector]⟩)) (a := .keyword) 3 [] rfl (fun _ => rfl) (by decide) (by decide +kernel)
    (by simp) hb) (Nat.zero_le _)
  have s2 := s1.trans (go_nameIn hu (l := .classSelector) rfl hw hc.stops hc.ne)
  simpa [str] using s2

theorem go_pelem (hu : u.Ascii) {w post : List Nat} (hw : Ident u w) (hc : Cut u post) {is : List (Itm Q K)} {fs : List (Fr Q K)} {n : Nat} {o : Bool} :
    Go u k f ⟨str "::" ++ w ++ post, (.selector, is) :: fs, n, o⟩
      ⟨post, (.selector, is ++ [.tok (str "::") .keyword, .item .pseudoElement (.text w)]) :: fs, 0, false⟩ := by
  have s1 := s_target (f := f) (k := k) (is := is) (fs := fs) (n := n) (o := o) (tg := ⟨0, [.pseudoElement]⟩) (hits hu (l := .selector) (c := 58) (w := [58]) (post := w ++ post)
    (r := rule (chr "::") .keyword (some ⟨0, [.pseudoElement]⟩)) (a := .keyword) 4 [] rfl (fun _ => rfl) (by decide) (by decide +kernel) (by simp) (pbest_str [58, 58] _))
    (Nat.zero_le _)
  have s2 := s1.trans (go_nameIn hu (l := .pseudoElement) rfl hw hc.stops hc.ne)
  simpa [str] using s2

/-- The start of a pseudo class. -/
theorem go_pstart (hu : u.Ascii) {w post : List Nat} (hw : Ident u w) (hs : Stops u post) {is : List (Itm Q K)} {fs : List (Fr Q K)} {n : Nat} {o : Bool} :
    Go u k f ⟨str ":" ++ w ++ post, (.selector, is) :: fs, n, o⟩
      ⟨post, (.pseudoClass, [.tok w .pseudoClass]) :: (.selector, is ++ [.tok (str ":") .keyword]) :: fs, 0, true⟩ := by
  have hx : ∀ j ∈ [4], ∀ r, (rules u k .selector)[j]? = some r → PFail r.pat ([58] ++ (w ++ post)) := by
    intro j hj r hr
    simp only [List.mem_cons, List.not_mem_nil, or_false] at hj
    subst hj
    have : r = rule (chr "::") .keyword (some ⟨0, [.pseudoElement]⟩) := (Option.some.inj hr).symm
    subst this
    obtain ⟨c, r, rfl, h1, h2⟩ := hw.first
    refine pfail_str (fun p he => ?_)
    have : c = 58 := (List.cons.inj (List.cons.inj he).2).1
    subst this
    cases h2
  have s1 := s_target (f := f) (k := k) (is := is) (fs := fs) (n := n) (o := o) (tg := ⟨0, [.pseudoClass]⟩) (hits hu (l := .selector) (c := 58) (w := []) (post := w ++ post)
    (r := rule (chr ":") .keyword (some ⟨0, [.pseudoClass]⟩)) (a := .keyword) 5 [4] rfl (fun _ => rfl) (by decide) (by decide +kernel) hx (pbest_str [58] _))
    (Nat.zero_le _)
  have s2 := s1.trans (s_tok (hits_name hu (l := .pseudoClass) (k := k) 2 [] (a := fun _ => .pseudoClass) (tg := none) hw hs rfl (by decide +kernel) (by simp)))
  simpa [str, closeN] using s2

theorem go_pcls (hu : u.Ascii) {w post : List Nat} (hw : Ident u w) (hc : Cut u post) {is : List (Itm Q K)} {fs : List (Fr Q K)} {n : Nat} {o : Bool} :
    Go u k f ⟨str ":" ++ w ++ post, (.selector, is) :: fs, n, o⟩
      ⟨post, (.selector, is ++ [.tok (str ":") .keyword, .item .pseudoClass (.list [.text w, .none])]) :: fs, 0, false⟩ := by
  have s1 := go_pstart (k := k) (f := f) (is := is) (fs := fs) (n := n) (o := o) hu hw hc.stops
  have hm : Misses u k .pseudoClass post := by
    refine misses_of ?_
    intro r hr
    simp only [rules, identRules, List.mem_cons, List.not_mem_nil, or_false] at hr
    rcases hr with rfl | rfl | rfl
    · exact pfail_chr hc.paren
    · exact pfail_escape hc.stops.not_escape
    · exact pfail_name hc.stops
  have s2 := s1.trans (s_pop hm hc.ne)
  rw [done_ok _ (by decide) rfl] at s2
  have : methOf k f .pseudoClass [.tok w .pseudoClass] = .list [.text w, .none] := by simp [methOf, pseudoClassOf, identToken, isDelimiter]
  rw [this] at s2
  simpa using s2

theorem go_pfun (hu : u.Ascii) {w s rest : List Nat} (hw : Ident u w) {is js : List (Itm Q K)} {fs : List (Fr Q K)} {n : Nat} {o : Bool} {vs : List (CV Q K)}
    (hf : failed js = false) (hv : preludeOf js = .list vs)
    (hs : ∀ {fs : List (Fr Q K)}, ∃ n' o', Go u k f ⟨s ++ 41 :: rest, (.selectorList, []) :: fs, 1, true⟩ ⟨41 :: rest, (.selectorList, js) :: fs, n', o'⟩) :
    Go u k f ⟨str ":" ++ w ++ str "(" ++ s ++ str ")" ++ rest, (.selector, is) :: fs, n, o⟩
      ⟨rest, (.selector, is ++ [.tok (str ":") .keyword, .item .pseudoClass (.list [.text w, .list vs])]) :: fs, 0, true⟩ := by
  have s1 := go_pstart (k := k) (f := f) (is := is) (fs := fs) (n := n) (o := o) (post := 40 :: (s ++ 41 :: rest)) hu hw (stops_paren hu _)
  have s2 := s1.trans (s_target (w := [40]) (tg := ⟨0, [.selectorList]⟩) (hits hu (l := .pseudoClass) (c := 40) (w := []) (post := s ++ 41 :: rest)
    (r := rule (chr "(") .delimiter (some ⟨0, [.selectorList]⟩)) (a := .delimiter) 0 [] rfl (fun _ => rfl) (by decide) (by decide +kernel) (by simp) (pbest_str [40] _))
    (Nat.zero_le _))
  obtain ⟨n', o', s3⟩ := hs (fs := (.pseudoClass, [.tok w .pseudoClass, .tok [40] .delimiter]) :: (.selector, is ++ [.tok (str ":") .keyword]) :: fs)
  have s4 := s3.trans (s_target (w := [41]) (tg := ⟨2, []⟩) (hits hu (l := .selectorList) (c := 41) (w := []) (post := rest)
    (r := rule (chr ")") .delimiter (some ⟨2, []⟩)) (a := .delimiter) 0 [] rfl (fun _ => rfl) (by decide) (by decide +kernel) (by simp) (pbest_str [41] _))
    (by simp))
  have hf' : failed (js ++ [.tok [41] .delimiter]) = false := by rw [failed_append, hf]; rfl
  have hm : methOf k f .selectorList (js ++ [.tok [41] .delimiter]) = .list vs := by
    have he : endsWith 41 (js ++ [.tok [41] .delimiter]) = true := by simp [endsWith]
    simp only [methOf, selectorListOf, he, if_true, List.dropLast_concat, hv]
  have hm2 : methOf k f .pseudoClass ([.tok w .pseudoClass, .tok [40] .delimiter] ++ [.item .selectorList (.list vs)]) = .list [.text w, .list vs] := by
    simp [methOf, pseudoClassOf, identToken, isDelimiter]
  have s5 := s2.trans s4
  simp only [closeN, closeF] at s5
  rw [done_ok _ (by decide) hf', hm, done_ok _ (by decide) (by rfl), hm2] at s5
  simpa [str] using s5

/-! ### Attributes -/

theorem go_wsIn (hu : u.Ascii) {g post : List Nat} (hg : Wok g) (hp : ∀ c, post.head? = some c → u.space c = false)
    {is : List (Itm Q K)} {fs : List (Fr Q K)} {n : Nat} {o : Bool} :
    ∃ o', Go u k f ⟨g ++ post, (.attributeSelector, is) :: fs, n, o⟩ ⟨post, (.attributeSelector, is) :: fs, n, o'⟩ := by
  by_cases h : g = []
  · subst h; exact ⟨o, Go.refl _⟩
  · exact ⟨true, go_space hu (l := .attributeSelector) rfl h hg hp⟩

theorem ws_append_stops (hu : u.Ascii) {g post : List Nat} (hg : Wok g) (hp : Stops u post) : Stops u (g ++ post) := by
  cases g with
  | nil => exact hp
  | cons c g => exact ws_stops hu (hg c (by simp))

theorem go_astart (hu : u.Ascii) {w g post : List Nat} (hw : Ident u w) (hg : Wok g) (hne : post ≠ []) (hs : Stops u post)
    (hp : ∀ c, post.head? = some c → u.space c = false) {is : List (Itm Q K)} {fs : List (Fr Q K)} {n : Nat} {o : Bool} :
    ∃ o', Go u k f ⟨str "[" ++ w ++ g ++ post, (.selector, is) :: fs, n, o⟩
      ⟨post, (.attributeSelector, [.item .attribute (.text w)]) :: (.selector, is ++ [.tok (str "[") .delimiter]) :: fs, 0, o'⟩ := by
  have s1 := s_target (f := f) (k := k) (is := is) (fs := fs) (n := n) (o := o) (tg := ⟨0, [.attributeSelector, .attribute]⟩)
    (hits hu (l := .selector) (c := 91) (w := []) (post := w ++ (g ++ post))
    (r := rule (chr "[") .delimiter (some ⟨0, [.attributeSelector, .attribute]⟩)) (a := .delimiter) 6 [] rfl (fun _ => rfl) (by decide) (by decide +kernel) (by simp)
    (pbest_str [91] _)) (Nat.zero_le _)
  have s2 := s1.trans (go_nameIn hu (l := .attribute) rfl hw (ws_append_stops hu hg hs) (by simp [hne]))
  obtain ⟨o', s3⟩ := go_wsIn (k := k) (f := f) (n := 0) (o := false) (is := [.item .attribute (.text w)]) (fs := (.selector, is ++ [.tok (str "[") .delimiter]) :: fs) hu hg hp
  refine ⟨o', ?_⟩
  have := s2.trans s3
  simpa [str] using this

theorem go_aend (hu : u.Ascii) {post : List Nat} {is js : List (Itm Q K)} {fs : List (Fr Q K)} {n : Nat} {o : Bool} {v : CV Q K}
    (hf : failed js = false) (hm : attributeLoop (js ++ [.tok [93] .delimiter]) .none .none .none .none = v) :
    Go u k f ⟨str "]" ++ post, (.attributeSelector, js) :: (.selector, is) :: fs, n, o⟩ ⟨post, (.selector, is ++ [.item .attributeSelector v]) :: fs, 0, true⟩ := by
  have s1 := s_target (f := f) (k := k) (is := js) (fs := (.selector, is) :: fs) (n := n) (o := o) (tg := ⟨1, []⟩)
    (hits hu (l := .attributeSelector) (c := 93) (w := []) (post := post)
    (r := rule (chr "]") .delimiter (some ⟨1, []⟩)) (a := .delimiter) 0 [] rfl (fun _ => rfl) (by decide) (by decide +kernel) (by simp)
    (pbest_str [93] _)) (by simp)
  simp only [closeN, closeF] at s1
  rw [done_ok _ (by decide) (by rw [failed_append, hf]; rfl)] at s1
  have hm' : methOf k f .attributeSelector (js ++ [.tok [93] .delimiter]) = v := hm
  rw [hm'] at s1
  exact s1

theorem go_attr (hu : u.Ascii) {w g post : List Nat} (hw : Ident u w) (hg : Wok g) {is : List (Itm Q K)} {fs : List (Fr Q K)} {n : Nat} {o : Bool} :
    Go u k f ⟨str "[" ++ w ++ g ++ str "]" ++ post, (.selector, is) :: fs, n, o⟩
      ⟨post, (.selector, is ++ [.tok (str "[") .delimiter, .item .attributeSelector (.list [.text w, .none, .none, .none])]) :: fs, 0, true⟩ := by
  obtain ⟨o', s1⟩ := go_astart (k := k) (f := f) (is := is) (fs := fs) (n := n) (o := o) (post := str "]" ++ post) hu hw hg (by simp [str])
    (stops_ascii hu (c := 93) (by decide) (by decide)) (not_space hu (c := 93) (by decide) (by decide))
  have s2 := s1.trans (go_aend (v := .list [.text w, .none, .none, .none]) hu rfl rfl)
  simpa using s2

theorem attrOps_cases {op : List Nat} (h : op ∈ attrOps) : op = [61] ∨ ∃ c, op = [c, 61] ∧ (c = 126 ∨ c = 124 ∨ c = 94 ∨ c = 36 ∨ c = 42) := by
  simp only [attrOps, List.mem_cons, List.not_mem_nil, or_false] at h
  rcases h with rfl | rfl | rfl | rfl | rfl | rfl
  · exact Or.inl rfl
  all_goals exact Or.inr ⟨_, rfl, by decide⟩

theorem hits_attrOp (hu : u.Ascii) {op post : List Nat} (h : op ∈ attrOps) : Hits u k .attributeSelector op post .operator none := by
  rcases attrOps_cases h with rfl | ⟨c, rfl, hc⟩
  · refine hits hu (l := .attributeSelector) (c := 61) (w := []) (r := rule (.cat (.opt (.set fun c => (str "~|^$*").contains c)) (chr "=")) .operator) 1 [] rfl (fun _ => rfl)
      (by decide) (by decide +kernel) (by simp) ?_
    refine PBest.cat (v := []) (w := [61]) (pbest_none (pfail_set ?_)) (pbest_str [61] _)
    intro c hc
    obtain rfl : 61 = c := Option.some.inj hc
    rfl
  · have h1 : ∀ c, (c = 126 ∨ c = 124 ∨ c = 94 ∨ c = 36 ∨ c = 42) → c < 128 ∧ onlyAt .attributeSelector 1 [] c = true ∧ (str "~|^$*").contains c = true := by
      rintro c (rfl | rfl | rfl | rfl | rfl) <;> decide +kernel
    obtain ⟨h2, h3, h4⟩ := h1 c hc
    refine hits hu (l := .attributeSelector) (c := c) (w := [61]) (r := rule (.cat (.opt (.set fun c => (str "~|^$*").contains c)) (chr "=")) .operator) 1 [] rfl (fun _ => rfl)
      h2 h3 (by simp) ?_
    exact PBest.cat (v := [c]) (w := [61]) (PBest.opt (pbest_set h4)) (pbest_str [61] _)

theorem attrOp_head (hu : u.Ascii) {op post : List Nat} (h : op ∈ attrOps) : Stops u (op ++ post) ∧ ∀ c, (op ++ post).head? = some c → u.space c = false := by
  rcases attrOps_cases h with rfl | ⟨c, rfl, hc⟩
  · exact ⟨stops_ascii hu (by decide) (by decide), not_space hu (by decide) (by decide)⟩
  · rcases hc with rfl | rfl | rfl | rfl | rfl <;>
      exact ⟨stops_ascii hu (by decide) (by decide), not_space hu (by decide) (by decide)⟩

theorem ident_space (hu : u.Ascii) {w post : List Nat} (hw : Ident u w) : ∀ c, (w ++ post).head? = some c → u.space c = false := by
  obtain ⟨c, r, rfl, h1, h2⟩ := hw.first
  have : ∀ c < 128, startChar c = true → ((9 ≤ c && c ≤ 13) || (28 ≤ c && c ≤ 32)) = false := by decide
  exact not_space hu h1 (this c h1 h2)

theorem go_attrVal (hu : u.Ascii) {w g op g' v g'' post : List Nat} (hw : Ident u w) (hg : Wok g) (hop : op ∈ attrOps) (hg' : Wok g') (hv : Ident u v) (hg'' : Wok g'')
    {is : List (Itm Q K)} {fs : List (Fr Q K)} {n : Nat} {o : Bool} :
    Go u k f ⟨str "[" ++ w ++ g ++ op ++ g' ++ v ++ g'' ++ str "]" ++ post, (.selector, is) :: fs, n, o⟩
      ⟨post, (.selector, is ++ [.tok (str "[") .delimiter, .item .attributeSelector (.list [.text w, .text op, .text v, .none])]) :: fs, 0, true⟩ := by
  have hne : op ≠ [] := by rcases attrOps_cases hop with rfl | ⟨c, rfl, _⟩ <;> simp
  obtain ⟨h1, h2⟩ := attrOp_head hu (post := g' ++ (v ++ (g'' ++ (str "]" ++ post)))) hop
  obtain ⟨o1, s1⟩ := go_astart (k := k) (f := f) (is := is) (fs := fs) (n := n) (o := o) hu hw hg (by simp [hne]) h1 h2
  have s2 := s1.trans (s_tok (hits_attrOp hu hop))
  obtain ⟨o2, s3⟩ := go_wsIn (k := k) (f := f) (n := 0) (o := true) (is := [.item .attribute (.text w)] ++ [.tok op .operator])
    (fs := (.selector, is ++ [.tok (str "[") .delimiter]) :: fs) (post := v ++ (g'' ++ (str "]" ++ post))) hu hg' (ident_space hu hv)
  have s4 := s2.trans s3
  have hst : Stops u (g'' ++ (str "]" ++ post)) := ws_append_stops hu hg'' (stops_ascii hu (c := 93) (by decide) (by decide))
  have s5 := s4.trans (s_consume (ls := []) (l' := .identToken)
      (hits_name hu (l := .attributeSelector) (k := k) 5 [] (a := fun _ => .symbol) (tg := some ⟨0, [.identToken]⟩) hv hst rfl (by decide +kernel) (by simp)))
  have s6 := s5.trans (s_pop (misses_name (l := .identToken) rfl hst) (by simp [str]))
  rw [done_name rfl] at s6
  obtain ⟨o3, s7⟩ := go_wsIn (k := k) (f := f) (n := 0) (o := false) (is := [.item .attribute (.text w)] ++ [.tok op .operator] ++ [.item .identToken (.text v)])
    (fs := (.selector, is ++ [.tok (str "[") .delimiter]) :: fs) (post := str "]" ++ post) hu hg'' (not_space hu (c := 93) (by decide) (by decide))
  have s8 := s6.trans s7
  have s9 := s8.trans (go_aend (v := .list [.text w, .text op, .text v, .none]) hu rfl rfl)
  simpa using s9

end Parce.CssL

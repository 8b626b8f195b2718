import Verif.Lemmas.NumbersGoes
import Verif.Lemmas.NumbersWords
/-!
# English numbers
-/
namespace Parce.Num
variable {u : Uni} {t : List Char}

/-! ### The words -/

def enLists : List Word := enWords.map (fun x => x.1.toList)

/-- The unit words. -/
def enUnits : List Word := (enTo19.take 10).drop 1

/-- The words that a lexicon reads. -/
def lexWords : NL → List Word
  | .n99 => enTens ++ enTo19
  | .p1 => enUnits
  | .p2 => ["hundred".toList]
  | .p3 => ["thousand".toList]
  | .p6 => ["million".toList]
  | _ => []

theorem check_alpha : (enLists.all (fun w => !w.isEmpty && w.all (fun c => c.isAlpha && c.toLower == c))) = true := by decide +kernel

theorem check_sub : (lexWords .n99 ++ lexWords .p1 ++ lexWords .p2 ++ lexWords .p3 ++ lexWords .p6).all (fun w => enLists.contains w) = true := by
  decide +kernel

/-- No word begins with another word and a part of a third one. -/
theorem check_follow : enLists.all (fun w => enLists.all (fun x => !w.isPrefixOf x || w == x ||
    enLists.all (fun f => !f.isPrefixOf (x.drop w.length) && !(x.drop w.length).isPrefixOf f))) = true := by decide +kernel

/-- Which words are where, and their values. -/
def wordOK (w : Word) : Kind → Bool
  | .unit v => !enTens.any (·.isPrefixOf w) && enTo19.contains w && enUnits.contains w && look (values enTens enTo19) w == some v
  | .teen v => !enTens.any (·.isPrefixOf w) && enTo19.contains w && look (values enTens enTo19) w == some v
  | .tens v => enTens.contains w && look (values enTens enTo19) w == some v
  | .hundred => w == "hundred".toList
  | .thousand => w == "thousand".toList
  | .million => w == "million".toList

theorem check_word : enWords.all (fun x => wordOK x.1.toList x.2) = true := by decide +kernel

/-- Other lexicons do not find the word. -/
def missOK (w : Word) (k : Kind) : Bool :=
  [NL.n99, .p1, .p2, .p3, .p6].all (fun l => (accept l k).isSome || l == .p1 || !(lexWords l).any (·.isPrefixOf w))

theorem check_miss : enWords.all (fun x => missOK x.1.toList x.2) = true := by decide +kernel

theorem check_units : enUnits.all (fun w => enWords.any (fun x => x.1.toList == w && match x.2 with | .unit _ => true | _ => false)) = true := by
  decide +kernel

/-! ### A word in the text -/

theorem lower_alpha {c : Char} (h : c.toLower.isAlpha = true) : c.isAlpha = true := by
  by_cases hu : c.isUpper = true
  · simp [Char.isAlpha, hu]
  · have : c.toLower = c := by
      simp only [Char.isUpper, Bool.and_eq_true, decide_eq_true_eq] at hu
      unfold Char.toLower
      exact dif_neg hu
    rwa [this] at h

theorem word_mem {w : String} {k : Kind} (h : (w, k) ∈ enWords) : w.toList ∈ enLists := List.mem_map.2 ⟨_, h, rfl⟩

theorem word_alpha {w : Word} (h : w ∈ enLists) : w ≠ [] ∧ ∀ c ∈ w, c.isAlpha = true := by
  have := List.all_eq_true.1 check_alpha w h
  simp only [Bool.and_eq_true, Bool.not_eq_true', List.all_eq_true, List.isEmpty_eq_false_iff] at this
  exact ⟨this.1, fun c hc => (this.2 c hc).1⟩

/-- The letters of a word in the text. -/
theorem letters {v : List Char} {w : Word} (hw : w ∈ enLists) (hv : v.map Char.toLower = w) : ∀ c ∈ v, c.isAlpha = true := by
  intro c hc
  refine lower_alpha ((word_alpha hw).2 _ ?_)
  rw [← hv]
  exact List.mem_map.2 ⟨c, hc, rfl⟩

theorem letters_fold (hu : u.Ascii) {v : List Char} {w : Word} (hw : w ∈ enLists) (hv : v.map Char.toLower = w) : v.map u.fold = w := by
  rw [← hv]
  exact List.map_congr_left (fun c hc => hu.fold c (letters hw hv c hc))

theorem letters_low (hu : u.Ascii) {v : List Char} {w : Word} (hw : w ∈ enLists) (hv : v.map Char.toLower = w) : v.flatMap u.low = w := by
  rw [← hv]
  have h1 := letters hw hv
  clear hv hw
  induction v with
  | nil => rfl
  | cons c v ih =>
    simp only [List.flatMap_cons, List.map_cons, hu.low c (h1 c (List.mem_cons_self ..)), ih (fun x hx => h1 x (List.mem_cons_of_mem _ hx))]
    rfl

theorem letter_skip (hu : u.Ascii) {c : Char} (h : c.isAlpha = true) : isSkip u c = false := by
  have : c ≠ '-' := by rintro rfl; revert h; decide
  simp [isSkip, hu.space c h, this]

/-- What may come after a word: the end, something that is not a letter, or another word. -/
def Follows (u : Uni) (post : List Char) : Prop :=
  post = [] ∨ (∃ c r, post = c :: r ∧ (u.fold c).isAlpha = false) ∨ ∃ f ∈ enLists, f <+: post.map u.fold

theorem prefix_cases {x w r : List Char} (h : x <+: w ++ r) : x <+: w ∨ ∃ y, x = w ++ y ∧ y ≠ [] ∧ y <+: r := by
  rcases Nat.lt_or_ge w.length x.length with hl | hl
  · obtain ⟨y, rfl⟩ := List.prefix_of_prefix_length_le (List.prefix_append w r) h (Nat.le_of_lt hl)
    refine Or.inr ⟨y, rfl, ?_, (List.prefix_append_right_inj w).1 h⟩
    rintro rfl
    simp at hl
  · exact Or.inl (List.prefix_of_prefix_length_le h (List.prefix_append w r) hl)

/-- The words that are found are not longer. -/
theorem found {w x : Word} {post : List Char} (hw : w ∈ enLists) (hx : x ∈ enLists) (hf : Follows u post) (h : x <+: w ++ post.map u.fold) : x <+: w := by
  rcases prefix_cases h with h | ⟨y, rfl, hy, hpre⟩
  · exact h
  · exfalso
    have hchk := List.all_eq_true.1 (List.all_eq_true.1 check_follow w hw) _ hx
    have h1 : w.isPrefixOf (w ++ y) = true := List.isPrefixOf_iff_prefix.2 (List.prefix_append _ _)
    have h2 : (w == w ++ y) = false := by
      simp only [beq_eq_false_iff_ne, ne_eq]
      intro h'
      have h3 := congrArg List.length h'
      have h4 := List.length_pos_iff.2 hy
      rw [List.length_append] at h3
      omega
    simp only [h1, Bool.not_true, h2, Bool.false_or, List.drop_left, List.all_eq_true] at hchk
    rcases hf with rfl | ⟨c, r, rfl, hc⟩ | ⟨f, hfm, hfp⟩
    · exact hy (List.prefix_nil.1 hpre)
    · obtain ⟨y0, ys, rfl⟩ := List.exists_cons_of_ne_nil hy
      rw [List.map_cons] at hpre
      have : y0 = u.fold c := (List.cons_prefix_cons.1 hpre).1
      subst this
      have := (word_alpha hx).2 (u.fold c) (by simp)
      rw [this] at hc
      cases hc
    · have := hchk f hfm
      simp only [Bool.and_eq_true, Bool.not_eq_true'] at this
      rcases Nat.le_total f.length y.length with hl | hl
      · have := List.isPrefixOf_iff_prefix.2 (List.prefix_of_prefix_length_le hfp hpre hl)
        simp_all
      · have := List.isPrefixOf_iff_prefix.2 (List.prefix_of_prefix_length_le hpre hfp hl)
        simp_all

/-- The kind is a unit, or its word does not begin with one. -/
def Good (k : Kind) : Prop := (∃ v, k = .unit v) ∨ ¬ StartsWithUnit k

theorem fold_here (hu : u.Ascii) {p : Nat} {v post : List Char} {w : Word} (ht : t.drop p = v ++ post) (hw : w ∈ enLists) (hv : v.map Char.toLower = w) :
    folded u t p = w ++ post.map u.fold := by
  rw [folded, ht, List.map_append, letters_fold hu hw hv]

theorem lex_sub {l : NL} {x : Word} (h : x ∈ lexWords l) : x ∈ enLists := by
  have := List.all_eq_true.1 check_sub x (by
    cases l <;> simp only [lexWords, List.mem_append, List.not_mem_nil] at h ⊢ <;> simp_all)
  exact List.contains_iff_mem.1 this

theorem skip_fails {p : Nat} {x : Char} (h : t[p]? = some x) (hx : isSkip u x = false) : Fails t (.plus (.set (isSkip u))) p := by
  rintro q ⟨r, ⟨_, y, h1, h2⟩, _⟩
  rw [h] at h1
  simp only [Option.some.injEq] at h1
  subst h1
  rw [hx] at h2
  cases h2

/-- Nothing is found. -/
theorem english_miss {p : Nat} {l : NL} (hp : p ≤ t.length) (hs : Fails t (.plus (.set (isSkip u))) p) (h : ∀ x ∈ lexWords l, ¬ x <+: folded u t p) :
    rxMatch ((rules u (english u) l).map (·.pat)) t p = none := by
  rw [rxMatch_none hp]
  rintro ⟨a, ha, q, hq⟩
  cases l with
  | root => simp [rules] at ha
  | number => simp [rules] at ha
  | n99 =>
    simp only [rules, english, rule, skipRule, List.map_cons, List.map_nil, List.mem_cons, List.not_mem_nil, or_false] at ha
    rcases ha with rfl | rfl | rfl
    · exact hs q hq
    · exact words_fails (fun x hx => h x (List.mem_append.2 (Or.inl hx))) q hq
    · exact words_fails (fun x hx => h x (List.mem_append.2 (Or.inr hx))) q hq
  | p1 =>
    simp only [rules, english, rule, skipRule, List.map_cons, List.map_nil, List.mem_cons, List.not_mem_nil, or_false] at ha
    rcases ha with rfl | rfl
    · exact hs q hq
    · exact words_fails (fun x hx => h x hx) q hq
  | p2 =>
    simp only [rules, english, rule, skipRule, List.map_cons, List.map_nil, List.mem_cons, List.not_mem_nil, or_false] at ha
    rcases ha with rfl | rfl
    · exact hs q hq
    · exact lit_fails (h _ (List.mem_cons_self ..)) q hq
  | p3 =>
    simp only [rules, english, rule, skipRule, List.map_cons, List.map_nil, List.mem_cons, List.not_mem_nil, or_false] at ha
    rcases ha with rfl | rfl
    · exact hs q hq
    · exact lit_fails (h _ (List.mem_cons_self ..)) q hq
  | p6 =>
    simp only [rules, english, rule, skipRule, List.map_cons, List.map_nil, List.mem_cons, List.not_mem_nil, or_false] at ha
    rcases ha with rfl | rfl
    · exact hs q hq
    · exact lit_fails (h _ (List.mem_cons_self ..)) q hq

/-- A rule of a lexicon finds a word. -/
theorem english_hit {p : Nat} {v post : List Char} {l : NL} {ps qs : List (PRule Char NL NA)} {a : Pat Char} {tg : Target NL} (ht : t.drop p = v ++ post)
    (hv : v ≠ []) (hr : rules u (english u) l = ps ++ rule a .number (some tg) :: qs) (hf : ∀ r ∈ ps, Fails t r.pat p)
    (hb : Best t a p (p + v.length)) :
    ∃ tok ps', parseNext (lang u (english u)).noAct ((lang u (english u)).ld l) t (.at p false) = some (tok, ps') ∧
      tok.pos = p ∧ tok.text = v ∧ tok.tgt = some tg ∧ (lang u (english u)).expand tok = [⟨p, v, .number⟩] := by
  have hlt : p < t.length := by
    have := congrArg List.length ht
    have h2 := List.length_pos_iff.2 hv
    simp at this
    omega
  have hm : rxMatch ((rules u (english u) l).map (·.pat)) t p = some ⟨p, p + v.length, ⟨ps.length, []⟩⟩ := by
    rw [hr, List.map_append, List.map_cons]
    have := rxMatch_best (ps := ps.map (·.pat)) (qs := qs.map (·.pat)) (a := a) (t := t) (p := p) (by
      intro b hb'
      obtain ⟨r, hr', rfl⟩ := List.mem_map.1 hb'
      exact hf r hr') hb (Nat.le_of_lt hlt)
    rw [List.length_map] at this
    exact this
  have hpm := parse_match (noAct := NA.none) (dl := dflt l) hm (r := rule a .number (some tg)) (by rw [hr]; simp)
  have hsl : slice t p (p + v.length) = v := slice_here ht
  rw [hsl] at hpm
  exact ⟨_, _, hpm, rfl, rfl, rfl, rfl⟩

/-- A word is read. -/
theorem english_reads (hu : u.Ascii) {p : Nat} {v post : List Char} {w : String} {k : Kind} (ht : t.drop p = v ++ post) (hw : (w, k) ∈ enWords)
    (hv : v.map Char.toLower = w.toList) (hf : Follows u post) : ReadsAt u (english u) t p v k (Good k) := by
  have hwm := word_mem hw
  have hne : v ≠ [] := by
    rintro rfl
    exact (word_alpha hwm).1 hv.symm
  have hvl : v.length = w.toList.length := by rw [← hv, List.length_map]
  have hlt : p < t.length := by
    have := congrArg List.length ht
    have h2 := List.length_pos_iff.2 hne
    simp at this
    omega
  have hfold := fold_here hu ht hwm hv
  have hpre : w.toList <+: folded u t p := by rw [hfold]; exact List.prefix_append _ _
  have hfound : ∀ x ∈ enLists, x <+: folded u t p → x <+: w.toList := by
    intro x hx h
    rw [hfold] at h
    exact found hwm hx hf h
  have hskip : Fails t (.plus (.set (isSkip u))) p := by
    obtain ⟨c, v', rfl⟩ := List.exists_cons_of_ne_nil hne
    exact skip_fails (drop_get ht) (letter_skip hu (letters hwm hv c (List.mem_cons_self ..)))
  have hok := List.all_eq_true.1 check_word _ hw
  have hmiss := List.all_eq_true.1 check_miss _ hw
  have htens : enTens.any (·.isPrefixOf w.toList) = false → ∀ x ∈ enTens, ¬ x <+: folded u t p := by
    intro h x hx hp
    have h1 := hfound x (lex_sub (l := .n99) (List.mem_append.2 (Or.inl hx))) hp
    have h2 := List.any_eq_false.1 h x hx
    exact h2 (List.isPrefixOf_iff_prefix.2 h1)
  have hbest : ∀ {ws : List Word} {l : NL}, (∀ x ∈ ws, x ∈ lexWords l) → w.toList ∈ ws → Best t (words u ws) p (p + v.length) := by
    intro ws l h1 h2
    rw [hvl]
    exact words_best h2 hpre (fun x hx hp => (hfound x (lex_sub (h1 x hx)) hp).length_le)
  have htexts : ∀ {tok : Tok Char NL NA RM} {n : Nat}, (lang u (english u)).expand tok = [⟨p, v, .number⟩] → look (values enTens enTo19) w.toList = some n →
      ∃ vs, texts u (english u).values ((makeTokens ((lang u (english u)).expand tok)).map .tok) = some vs ∧ vs.sum = n := by
    intro tok n h1 h2
    refine ⟨[n], ?_, by simp⟩
    rw [h1]
    show texts u (values enTens enTo19) [.tok ⟨p, v, .number, none⟩] = _
    simp only [texts, letters_low hu hwm hv, h2, Option.map_some]
  refine ⟨hlt, ?_, ?_, hne⟩
  · intro l ls hacc
    cases l <;> cases k <;> simp only [accept, reduceCtorEq, Option.some.injEq] at hacc <;> subst hacc <;>
      simp only [wordOK, Bool.and_eq_true, Bool.not_eq_true', beq_iff_eq, List.contains_iff_mem] at hok
    -- n99
    · obtain ⟨tok, ps', h1, h2, h3, h4, h5⟩ := english_hit (l := .n99) (ps := [skipRule u, rule (words u enTens) .number (some ⟨1, [.p1]⟩)]) (qs := [])
        (a := words u enTo19) (tg := ⟨1, []⟩) ht hne rfl (by
          intro r hr
          simp only [List.mem_cons, List.not_mem_nil, or_false] at hr
          rcases hr with rfl | rfl
          · exact hskip
          · exact words_fails (htens hok.1.1.1)) (hbest (l := .n99) (fun x hx => List.mem_append.2 (Or.inr hx)) hok.1.1.2)
      exact ⟨tok, ps', h1, h2, h3, h4, by rw [h5]; simp, fun _ => htexts h5 hok.2⟩
    · obtain ⟨tok, ps', h1, h2, h3, h4, h5⟩ := english_hit (l := .n99) (ps := [skipRule u, rule (words u enTens) .number (some ⟨1, [.p1]⟩)]) (qs := [])
        (a := words u enTo19) (tg := ⟨1, []⟩) ht hne rfl (by
          intro r hr
          simp only [List.mem_cons, List.not_mem_nil, or_false] at hr
          rcases hr with rfl | rfl
          · exact hskip
          · exact words_fails (htens hok.1.1)) (hbest (l := .n99) (fun x hx => List.mem_append.2 (Or.inr hx)) hok.1.2)
      exact ⟨tok, ps', h1, h2, h3, h4, by rw [h5]; simp, fun _ => htexts h5 hok.2⟩
    · obtain ⟨tok, ps', h1, h2, h3, h4, h5⟩ := english_hit (l := .n99) (ps := [skipRule u])
        (qs := [rule (words u enTo19) .number (some ⟨1, []⟩)]) (a := words u enTens) (tg := ⟨1, [.p1]⟩) ht hne rfl (by
          intro r hr
          simp only [List.mem_cons, List.not_mem_nil, or_false] at hr
          subst hr
          exact hskip) (hbest (l := .n99) (fun x hx => List.mem_append.2 (Or.inl hx)) hok.1)
      exact ⟨tok, ps', h1, h2, h3, h4, by rw [h5]; simp, fun _ => htexts h5 hok.2⟩
    -- p1
    · obtain ⟨tok, ps', h1, h2, h3, h4, h5⟩ := english_hit (l := .p1) (ps := [skipRule u]) (qs := []) (a := words u enUnits) (tg := ⟨1, []⟩) ht hne rfl (by
          intro r hr
          simp only [List.mem_cons, List.not_mem_nil, or_false] at hr
          subst hr
          exact hskip) (hbest (l := .p1) (fun x hx => hx) hok.1.2)
      exact ⟨tok, ps', h1, h2, h3, h4, by rw [h5]; simp, fun _ => htexts h5 hok.2⟩
    -- p2, p3, p6
    · obtain ⟨tok, ps', h1, h2, h3, h4, h5⟩ := english_hit (l := .p2) (ps := [skipRule u]) (qs := []) (a := lit u "hundred".toList) (tg := ⟨1, [.n99]⟩) ht hne
        rfl (by
          intro r hr
          simp only [List.mem_cons, List.not_mem_nil, or_false] at hr
          subst hr
          exact hskip) (by rw [hvl, ← hok]; exact lit_best hpre)
      exact ⟨tok, ps', h1, h2, h3, h4, by rw [h5]; simp, fun h => by simp [rank] at h⟩
    · obtain ⟨tok, ps', h1, h2, h3, h4, h5⟩ := english_hit (l := .p3) (ps := [skipRule u]) (qs := []) (a := lit u "thousand".toList) (tg := ⟨1, [.p2, .n99]⟩) ht
        hne rfl (by
          intro r hr
          simp only [List.mem_cons, List.not_mem_nil, or_false] at hr
          subst hr
          exact hskip) (by rw [hvl, ← hok]; exact lit_best hpre)
      exact ⟨tok, ps', h1, h2, h3, h4, by rw [h5]; simp, fun h => by simp [rank] at h⟩
    · obtain ⟨tok, ps', h1, h2, h3, h4, h5⟩ := english_hit (l := .p6) (ps := [skipRule u]) (qs := []) (a := lit u "million".toList)
        (tg := ⟨1, [.p3, .p2, .n99]⟩) ht hne rfl (by
          intro r hr
          simp only [List.mem_cons, List.not_mem_nil, or_false] at hr
          subst hr
          exact hskip) (by rw [hvl, ← hok]; exact lit_best hpre)
      exact ⟨tok, ps', h1, h2, h3, h4, by rw [h5]; simp, fun h => by simp [rank] at h⟩
  · intro l hlr hacc hsoft
    refine english_miss (Nat.le_of_lt hlt) hskip (fun x hx hp => ?_)
    have hxp := hfound x (lex_sub hx) hp
    by_cases hl : l = .p1
    · subst hl
      rcases hsoft rfl with ⟨n, rfl⟩ | hno
      · simp [accept] at hacc
      · have := List.all_eq_true.1 check_units x hx
        obtain ⟨⟨s, k'⟩, hs1, hs2⟩ := List.any_eq_true.1 this
        simp only [Bool.and_eq_true, beq_iff_eq] at hs2
        obtain ⟨rfl, hs3⟩ := hs2
        cases k' with
        | unit n => exact hno ⟨w, s, n, hw, hs1, hxp⟩
        | teen _ => cases hs3
        | tens _ => cases hs3
        | hundred => cases hs3
        | thousand => cases hs3
        | million => cases hs3
    · simp only [missOK, List.all_cons, List.all_nil, Bool.and_true, Bool.and_eq_true, Bool.or_eq_true, Bool.not_eq_true'] at hmiss
      obtain ⟨m1, _, m2, m3, m6⟩ := hmiss
      have hgen : (((accept l k).isSome = true ∨ (l == NL.p1) = true) ∨ (lexWords l).any (·.isPrefixOf w.toList) = false) → False := by
        rintro ((h | h) | h)
        · rw [hacc] at h; cases h
        · exact hl (by simpa using h)
        · exact List.any_eq_false.1 h x hx (List.isPrefixOf_iff_prefix.2 hxp)
      cases l with
      | root => exact absurd rfl hlr
      | number => simp [lexWords] at hx
      | n99 => exact hgen m1
      | p1 => exact absurd rfl hl
      | p2 => exact hgen m2
      | p3 => exact hgen m3
      | p6 => exact hgen m6

/-! ### Words after each other -/

/-- After a word for tens, no word follows that begins with a unit (other than a unit). -/
def Smooth : List Kind → Prop
  | a :: b :: ks => ((∃ v, a = .tens v) → Good b) ∧ Smooth (b :: ks)
  | _ => True

theorem Smooth.tail {a : Kind} {ks : List Kind} (h : Smooth (a :: ks)) : Smooth ks := by
  cases ks with
  | nil => trivial
  | cons b ks => exact h.2

theorem Smooth.append {ks ls : List Kind} (h1 : Smooth ks) (h2 : Smooth ls)
    (h : ∀ a ∈ ks.getLast?, ∀ b ∈ ls.head?, (∃ v, a = .tens v) → Good b) : Smooth (ks ++ ls) := by
  induction ks with
  | nil => exact h2
  | cons a ks ih =>
    cases ks with
    | nil =>
      cases ls with
      | nil => trivial
      | cons b ls => exact ⟨h a (by simp) b (by simp), h2⟩
    | cons b ks =>
      refine ⟨h1.1, ih h1.2 (fun x hx => h x ?_)⟩
      rw [List.getLast?_cons_cons]
      exact hx

theorem good_big : Good .hundred ∧ Good .thousand ∧ Good .million := by
  have key : ∀ k, enWords.all (fun x => !(x.2 == k) || !enWords.any (fun y => (match y.2 with | .unit _ => true | _ => false) && y.1.toList.isPrefixOf x.1.toList)) = true →
      Good k := by
    intro k h
    refine Or.inr ?_
    rintro ⟨w, x, v, h1, h2, h3⟩
    have := List.all_eq_true.1 h _ h1
    simp only [beq_self_eq_true, Bool.not_true, Bool.false_or, Bool.not_eq_true', List.any_eq_false] at this
    have h4 := this _ h2
    simp only [Bool.true_and, Bool.not_eq_true, ← Bool.not_eq_true, List.isPrefixOf_iff_prefix] at h4
    exact h4 h3
  exact ⟨key _ (by decide +kernel), key _ (by decide +kernel), key _ (by decide +kernel)⟩

theorem smooth_with {S : List Kind → Nat → Prop} {h : Kind} {f : Nat} (hS : ∀ ks a, S ks a → Smooth ks) (hh : Good h) (hn : ∀ v, h ≠ .tens v)
    {ks : List Kind} {a : Nat} (hw : With S h f ks a) : Smooth ks := by
  have hcons : ∀ {ls : List Kind}, Smooth ls → Smooth (h :: ls) := by
    intro ls hl
    cases ls with
    | nil => trivial
    | cons b ls => exact ⟨fun ⟨v, hv⟩ => absurd hv (hn v), hl⟩
  cases hw with
  | plain h1 => exact hS _ _ h1
  | bare => trivial
  | times h1 =>
    refine (hS _ _ h1).append trivial ?_
    intro a _ b hb _
    simp only [List.head?_cons, Option.mem_def, Option.some.injEq] at hb
    exact hb ▸ hh
  | bareAnd h1 => exact hcons (hS _ _ h1)
  | timesAnd h1 h2 =>
    refine (hS _ _ h1).append (hcons (hS _ _ h2)) ?_
    intro a _ b hb _
    simp only [List.head?_cons, Option.mem_def, Option.some.injEq] at hb
    exact hb ▸ hh

theorem smooth_phrase {ks : List Kind} {n : Nat} (h : Phrase ks n) : Smooth ks := by
  obtain ⟨g1, g2, g3⟩ := good_big
  refine smooth_with (fun _ _ => smooth_with (fun _ _ => smooth_with (fun ks a h => ?_) g1 (by simp)) g2 (by simp)) g3 (by simp) h
  cases h with
  | unit v => trivial
  | teen v => trivial
  | tens v => trivial
  | both v w => exact ⟨fun _ => Or.inl ⟨w, rfl⟩, trivial⟩

theorem smooth_numbers {ns : List Nat} {ks : List Kind} (h : Numbers Clear ns ks) : Smooth ks := by
  induction h with
  | nil => trivial
  | cons hp _ hab ih => exact (smooth_phrase hp).append ih (fun a ha b hb hv => Or.inr ((hab a ha b hb).2 hv))

/-! ### Texts -/

/-- The machines do the same from here. -/
def Eqv (m m' : M) : Prop := m.close = m'.close ∧ ∀ k, feed m k = feed m' k

theorem Eqv.rest (m : M) : Eqv (rest m) m := ⟨close_rest m, feed_rest m⟩

theorem Eqv.feeds {m m' : M} (h : Eqv m m') (ks : List Kind) : Eqv (feeds m ks) (feeds m' ks) := by
  cases ks with
  | nil => exact h
  | cons k ks =>
    have : Num.feeds m (k :: ks) = Num.feeds m' (k :: ks) := by
      show Num.feeds (feed m k) ks = Num.feeds (feed m' k) ks
      rw [h.2 k]
    rw [this]
    exact ⟨rfl, fun _ => rfl⟩

theorem Eqv.trans {m m' m'' : M} (h1 : Eqv m m') (h2 : Eqv m' m'') : Eqv m m'' := ⟨h1.1.trans h2.1, fun k => (h1.2 k).trans (h2.2 k)⟩

theorem sep_skip {c : Char} : Sep u c ↔ isSkip u c = true := by simp [Sep, isSkip]

/-- After the words: the end, or another character. -/
def Ends (u : Uni) (r : List Char) : Prop := ∀ c ∈ r.head?, Other u c

theorem follows_ends {r : List Char} (h : Ends u r) : Follows u r := by
  cases r with
  | nil => exact Or.inl rfl
  | cons c r => exact Or.inr (Or.inl ⟨c, r, rfl, (h c (by simp)).2⟩)

theorem follows_written (hu : u.Ascii) {ks : List Kind} {s r : List Char} (h : Written u ks s) (hr : Ends u r) : Follows u (s ++ r) := by
  cases h with
  | nil => exact follows_ends hr
  | @word k ks w v s t hw hv hs ht =>
    refine Or.inr (Or.inr ⟨w.toList, word_mem hw, ?_⟩)
    rw [List.append_assoc, List.append_assoc, List.map_append, letters_fold hu (word_mem hw) hv]
    exact List.prefix_append _ _

theorem noskip_written (hu : u.Ascii) {ks : List Kind} {s r : List Char} (h : Written u ks s) (hr : Ends u r) :
    ∀ c ∈ (s ++ r).head?, isSkip u c = false := by
  cases h with
  | nil =>
    intro c hc
    have := (hr c hc).1
    rw [sep_skip] at this
    simpa using this
  | @word k ks w v s t hw hv hs ht =>
    intro c hc
    have hne : v ≠ [] := by
      rintro rfl
      exact (word_alpha (word_mem hw)).1 hv.symm
    obtain ⟨c', v', rfl⟩ := List.exists_cons_of_ne_nil hne
    simp only [List.cons_append, List.head?_cons, Option.mem_def, Option.some.injEq] at hc
    subst hc
    exact letter_skip hu (letters (word_mem hw) hv _ (List.mem_cons_self ..))

theorem p1_rest {m : M} {y : NL × Option Nat} (h : y ∈ (rest m).fs) (h1 : y.1 = .p1) : y ∈ m.fs := by
  unfold rest at h
  split at h
  · exact absurd h1 (full_p1 y h)
  · exact absurd h1 (full_p1 y h)
  · exact h

/-- The context for units is only there after a word for tens. -/
theorem p1_down {k : Kind} {d : List Nat} {fs : Stk} : ∀ {x : Option Nat} {m : M}, Wf fs → down d x k fs = .inl m →
    ∀ y ∈ m.fs, y.1 = .p1 → ∃ v, k = .tens v := by
  induction fs with
  | nil => intro x m _ h; simp [down] at h
  | cons f fs ih =>
    intro x m hw h y hy h1
    obtain ⟨l, o⟩ := f
    rw [down] at h
    cases ha : accept l k with
    | none => rw [ha] at h; exact ih (wf_tail hw) h y hy h1
    | some ls =>
      rw [ha] at h
      simp only [Sum.inl.injEq] at h
      subst h
      simp only [pushM, addM] at hy
      rcases List.mem_append.1 hy with hy | hy
      · obtain ⟨y', hy', rfl⟩ := List.mem_map.1 hy
        simp only at h1
        subst h1
        cases l <;> cases k <;> simp only [accept, Option.some.injEq, reduceCtorEq] at ha <;> subst ha <;> first | exact ⟨_, rfl⟩ | (simp at hy')
      · exfalso
        have : y.1 ∈ (addL (gain l (plus o x) k) fs).map (·.1) := List.mem_map.2 ⟨y, hy, rfl⟩
        rw [addL_lex] at this
        obtain ⟨z, hz, he⟩ := List.mem_map.1 this
        have := (List.pairwise_cons.1 hw.1).1 z hz
        rw [he, h1] at this
        simp [rank] at this

theorem p1_feed {m : M} (hw : Wf m.fs) {k : Kind} : ∀ y ∈ (feed m k).fs, y.1 = .p1 → ∃ v, k = .tens v := by
  unfold feed
  split
  · next m' hm => exact p1_down hw hm
  · next d hd =>
    split
    · next m' hm => exact p1_down wf_full hm
    · intro y hy; simp at hy

/-- The words are read. -/
theorem gm_written (hu : u.Ascii) {ks : List Kind} {s : List Char} (h : Written u ks s) : ∀ {p : Nat} {r : List Char} {m : M}, t.drop p = s ++ r →
    Ends u r → Wf m.fs → Smooth ks → (∀ y ∈ m.fs, y.1 = .p1 → ∀ k ∈ ks.head?, Good k) →
    ∃ m', GM u (english u) t p m (Before p) (p + s.length) m' (Before (p + s.length)) ∧ Wf m'.fs ∧ Eqv m' (feeds m ks) := by
  induction h with
  | nil => intro p r m _ _ hw _ _; exact ⟨m, .refl (fun _ h => h), hw, rfl, fun _ => rfl⟩
  | @word k ks w v s t' hw hv hs hwr ih =>
    intro p r m ht hr hwf hsm hp1
    have ht1 : t.drop p = v ++ (s ++ (t' ++ r)) := by rw [ht]; simp
    have hfol : Follows u (s ++ (t' ++ r)) := by
      cases s with
      | nil => rw [List.nil_append]; exact follows_written hu hwr hr
      | cons c s => exact Or.inr (Or.inl ⟨c, _, rfl, hu.sep c (hs c (List.mem_cons_self ..))⟩)
    have hreads := english_reads hu ht1 hw hv hfol
    have h1 := (gm_word hreads hwf (fun y hy hy1 => hp1 y hy hy1 k (by simp))).mono (Q' := Before (p + v.length)) (fun _ h => h) (by
      rintro c rfl e he
      cases he)
    have hwf1 := wf_feed hwf k
    have hp1' : ∀ y ∈ (feed m k).fs, y.1 = .p1 → ∀ k' ∈ ks.head?, Good k' := by
      intro y hy hy1 k' hk'
      have := p1_feed hwf y hy hy1
      cases ks with
      | nil => cases hk'
      | cons b ks =>
        simp only [List.head?_cons, Option.mem_def, Option.some.injEq] at hk'
        subst hk'
        exact hsm.1 this
    have ht2 : t.drop (p + v.length) = s ++ (t' ++ r) := by rw [← List.drop_drop, ht1, List.drop_left]
    have hlen : p + (v ++ s ++ t').length = p + v.length + s.length + t'.length := by simp; omega
    rw [hlen]
    by_cases hse : s = []
    · subst hse
      obtain ⟨m', h2, h3, h4⟩ := ih (m := feed m k) ht2 hr hwf1 hsm.tail hp1'
      exact ⟨m', h1.trans h2, h3, h4⟩
    · have hbl : BlankAt u t (p + v.length) s := ⟨hse, ⟨_, ht2, noskip_written hu hwr hr⟩, fun c hc => sep_skip.1 (hs c hc)⟩
      have h5 := gm_blank (g := english u) hbl hwf1
      have ht3 : t.drop (p + v.length + s.length) = t' ++ r := by rw [← List.drop_drop, ht2, List.drop_left]
      obtain ⟨m', h2, h3, h4⟩ := ih (m := rest (feed m k)) ht3 hr (wf_rest hwf1) hsm.tail (fun y hy hy1 => hp1' y (p1_rest hy hy1) hy1)
      exact ⟨m', h1.trans (h5.trans h2), h3, h4.trans ((Eqv.rest (feed m k)).feeds ks)⟩

/-- At another character, no rule matches. -/
theorem junk_other {p : Nat} {c : Char} {r : List Char} (ht : t.drop p = c :: r) (hc : Other u c) : JunkAt u (english u) t p := by
  have hlt : p < t.length := by
    have := congrArg List.length ht
    simp at this
    omega
  have hget : t[p]? = some c := drop_get ht
  refine ⟨hlt, fun l hl => english_miss (Nat.le_of_lt hlt) (skip_fails hget ?_) (fun x hx hp => ?_)⟩
  · have := hc.1
    rw [sep_skip] at this
    simpa using this
  · obtain ⟨h1, h2⟩ := word_alpha (lex_sub hx)
    obtain ⟨x0, xs, rfl⟩ := List.exists_cons_of_ne_nil h1
    rw [folded_some hget] at hp
    have h3 := (List.cons_prefix_cons.1 hp).1
    have h4 := h2 x0 (List.mem_cons_self ..)
    rw [h3, hc.2] at h4
    cases h4

theorem no_more (l : NL) : rxMatch ((rules u (english u) l).map (·.pat)) t t.length = none := by
  have hget : t[t.length]? = none := by simp
  refine english_miss (Nat.le_refl _) ?_ ?_
  · rintro q ⟨r, ⟨_, y, h1, _⟩, _⟩
    rw [hget] at h1
    cases h1
  · intro x hx hp
    rw [folded_none hget] at hp
    exact (word_alpha (lex_sub hx)).1 (List.prefix_nil.1 hp)

/-- Blanks, if there are any. -/
theorem gm_seps {g : Tongue} {p : Nat} {s r : List Char} {m : M} (ht : t.drop p = s ++ r) (hs : ∀ c ∈ s, Sep u c)
    (hr : ∀ c ∈ r.head?, isSkip u c = false) (hw : Wf m.fs) :
    ∃ m', GM u g t p m (Before p) (p + s.length) m' (Before (p + s.length)) ∧ Wf m'.fs ∧ Eqv m' m ∧ (∀ y ∈ m'.fs, y.1 = .p1 → y ∈ m.fs) := by
  by_cases hse : s = []
  · subst hse
    exact ⟨m, .refl (fun _ h => h), hw, ⟨rfl, fun _ => rfl⟩, fun _ h _ => h⟩
  · exact ⟨rest m, gm_blank ⟨hse, ⟨_, ht, hr⟩, fun c hc => sep_skip.1 (hs c hc)⟩ hw, wf_rest hw, .rest m, fun y hy h1 => p1_rest hy h1⟩

theorem gm_texts (hu : u.Ascii) {ns : List Nat} {s : List Char} (h : Texts u Clear ns s) : ∀ {p : Nat} {m : M} {d : List Nat}, p ≤ t.length → t.drop p = s →
    Wf m.fs → Eqv m ⟨d, []⟩ → (∀ y ∈ m.fs, y.1 ≠ .p1) →
    ∃ m' P, GM u (english u) t p m (Before p) t.length m' P ∧ Wf m'.fs ∧ m'.close = d ++ ns := by
  have hseg : ∀ {ns : List Nat} {ks : List Kind} {s t' r : List Char}, (∀ c ∈ s, Sep u c) → Numbers Clear ns ks → Written u ks t' → Ends u r →
      ∀ {p : Nat} {m : M} {d : List Nat}, t.drop p = s ++ (t' ++ r) → Wf m.fs → Eqv m ⟨d, []⟩ → (∀ y ∈ m.fs, y.1 ≠ .p1) →
      ∃ m', GM u (english u) t p m (Before p) (p + s.length + t'.length) m' (Before (p + s.length + t'.length)) ∧ Wf m'.fs ∧ m'.close = d ++ ns := by
    intro ns ks s t' r hs hn hwr hr p m d ht hw he hp1
    obtain ⟨m1, h1, h2, h3, h4⟩ := gm_seps (g := english u) ht hs (noskip_written hu hwr hr) hw
    have ht2 : t.drop (p + s.length) = t' ++ r := by rw [← List.drop_drop, ht, List.drop_left]
    obtain ⟨m', h5, h6, h7⟩ := gm_written hu hwr (m := m1) ht2 hr h2 (smooth_numbers hn) (fun y hy hy1 => absurd hy1 (hp1 y (h4 y hy hy1)))
    refine ⟨m', h1.trans h5, h6, ?_⟩
    rw [h7.1, ((h3.trans he).feeds ks).1]
    exact feeds_numbers (fun a b h => h.1) hn d
  induction h with
  | @last ns ks s t' hs hn hwr =>
    intro p m d hp ht hw he hp1
    obtain ⟨m', h1, h2, h3⟩ := hseg (r := []) hs hn hwr (fun c hc => by cases hc) (p := p) (m := m) (by rw [ht]; simp) hw he hp1
    have : p + s.length + t'.length = t.length := by
      have := congrArg List.length ht
      simp at this
      omega
    rw [this] at h1
    exact ⟨m', _, h1, h2, h3⟩
  | @more ns ms ks s t' r c hs hn hwr hc _ ih =>
    intro p m d hp ht hw he hp1
    have ht1 : t.drop p = s ++ (t' ++ (c :: r)) := by rw [ht]; simp
    obtain ⟨m', h1, h2, h3⟩ := hseg (r := c :: r) hs hn hwr (fun x hx => by
      simp only [List.head?_cons, Option.mem_def, Option.some.injEq] at hx
      exact hx ▸ hc) (p := p) (m := m) ht1 hw he hp1
    have ht2 : t.drop (p + s.length + t'.length) = c :: r := by rw [← List.drop_drop, ← List.drop_drop, ht1, List.drop_left, List.drop_left]
    have hj := junk_other ht2 hc
    have h4 := gm_junk (g := english u) hj h2
    have ht3 : t.drop (p + s.length + t'.length + 1) = r := by rw [← List.drop_drop, ht2]; rfl
    obtain ⟨m'', P, h5, h6, h7⟩ := ih (m := ⟨m'.close, fullFs⟩) (d := m'.close) (Nat.succ_le_of_lt hj.lt) ht3 wf_full
      (Eqv.rest ⟨m'.close, []⟩) full_p1
    refine ⟨m'', P, h1.trans (h4.trans (h5.mono (by rintro c rfl e he; cases he) (fun _ h => h))), h6, ?_⟩
    rw [h7, h3, List.append_assoc]

end Parce.Num

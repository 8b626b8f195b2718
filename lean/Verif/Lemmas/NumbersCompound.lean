import Verif.Lemmas.NumbersEnglish
import Verif.Spec.NumbersMore
/-!
# Languages with compound number words
-/
namespace Parce.Num
variable {u : Uni} {t : List Char}

/-- The lists of words in the code of a language with compound words. -/
structure Comp where
  teens : List Word
  units : List Word
  tens : List Word
  joins : List Word
  rest : List (List Word)
  hundred : Word
  thousand : Word
  million : Word
  values : List (Word × Nat)

/-- The expression for a unit and tens. -/
def pairPat (u : Uni) (C : Comp) (J : Pat Char) : Pat Char :=
  .cat (.grp 1 (words u C.units)) (.opt (.cat (spaces u) (.cat J (.cat (spaces u) (.grp 2 (words u C.tens))))))

def Comp.tongue (u : Uni) (C : Comp) (J : Pat Char) : Tongue where
  n99 := rule (words u C.teens) .number (some ⟨1, []⟩) :: rule (pairPat u C J) .pair (some ⟨1, []⟩) ::
    C.rest.map (fun ws => rule (words u ws) .number (some ⟨1, []⟩))
  p1 := []
  hundred := lit u C.hundred
  thousand := lit u C.thousand
  million := lit u C.million
  values := C.values

def Comp.bigs (C : Comp) : List Word := [C.hundred, C.thousand, C.million]

/-- All words that are looked for at the start of a number below hundred. -/
def Comp.all (C : Comp) : List Word := C.teens ++ C.units ++ C.rest.flatten

/-- No word of the first list begins with one of the second. -/
def noPrefix (ws xs : List Word) : Bool := ws.all (fun w => xs.all (fun x => !x.isPrefixOf w))

/-- What is checked of the words. -/
structure Comp.OK (C : Comp) (X : Lexis) : Prop where
  letters : (C.all ++ C.tens ++ C.bigs ++ C.joins).all (fun w => !w.isEmpty && w.all isLetter) = true
  follow : (C.all ++ C.tens).all (fun w => (C.all ++ C.tens).all (fun x => !w.isPrefixOf x || w == x ||
    (C.bigs ++ C.joins).all (fun f => !f.isPrefixOf (x.drop w.length) && !(x.drop w.length).isPrefixOf f))) = true
  joinBig : (noPrefix C.bigs C.joins && noPrefix C.joins C.bigs) = true
  bigAll : (noPrefix C.bigs C.all && noPrefix C.all C.bigs && noPrefix C.tens C.bigs) = true
  bigBig : C.bigs.all (fun w => C.bigs.all (fun x => w == x || !x.isPrefixOf w)) = true
  units : X.units.all (fun x => C.units.contains x.1.toList && look C.values x.1.toList == some x.2) = true
  teens : X.teens.all (fun x => C.teens.contains x.1.toList && look C.values x.1.toList == some x.2) = true
  tens : X.tens.all (fun x => C.tens.contains x.1.toList && look C.values x.1.toList == some x.2) = true
  joins : X.joins.all (fun j => C.joins.contains j.toList) = true
  small : X.small.all (fun x => (C.teens ++ C.units).all (fun y => !y.isPrefixOf x.1.toList) && C.rest.flatten.contains x.1.toList &&
    C.rest.flatten.all (fun y => !y.isPrefixOf x.1.toList || y == x.1.toList) && look C.values x.1.toList == some x.2) = true
  bigNe : C.hundred ≠ C.thousand ∧ C.hundred ≠ C.million ∧ C.thousand ≠ C.million
  unitTeens : noPrefix C.units C.teens = true
  big : X.hundred.toList = C.hundred ∧ X.thousand.toList = C.thousand ∧ X.million.toList = C.million

section
variable {C : Comp} {X : Lexis} {J : Pat Char}

theorem noPrefix_iff {ws xs : List Word} : noPrefix ws xs = true ↔ ∀ w ∈ ws, ∀ x ∈ xs, ¬ x <+: w := by
  simp only [noPrefix, List.all_eq_true, Bool.not_eq_true', ← Bool.not_eq_true, List.isPrefixOf_iff_prefix]

theorem prefix_comparable {x y r : List Char} (h1 : x <+: r) (h2 : y <+: r) : x <+: y ∨ y <+: x := by
  rcases Nat.le_total x.length y.length with h | h
  · exact Or.inl (List.prefix_of_prefix_length_le h1 h2 h)
  · exact Or.inr (List.prefix_of_prefix_length_le h2 h1 h)

theorem Comp.OK.letter (ok : C.OK X) {w : Word} (h : w ∈ C.all ++ C.tens ++ C.bigs ++ C.joins) : w ≠ [] ∧ ∀ c ∈ w, isLetter c = true := by
  have := List.all_eq_true.1 ok.letters w h
  simp only [Bool.and_eq_true, Bool.not_eq_true', List.all_eq_true, List.isEmpty_eq_false_iff] at this
  exact this

/-- What comes after a word below hundred, in one word: the end, something that is no letter, a big word or (after a unit) what is before tens. -/
def CFollows (u : Uni) (C : Comp) (post : List Char) : Prop :=
  post = [] ∨ (∃ c r, post = c :: r ∧ isLetter (u.fold c) = false) ∨ ∃ f ∈ C.bigs ++ C.joins, f <+: post.map u.fold

theorem cfound (ok : C.OK X) {w x : Word} {post : List Char} (hw : w ∈ C.all ++ C.tens) (hx : x ∈ C.all ++ C.tens) (hf : CFollows u C post)
    (h : x <+: w ++ post.map u.fold) : x <+: w := by
  rcases prefix_cases h with h | ⟨y, rfl, hy, hpre⟩
  · exact h
  · exfalso
    have hchk := List.all_eq_true.1 (List.all_eq_true.1 ok.follow w hw) _ hx
    have h1 : w.isPrefixOf (w ++ y) = true := List.isPrefixOf_iff_prefix.2 (List.prefix_append _ _)
    have h2 : (w == w ++ y) = false := by
      simp only [beq_eq_false_iff_ne, ne_eq]
      intro h'
      have h3 := congrArg List.length h'
      have h4 := List.length_pos_iff.2 hy
      rw [List.length_append] at h3
      omega
    simp only [h1, Bool.not_true, h2, Bool.false_or, List.drop_left, List.all_eq_true] at hchk
    rcases hf with rfl | ⟨c, r, rfl, hc⟩ | ⟨f, hfm, hfp⟩
    · exact hy (List.prefix_nil.1 hpre)
    · obtain ⟨y0, ys, rfl⟩ := List.exists_cons_of_ne_nil hy
      rw [List.map_cons] at hpre
      have : y0 = u.fold c := (List.cons_prefix_cons.1 hpre).1
      subst this
      have := (ok.letter (w := w ++ u.fold c :: ys) (by simp only [List.mem_append] at hx ⊢; exact Or.inl (Or.inl hx))).2 (u.fold c) (by simp)
      rw [this] at hc
      cases hc
    · have := hchk f hfm
      simp only [Bool.and_eq_true, Bool.not_eq_true'] at this
      rcases prefix_comparable hfp hpre with hl | hl
      · have := List.isPrefixOf_iff_prefix.2 hl
        simp_all
      · have := List.isPrefixOf_iff_prefix.2 hl
        simp_all

/-- What the expression between unit and tens matches. -/
structure JoinOK (u : Uni) (C : Comp) (J : Pat Char) : Prop where
  best : ∀ (t : List Char) (p : Nat) (j : Word), j ∈ C.joins → j <+: folded u t p → Best t J p (p + j.length)
  fails : ∀ (t : List Char) (p : Nat), (∀ j ∈ C.joins, ¬ j <+: folded u t p) → Fails t J p

/-- Separators are no letters. -/
def SepOK (u : Uni) : Prop := ∀ c, Sep u c → isLetter (u.fold c) = false

/-- What comes after the words for a number below hundred: separators, and then the end, something strange, or a big word. -/
def After (u : Uni) (C : Comp) (post : List Char) : Prop :=
  ∃ s r, post = s ++ r ∧ (∀ c ∈ s, Sep u c) ∧ ((∀ c ∈ r.head?, Strange u c) ∨ ∃ f ∈ C.bigs, f <+: r.map u.fold)

theorem After.follows (hs : SepOK u) {post : List Char} (h : After u C post) : CFollows u C post := by
  obtain ⟨s, r, rfl, h1, h2⟩ := h
  cases s with
  | cons c s => exact Or.inr (Or.inl ⟨c, s ++ r, rfl, hs c (h1 c (List.mem_cons_self ..))⟩)
  | nil =>
    rw [List.nil_append]
    rcases h2 with h2 | ⟨f, h3, h4⟩
    · cases r with
      | nil => exact Or.inl rfl
      | cons c r => exact Or.inr (Or.inl ⟨c, r, rfl, (h2 c (by simp)).2⟩)
    · exact Or.inr (Or.inr ⟨f, List.mem_append.2 (Or.inl h3), h4⟩)

theorem star_chars {f : Char → Bool} {p q : Nat} (h : Relation.ReflTransGen ((Pat.set f).mat t) p q) :
    p ≤ q ∧ ∀ i, p ≤ i → i < q → ∃ x, t[i]? = some x ∧ f x = true := by
  induction h with
  | refl => exact ⟨Nat.le_refl _, fun i h1 h2 => by omega⟩
  | @tail b _ _ hbc ih =>
    obtain ⟨rfl, x, hx⟩ := hbc
    refine ⟨by omega, fun i h1 h2 => ?_⟩
    by_cases hi : i < b
    · exact ih.2 i h1 hi
    · have := Nat.le_antisymm (Nat.le_of_lt_succ h2) (Nat.le_of_not_lt hi)
      subst this
      exact ⟨x, hx⟩

/-- After a unit there are no tens. -/
theorem no_join (ok : C.OK X) (hJ : JoinOK u C J) (hs : SepOK u) {p : Nat} {post : List Char} (ht : t.drop p = post) (h : After u C post) (b : Pat Char) :
    Fails t (.cat (spaces u) (.cat J b)) p := by
  rintro q ⟨r, h1, r', h2, _⟩
  obtain ⟨s, r0, rfl, hsep, hr⟩ := h
  obtain ⟨h3, h4⟩ := star_chars h1
  have hjl : ∀ j ∈ C.joins, j ≠ [] ∧ ∀ c ∈ j, isLetter c = true := fun j hj => ok.letter (List.mem_append.2 (Or.inr hj))
  refine hJ.fails t r (fun j hj hp => ?_) r' h2
  obtain ⟨hj1, hj2⟩ := hjl j hj
  obtain ⟨j0, js, rfl⟩ := List.exists_cons_of_ne_nil hj1
  -- the position is in the separators or after them
  have hle : r ≤ p + s.length := by
    apply Classical.byContradiction
    intro hlt
    obtain ⟨x, hx, hxs⟩ := h4 (p + s.length) (by omega) (by omega)
    have hd : t.drop (p + s.length) = r0 := by rw [← List.drop_drop, ht, List.drop_left]
    have hx0 : r0.head? = some x := by rw [← hd, List.head?_drop, hx]
    have hxsep : Sep u x := Or.inl hxs
    rcases hr with hr | ⟨f, hf, hfp⟩
    · exact (hr x hx0).1 hxsep
    · cases r0 with
      | nil => cases hx0
      | cons y r0 =>
        simp only [List.head?_cons, Option.some.injEq] at hx0
        subst hx0
        obtain ⟨hf1, hf2⟩ := ok.letter (w := f) (by simp only [List.mem_append]; exact Or.inl (Or.inr hf))
        obtain ⟨f0, fs, rfl⟩ := List.exists_cons_of_ne_nil hf1
        rw [List.map_cons] at hfp
        have := (List.cons_prefix_cons.1 hfp).1
        have h5 := hf2 f0 (List.mem_cons_self ..)
        rw [this, hs y hxsep] at h5
        cases h5
  have hd : t.drop r = s.drop (r - p) ++ r0 := by
    have : r = p + (r - p) := by omega
    rw [this, ← List.drop_drop, ht, List.drop_append_of_le_length (by omega)]
    congr 2
    omega
  rw [folded, hd] at hp
  cases hsd : s.drop (r - p) with
  | cons c s' =>
    rw [hsd, List.cons_append, List.map_cons] at hp
    have hc : c ∈ s := List.mem_of_mem_drop (by rw [hsd]; exact List.mem_cons_self ..)
    have h5 := hj2 j0 (List.mem_cons_self ..)
    rw [(List.cons_prefix_cons.1 hp).1, hs c (hsep c hc)] at h5
    cases h5
  | nil =>
    rw [hsd, List.nil_append] at hp
    rcases hr with hr | ⟨f, hf, hfp⟩
    · cases r0 with
      | nil => cases (List.prefix_nil.1 hp)
      | cons c r0 =>
        rw [List.map_cons] at hp
        have h5 := hj2 j0 (List.mem_cons_self ..)
        rw [(List.cons_prefix_cons.1 hp).1, (hr c (by simp)).2] at h5
        cases h5
    · have h6 := ok.joinBig
      simp only [Bool.and_eq_true, noPrefix_iff] at h6
      rcases prefix_comparable hfp hp with hl | hl
      · exact h6.2 _ hj f hf hl
      · exact h6.1 f hf _ hj hl

/-- A rule with the action for numbers finds a word. -/
theorem tongue_hit {g : Tongue} {p : Nat} {v post : List Char} {l : NL} {ps qs : List (PRule Char NL NA)} {a : Pat Char} {tg : Target NL}
    (ht : t.drop p = v ++ post) (hv : v ≠ []) (hr : rules u g l = ps ++ rule a .number (some tg) :: qs) (hf : ∀ r ∈ ps, Fails t r.pat p)
    (hb : Best t a p (p + v.length)) :
    ∃ tok ps', parseNext (lang u g).noAct ((lang u g).ld l) t (.at p false) = some (tok, ps') ∧
      tok.pos = p ∧ tok.text = v ∧ tok.tgt = some tg ∧ (lang u g).expand tok = [⟨p, v, .number⟩] := by
  have hlt : p < t.length := by
    have := congrArg List.length ht
    have h2 := List.length_pos_iff.2 hv
    simp at this
    omega
  have hm : rxMatch ((rules u g l).map (·.pat)) t p = some ⟨p, p + v.length, ⟨ps.length, []⟩⟩ := by
    rw [hr, List.map_append, List.map_cons]
    have := rxMatch_best (ps := ps.map (·.pat)) (qs := qs.map (·.pat)) (a := a) (t := t) (p := p) (by
      intro b hb'
      obtain ⟨r, hr', rfl⟩ := List.mem_map.1 hb'
      exact hf r hr') hb (Nat.le_of_lt hlt)
    rw [List.length_map] at this
    exact this
  have hpm := parse_match (noAct := NA.none) (dl := dflt l) hm (r := rule a .number (some tg)) (by rw [hr]; simp)
  have hsl : slice t p (p + v.length) = v := slice_here ht
  rw [hsl] at hpm
  exact ⟨_, _, hpm, rfl, rfl, rfl, rfl⟩

/-- The rule for unit and tens finds a word. -/
theorem pair_hit {g : Tongue} {p : Nat} {v post : List Char} {l : NL} {ps qs : List (PRule Char NL NA)} {a : Pat Char} {tg : Target NL} {cs : Caps}
    (ht : t.drop p = v ++ post) (hv : v ≠ []) (hr : rules u g l = ps ++ rule a .pair (some tg) :: qs) (hf : ∀ r ∈ ps, Fails t r.pat p)
    (hb : BestC t a p (p + v.length) cs) :
    ∃ tok ps', parseNext (lang u g).noAct ((lang u g).ld l) t (.at p false) = some (tok, ps') ∧
      tok.pos = p ∧ tok.text = v ∧ tok.tgt = some tg ∧ (lang u g).expand tok =
        ([(NA.number, 1), (NA.number, 2)]).flatMap (fun x => match groupOf (Caps.rel p cs) x.2 with
          | none => []
          | some (s, e) => if slice v s e = [] then [] else [⟨p + s, slice v s e, x.1⟩]) := by
  have hlt : p < t.length := by
    have := congrArg List.length ht
    have h2 := List.length_pos_iff.2 hv
    simp at this
    omega
  have hm : rxMatch ((rules u g l).map (·.pat)) t p = some ⟨p, p + v.length, ⟨ps.length, Caps.rel p cs⟩⟩ := by
    rw [hr, List.map_append, List.map_cons]
    have := rxMatch_bestC (ps := ps.map (·.pat)) (qs := qs.map (·.pat)) (a := a) (t := t) (p := p) (by
      intro b hb'
      obtain ⟨r, hr', rfl⟩ := List.mem_map.1 hb'
      exact hf r hr') hb (Nat.le_of_lt hlt)
    rw [List.length_map] at this
    exact this
  have hpm := parse_match (noAct := NA.none) (dl := dflt l) hm (r := rule a .pair (some tg)) (by rw [hr]; simp)
  have hsl : slice t p (p + v.length) = v := slice_here ht
  rw [hsl] at hpm
  refine ⟨_, _, hpm, rfl, rfl, rfl, ?_⟩
  rfl

theorem low_incase {v : List Char} {w : Word} (h : InCase u v w) : v.flatMap u.low = w := by
  obtain ⟨rfl, h1⟩ := h
  induction v with
  | nil => rfl
  | cons c v ih =>
    simp only [List.flatMap_cons, List.map_cons, h1 c (List.mem_cons_self ..), ih (fun x hx => h1 x (List.mem_cons_of_mem _ hx))]
    rfl

theorem incase_fold {p : Nat} {v post : List Char} {w : Word} (ht : t.drop p = v ++ post) (h : InCase u v w) : folded u t p = w ++ post.map u.fold := by
  rw [folded, ht, List.map_append, h.1]

theorem incase_len {v : List Char} {w : Word} (h : InCase u v w) : v.length = w.length := by rw [← h.1, List.length_map]

theorem incase_split {v : List Char} {w x : Word} (h : InCase u v (w ++ x)) : ∃ v1 v2, v = v1 ++ v2 ∧ InCase u v1 w ∧ InCase u v2 x := by
  obtain ⟨v1, v2, rfl, h1, h2⟩ := List.map_eq_append_iff.1 h.1
  exact ⟨v1, v2, rfl, ⟨h1, fun c hc => h.2 c (List.mem_append.2 (Or.inl hc))⟩, ⟨h2, fun c hc => h.2 c (List.mem_append.2 (Or.inr hc))⟩⟩

theorem letter_noskip (hs : SepOK u) {c : Char} (h : isLetter (u.fold c) = true) : isSkip u c = false := by
  cases hk : isSkip u c with
  | false => rfl
  | true => rw [hs c (sep_skip.2 hk)] at h; cases h

/-- The first letter of a word is not skipped. -/
theorem word_noskip (hs : SepOK u) {p : Nat} {v post : List Char} {w : Word} (ht : t.drop p = v ++ post) (h : InCase u v w)
    (hw : w ≠ [] ∧ ∀ c ∈ w, isLetter c = true) : Fails t (.plus (.set (isSkip u))) p := by
  obtain ⟨h1, h2⟩ := hw
  cases v with
  | nil => exact absurd h.1.symm h1
  | cons c v =>
    refine skip_fails (drop_get ht) (letter_noskip hs (h2 _ ?_))
    rw [← h.1]
    simp

theorem mem_all_n {x : Word} : x ∈ C.all ↔ x ∈ C.teens ∨ x ∈ C.units ∨ x ∈ C.rest.flatten := by
  simp only [Comp.all, List.mem_append, or_assoc]

/-- A word below hundred is not found where something else is. -/
theorem n99_miss {p : Nat} (hp : p ≤ t.length) (hsk : Fails t (.plus (.set (isSkip u))) p) (h : ∀ x ∈ C.all, ¬ x <+: folded u t p) :
    rxMatch ((rules u (C.tongue u J) .n99).map (·.pat)) t p = none := by
  rw [rxMatch_none hp]
  rintro ⟨a, ha, q, hq⟩
  simp only [rules, Comp.tongue, rule, skipRule, List.map_cons, List.mem_cons, List.map_map, List.mem_map, Function.comp] at ha
  rcases ha with rfl | rfl | rfl | ⟨ws, hws, rfl⟩
  · exact hsk q hq
  · exact words_fails (fun x hx => h x (mem_all_n.2 (Or.inl hx))) q hq
  · obtain ⟨r, h1, _⟩ := hq
    exact words_fails (fun x hx => h x (mem_all_n.2 (Or.inr (Or.inl hx)))) r h1
  · exact words_fails (fun x hx => h x (mem_all_n.2 (Or.inr (Or.inr (List.mem_flatten.2 ⟨ws, hws, hx⟩))))) q hq

/-- The other lexicons do not find it either. -/
theorem other_miss {p : Nat} (hp : p ≤ t.length) (hsk : Fails t (.plus (.set (isSkip u))) p) {l : NL} (hl : l ≠ .n99)
    (h : ∀ x, (l = .p2 → x = C.hundred) → (l = .p3 → x = C.thousand) → (l = .p6 → x = C.million) → (l = .p2 ∨ l = .p3 ∨ l = .p6) →
      ¬ x <+: folded u t p) : rxMatch ((rules u (C.tongue u J) l).map (·.pat)) t p = none := by
  rw [rxMatch_none hp]
  rintro ⟨a, ha, q, hq⟩
  cases l with
  | root => simp [rules] at ha
  | number => simp [rules] at ha
  | n99 => exact absurd rfl hl
  | p1 =>
    simp only [rules, Comp.tongue, skipRule, rule, List.map_cons, List.map_nil, List.mem_cons, List.not_mem_nil, or_false] at ha
    subst ha
    exact hsk q hq
  | p2 =>
    simp only [rules, Comp.tongue, rule, skipRule, List.map_cons, List.map_nil, List.mem_cons, List.not_mem_nil, or_false] at ha
    rcases ha with rfl | rfl
    · exact hsk q hq
    · exact lit_fails (h C.hundred (fun _ => rfl) (by simp) (by simp) (by simp)) q hq
  | p3 =>
    simp only [rules, Comp.tongue, rule, skipRule, List.map_cons, List.map_nil, List.mem_cons, List.not_mem_nil, or_false] at ha
    rcases ha with rfl | rfl
    · exact hsk q hq
    · exact lit_fails (h C.thousand (by simp) (fun _ => rfl) (by simp) (by simp)) q hq
  | p6 =>
    simp only [rules, Comp.tongue, rule, skipRule, List.map_cons, List.map_nil, List.mem_cons, List.not_mem_nil, or_false] at ha
    rcases ha with rfl | rfl
    · exact hsk q hq
    · exact lit_fails (h C.million (by simp) (by simp) (fun _ => rfl) (by simp)) q hq

/-- A word below hundred is read, if the lexicon for these words finds it. -/
theorem teen_reads (ok : C.OK X) (hs : SepOK u) {p : Nat} {v post : List Char} {w w0 : Word} {n : Nat} (ht : t.drop p = v ++ post) (hv : InCase u v w)
    (hw0 : w0 ∈ C.all) (hpre : w0 <+: w)
    (hit : ∃ tok ps', parseNext (lang u (C.tongue u J)).noAct ((lang u (C.tongue u J)).ld .n99) t (.at p false) = some (tok, ps') ∧
      tok.pos = p ∧ tok.text = v ∧ tok.tgt = some ⟨1, []⟩ ∧ (lang u (C.tongue u J)).expand tok ≠ [] ∧
      ∃ vs, texts u C.values ((makeTokens ((lang u (C.tongue u J)).expand tok)).map .tok) = some vs ∧ vs.sum = n) :
    ReadsAt u (C.tongue u J) t p v (.teen n) True := by
  have hl0 := ok.letter (w := w0) (by simp only [List.mem_append]; exact Or.inl (Or.inl (Or.inl hw0)))
  have hne : v ≠ [] := by
    rintro rfl
    have : w = [] := hv.1.symm
    subst this
    exact hl0.1 (List.prefix_nil.1 hpre)
  have hlt : p < t.length := by
    have := congrArg List.length ht
    have h2 := List.length_pos_iff.2 hne
    simp at this
    omega
  have hfold := incase_fold ht hv
  have hw0f : w0 <+: folded u t p := by rw [hfold]; exact hpre.trans (List.prefix_append _ _)
  have hsk : Fails t (.plus (.set (isSkip u))) p := by
    obtain ⟨c, v', rfl⟩ := List.exists_cons_of_ne_nil hne
    obtain ⟨c0, w0', rfl⟩ := List.exists_cons_of_ne_nil hl0.1
    refine skip_fails (drop_get ht) (letter_noskip hs ?_)
    rw [folded, ht, List.cons_append, List.map_cons] at hw0f
    rw [← (List.cons_prefix_cons.1 hw0f).1]
    exact hl0.2 c0 (List.mem_cons_self ..)
  refine ⟨hlt, ?_, ?_, hne⟩
  · intro l ls ha
    cases l <;> simp only [accept, reduceCtorEq, Option.some.injEq] at ha
    subst ha
    obtain ⟨tok, ps', h1, h2, h3, h4, h5, h6⟩ := hit
    exact ⟨tok, ps', h1, h2, h3, h4, h5, fun _ => h6⟩
  · intro l hlr ha _
    refine other_miss (Nat.le_of_lt hlt) hsk (by rintro rfl; simp [accept] at ha) ?_
    intro x h2 h3 h6 hor hxp
    have hx : x ∈ C.bigs := by
      rcases hor with h | h | h
      · rw [h2 h]; simp [Comp.bigs]
      · rw [h3 h]; simp [Comp.bigs]
      · rw [h6 h]; simp [Comp.bigs]
    have hb := ok.bigAll
    simp only [Bool.and_eq_true, noPrefix_iff] at hb
    rcases prefix_comparable hxp hw0f with h | h
    · exact hb.1.2 w0 hw0 x hx h
    · exact hb.1.1 x hx w0 hw0 h

theorem texts_one {d : List (Word × Nat)} {p n : Nat} {v : List Char} {w : Word} (hv : InCase u v w) (hl : look d w = some n) :
    ∃ vs, texts u d ((makeTokens [(⟨p, v, .number⟩ : Lexeme Char NA)]).map .tok) = some vs ∧ vs.sum = n := by
  refine ⟨[n], ?_, by simp⟩
  show texts u d [.tok ⟨p, v, .number, none⟩] = _
  simp only [texts, low_incase hv, hl, Option.map_some]

/-- A word is read. -/
theorem creads (ok : C.OK X) (hJ : JoinOK u C J) (hs : SepOK u) {p : Nat} {v post : List Char} {w : Word} {k : Kind} (ht : t.drop p = v ++ post)
    (hw : X.Has w k) (hv : InCase u v w) (ha : (∃ n, k = .teen n) → After u C post) : ReadsAt u (C.tongue u J) t p v k True := by
  have hfold := incase_fold ht hv
  have hlen := incase_len hv
  have hbigs : ∀ {b : Word}, b ∈ C.bigs → InCase u v b → v ≠ [] ∧ p < t.length ∧ Fails t (.plus (.set (isSkip u))) p ∧
      rxMatch ((rules u (C.tongue u J) .n99).map (·.pat)) t p = none := by
    intro b hb hvb
    have hl := ok.letter (w := b) (by simp only [List.mem_append]; exact Or.inl (Or.inr hb))
    have hne : v ≠ [] := by
      rintro rfl
      exact hl.1 hvb.1.symm
    have hlt : p < t.length := by
      have := congrArg List.length ht
      have h2 := List.length_pos_iff.2 hne
      simp at this
      omega
    have hsk := word_noskip hs ht hvb hl
    refine ⟨hne, hlt, hsk, n99_miss (Nat.le_of_lt hlt) hsk (fun x hx hxp => ?_)⟩
    have hbf : b <+: folded u t p := by rw [incase_fold ht hvb]; exact List.prefix_append _ _
    have hb' := ok.bigAll
    simp only [Bool.and_eq_true, noPrefix_iff] at hb'
    rcases prefix_comparable hxp hbf with h | h
    · exact hb'.1.1 b hb x hx h
    · exact hb'.1.2 x hx b hb h
  have hbb : ∀ {b x : Word}, b ∈ C.bigs → x ∈ C.bigs → b <+: folded u t p → x <+: folded u t p → x = b := by
    intro b x hb hx h1 h2
    have key : ∀ {y z : Word}, y ∈ C.bigs → z ∈ C.bigs → z <+: y → y = z := by
      intro y z hy hz hzy
      have := List.all_eq_true.1 (List.all_eq_true.1 ok.bigBig y hy) z hz
      simp only [Bool.or_eq_true, beq_iff_eq, Bool.not_eq_true', ← Bool.not_eq_true, List.isPrefixOf_iff_prefix] at this
      rcases this with h | h
      · exact h
      · exact absurd hzy h
    rcases prefix_comparable h2 h1 with h | h
    · exact (key hb hx h).symm
    · exact key hx hb h
  have hteen0 : ∀ {x : String} {n : Nat} {l : List (String × Nat)} {ws : List Word}, (x, n) ∈ l →
      l.all (fun x => ws.contains x.1.toList && look C.values x.1.toList == some x.2) = true → x.toList ∈ ws ∧ look C.values x.toList = some n := by
    intro x n l ws hx hc
    have := List.all_eq_true.1 hc _ hx
    simpa only [Bool.and_eq_true, List.contains_iff_mem, beq_iff_eq] using this
  have hskw : ∀ {y : Word}, y ∈ C.all → InCase u v y → Fails t (.plus (.set (isSkip u))) p := fun hy hvy =>
    word_noskip hs ht hvy (ok.letter (by simp only [List.mem_append]; exact Or.inl (Or.inl (Or.inl hy))))
  have hvne : ∀ {y : Word}, y ∈ C.all → InCase u v y → v ≠ [] := by
    rintro y hy hvy rfl
    exact (ok.letter (w := y) (by simp only [List.mem_append]; exact Or.inl (Or.inl (Or.inl hy)))).1 hvy.1.symm
  cases hw with
  | @teen x n hx =>
    obtain ⟨h1, h2⟩ := hteen0 hx ok.teens
    have hall : x.toList ∈ C.all := mem_all_n.2 (Or.inl h1)
    have hfol := (ha ⟨n, rfl⟩).follows hs
    obtain ⟨tok, ps', h3, h4, h5, h6, h7⟩ := tongue_hit (g := C.tongue u J) (l := .n99) (ps := [skipRule u]) (a := words u C.teens) (tg := ⟨1, []⟩) ht
      (hvne hall hv) rfl (by
        intro r hr
        simp only [List.mem_cons, List.not_mem_nil, or_false] at hr
        subst hr
        exact hskw hall hv) (by
        rw [hlen]
        refine words_best h1 (by rw [hfold]; exact List.prefix_append _ _) (fun y hy hyp => ?_)
        rw [hfold] at hyp
        exact (cfound ok (List.mem_append.2 (Or.inl hall)) (List.mem_append.2 (Or.inl (mem_all_n.2 (Or.inl hy)))) hfol hyp).length_le)
    exact teen_reads ok hs ht hv hall (List.prefix_refl _) ⟨tok, ps', h3, h4, h5, h6, by rw [h7]; simp, by rw [h7]; exact texts_one hv h2⟩
  | @unit x n hx =>
    obtain ⟨h1, h2⟩ := hteen0 hx ok.units
    have hall : x.toList ∈ C.all := mem_all_n.2 (Or.inr (Or.inl h1))
    have haf := ha ⟨n, rfl⟩
    have hfol := haf.follows hs
    have hut := noPrefix_iff.1 ok.unitTeens x.toList h1
    have hfound : ∀ y ∈ C.all, y <+: folded u t p → y <+: x.toList := by
      intro y hy hyp
      rw [hfold] at hyp
      exact cfound ok (List.mem_append.2 (Or.inl hall)) (List.mem_append.2 (Or.inl hy)) hfol hyp
    have hb1 : Best t (words u C.units) p (p + v.length) := by
      rw [hlen]
      exact words_best h1 (by rw [hfold]; exact List.prefix_append _ _) (fun y hy hyp => (hfound y (mem_all_n.2 (Or.inr (Or.inl hy))) hyp).length_le)
    have ht2 : t.drop (p + v.length) = post := by rw [← List.drop_drop, ht, List.drop_left]
    have hb2 : BestC t (.opt (.cat (spaces u) (.cat J (.cat (spaces u) (.grp 2 (words u C.tens)))))) (p + v.length) (p + v.length) [] :=
      (best_opt_none (no_join ok hJ hs ht2 haf _)).toC
    have hb := (hb1.grp 1).cat hb2
    rw [List.nil_append] at hb
    obtain ⟨tok, ps', h3, h4, h5, h6, h7⟩ := pair_hit (g := C.tongue u J) (l := .n99) (ps := [skipRule u, rule (words u C.teens) .number (some ⟨1, []⟩)])
      (a := pairPat u C J) (tg := ⟨1, []⟩) ht (hvne hall hv) rfl (by
        intro r hr
        simp only [List.mem_cons, List.not_mem_nil, or_false] at hr
        rcases hr with rfl | rfl
        · exact hskw hall hv
        · exact words_fails (fun y hy hyp => hut y hy (hfound y (mem_all_n.2 (Or.inl hy)) hyp))) hb
    have h8 : (lang u (C.tongue u J)).expand tok = [⟨p, v, .number⟩] := by
      rw [h7]
      have hsl : slice v 0 v.length = v := by simp [slice]
      have h9 : p + v.length - p = v.length := by omega
      simp [Caps.rel, groupOf, h9, hsl, hvne hall hv]
    exact teen_reads ok hs ht hv hall (List.prefix_refl _) ⟨tok, ps', h3, h4, h5, h6, by rw [h8]; simp, by rw [h8]; exact texts_one hv h2⟩
  | @small x n hx =>
    have hsm := List.all_eq_true.1 ok.small _ hx
    simp only [Bool.and_eq_true, List.all_eq_true, List.contains_iff_mem, beq_iff_eq, Bool.or_eq_true, Bool.not_eq_true', ← Bool.not_eq_true,
      List.isPrefixOf_iff_prefix] at hsm
    obtain ⟨⟨⟨h1, h2⟩, h3⟩, h4⟩ := hsm
    have hall : x.toList ∈ C.all := mem_all_n.2 (Or.inr (Or.inr h2))
    have hfol := (ha ⟨n, rfl⟩).follows hs
    have hfound : ∀ y ∈ C.all, y <+: folded u t p → y <+: x.toList := by
      intro y hy hyp
      rw [hfold] at hyp
      exact cfound ok (List.mem_append.2 (Or.inl hall)) (List.mem_append.2 (Or.inl hy)) hfol hyp
    -- the first list that has the word
    have hsplit : ∀ {rs : List (List Word)}, x.toList ∈ rs.flatten → ∃ as ws bs, rs = as ++ ws :: bs ∧ x.toList ∈ ws ∧ x.toList ∉ as.flatten := by
      intro rs
      induction rs with
      | nil => intro h; simp at h
      | cons ws rs ih =>
        intro h
        by_cases hm : x.toList ∈ ws
        · exact ⟨[], ws, rs, rfl, hm, by simp⟩
        · have h' : x.toList ∈ rs.flatten := by
            rw [List.flatten_cons] at h
            rcases List.mem_append.1 h with h | h
            · exact absurd h hm
            · exact h
          obtain ⟨as, ws', bs, rfl, h5, h6⟩ := ih h'
          refine ⟨ws :: as, ws', bs, rfl, h5, ?_⟩
          rw [List.flatten_cons]
          intro h
          rcases List.mem_append.1 h with h | h
          · exact hm h
          · exact h6 h
    obtain ⟨as, ws, bs, hrest, h5, h6⟩ := hsplit h2
    have hrules : rules u (C.tongue u J) .n99 = (skipRule u :: rule (words u C.teens) .number (some ⟨1, []⟩) :: rule (pairPat u C J) .pair (some ⟨1, []⟩) ::
        as.map (fun ws => rule (words u ws) .number (some ⟨1, []⟩))) ++ rule (words u ws) .number (some ⟨1, []⟩) ::
        bs.map (fun ws => rule (words u ws) .number (some ⟨1, []⟩)) := by
      simp only [rules, Comp.tongue, hrest, List.map_append, List.map_cons, List.cons_append]
    obtain ⟨tok, ps', g3, g4, g5, g6, g7⟩ := tongue_hit (g := C.tongue u J) (l := .n99) (a := words u ws) (tg := ⟨1, []⟩) ht
      (hvne hall hv) hrules (by
        intro r hr
        simp only [List.mem_cons, List.mem_map] at hr
        rcases hr with rfl | rfl | rfl | ⟨ws', hws', rfl⟩
        · exact hskw hall hv
        · exact words_fails (fun y hy hyp => h1 y (List.mem_append.2 (Or.inl hy)) (hfound y (mem_all_n.2 (Or.inl hy)) hyp))
        · rintro q ⟨r, hq, _⟩
          exact words_fails (fun y hy hyp => h1 y (List.mem_append.2 (Or.inr hy)) (hfound y (mem_all_n.2 (Or.inr (Or.inl hy))) hyp)) r hq
        · refine words_fails (fun y hy hyp => ?_)
          have hyf : y ∈ C.rest.flatten := by
            rw [hrest]
            exact List.mem_flatten.2 ⟨ws', List.mem_append.2 (Or.inl hws'), hy⟩
          rcases h3 y hyf with h | h
          · exact h (hfound y (mem_all_n.2 (Or.inr (Or.inr hyf))) hyp)
          · subst h
            exact h6 (List.mem_flatten.2 ⟨ws', hws', hy⟩)) (by
        rw [hlen]
        refine words_best h5 (by rw [hfold]; exact List.prefix_append _ _) (fun y hy hyp => ?_)
        have hyf : y ∈ C.rest.flatten := by
          rw [hrest]
          exact List.mem_flatten.2 ⟨ws, List.mem_append.2 (Or.inr (List.mem_cons_self ..)), hy⟩
        exact (hfound y (mem_all_n.2 (Or.inr (Or.inr hyf))) hyp).length_le)
    exact teen_reads ok hs ht hv hall (List.prefix_refl _) ⟨tok, ps', g3, g4, g5, g6, by rw [g7]; simp, by rw [g7]; exact texts_one hv h4⟩
  | @both x j y a b hx hj hy =>
    obtain ⟨h1, h2⟩ := hteen0 hx ok.units
    obtain ⟨h3, h4⟩ := hteen0 hy ok.tens
    have hjm := List.all_eq_true.1 ok.joins j hj
    rw [List.contains_iff_mem] at hjm
    have hall : x.toList ∈ C.all := mem_all_n.2 (Or.inr (Or.inl h1))
    have hfol := (ha ⟨a + b, rfl⟩).follows hs
    obtain ⟨v1, v', rfl, hv1, hv'⟩ := incase_split hv
    obtain ⟨v2, v3, rfl, hv2, hv3⟩ := incase_split hv'
    have hl1 := incase_len hv1
    have hl2 := incase_len hv2
    have hl3 := incase_len hv3
    have ht1 : t.drop p = v1 ++ (v2 ++ (v3 ++ post)) := by rw [ht]; simp
    have ht2 : t.drop (p + v1.length) = v2 ++ (v3 ++ post) := by rw [← List.drop_drop, ht1, List.drop_left]
    have ht3 : t.drop (p + v1.length + v2.length) = v3 ++ post := by rw [← List.drop_drop, ht2, List.drop_left]
    have hf1 := incase_fold ht1 hv1
    have hf2 := incase_fold ht2 hv2
    have hf3 := incase_fold ht3 hv3
    have hjl := ok.letter (w := j.toList) (List.mem_append.2 (Or.inr hjm))
    have hyl := ok.letter (w := y.toList) (by simp only [List.mem_append]; exact Or.inl (Or.inl (Or.inr h3)))
    have hxl := ok.letter (w := x.toList) (by simp only [List.mem_append]; exact Or.inl (Or.inl (Or.inl hall)))
    have hfolx : CFollows u C (v2 ++ (v3 ++ post)) := Or.inr (Or.inr ⟨j.toList, List.mem_append.2 (Or.inr hjm), by
      rw [List.map_append, hv2.1]; exact List.prefix_append _ _⟩)
    have hfound : ∀ z ∈ C.all, z <+: folded u t p → z <+: x.toList := by
      intro z hz hzp
      rw [hf1] at hzp
      exact cfound ok (List.mem_append.2 (Or.inl hall)) (List.mem_append.2 (Or.inl hz)) hfolx hzp
    have hb1 : Best t (words u C.units) p (p + v1.length) := by
      rw [hl1]
      exact words_best h1 (by rw [hf1]; exact List.prefix_append _ _) (fun z hz hzp => (hfound z (mem_all_n.2 (Or.inr (Or.inl hz))) hzp).length_le)
    have hsp : ∀ {q : Nat} {r r' : List Char} {z : Word}, t.drop q = r ++ r' → InCase u r z → z ≠ [] ∧ (∀ c ∈ z, isLetter c = true) →
        Best t (spaces u) q q := by
      intro q r r' z hq hr hz
      have := best_star (t := t) (f := u.space) [] (p := q) (post := r ++ r') (by rw [hq]; rfl) (by simp) (by
        intro c hc
        cases r with
        | nil => exact absurd hr.1.symm hz.1
        | cons c' r =>
          simp only [List.cons_append, List.head?_cons, Option.mem_def, Option.some.injEq] at hc
          subst hc
          have := letter_noskip hs (hz.2 (u.fold c') (by rw [← hr.1]; simp))
          simp only [isSkip, Bool.or_eq_false_iff] at this
          exact this.1)
      simpa [spaces] using this
    have hb3 : Best t (words u C.tens) (p + v1.length + v2.length) (p + v1.length + v2.length + v3.length) := by
      rw [hl3]
      refine words_best h3 (by rw [hf3]; exact List.prefix_append _ _) (fun z hz hzp => ?_)
      rw [hf3] at hzp
      exact (cfound ok (List.mem_append.2 (Or.inr h3)) (List.mem_append.2 (Or.inr hz)) hfol hzp).length_le
    have hbj : Best t J (p + v1.length) (p + v1.length + v2.length) := by
      have := hJ.best t (p + v1.length) j.toList hjm (by rw [hf2]; exact List.prefix_append _ _)
      rwa [hl2]
    have hb2 : BestC t (.cat (spaces u) (.cat J (.cat (spaces u) (.grp 2 (words u C.tens))))) (p + v1.length)
        (p + v1.length + v2.length + v3.length) [(2, p + v1.length + v2.length, p + v1.length + v2.length + v3.length)] := by
      have := (hsp ht2 hv2 hjl).toC.cat (hbj.toC.cat ((hsp ht3 hv3 hyl).toC.cat (hb3.grp 2)))
      simpa using this
    have hb4 : BestC t (.opt (.cat (spaces u) (.cat J (.cat (spaces u) (.grp 2 (words u C.tens)))))) (p + v1.length)
        (p + v1.length + v2.length + v3.length) [(2, p + v1.length + v2.length, p + v1.length + v2.length + v3.length)] := by
      intro c
      obtain ⟨r, hr⟩ := hb2 c
      exact ⟨_, by simp only [Pat.opt, Pat.run] at hr ⊢; rw [hr]; rfl⟩
    have hb := (hb1.grp 1).cat hb4
    have hlenv : p + (v1 ++ (v2 ++ v3)).length = p + v1.length + v2.length + v3.length := by simp; omega
    have hb : BestC t (pairPat u C J) p (p + (v1 ++ (v2 ++ v3)).length)
        [(2, p + v1.length + v2.length, p + v1.length + v2.length + v3.length), (1, p, p + v1.length)] := by rw [hlenv]; exact hb
    have hv1ne : v1 ≠ [] := by rintro rfl; exact hxl.1 hv1.1.symm
    have hv3ne : v3 ≠ [] := by rintro rfl; exact hyl.1 hv3.1.symm
    have hut := noPrefix_iff.1 ok.unitTeens x.toList h1
    obtain ⟨tok, ps', g3, g4, g5, g6, g7⟩ := pair_hit (g := C.tongue u J) (l := .n99) (ps := [skipRule u, rule (words u C.teens) .number (some ⟨1, []⟩)])
      (a := pairPat u C J) (tg := ⟨1, []⟩) ht (by simp [hv1ne]) rfl (by
        intro r hr
        simp only [List.mem_cons, List.not_mem_nil, or_false] at hr
        rcases hr with rfl | rfl
        · exact word_noskip hs ht1 hv1 hxl
        · exact words_fails (fun z hz hzp => hut z hz (hfound z (mem_all_n.2 (Or.inl hz)) hzp))) hb
    have g8 : (lang u (C.tongue u J)).expand tok = [⟨p, v1, .number⟩, ⟨p + (v1.length + v2.length), v3, .number⟩] := by
      rw [g7]
      have e1 : slice (v1 ++ (v2 ++ v3)) 0 v1.length = v1 := by simp [slice]
      have e2 : slice (v1 ++ (v2 ++ v3)) (v1.length + v2.length) (v1.length + v2.length + v3.length) = v3 := by
        unfold slice
        rw [List.take_of_length_le (by simp; omega), ← List.drop_drop, List.drop_left, List.drop_left]
      have e3 : p + v1.length - p = v1.length := by omega
      have e4 : p + v1.length + v2.length - p = v1.length + v2.length := by omega
      have e6 : p + v1.length + v2.length + v3.length - p = v1.length + v2.length + v3.length := by omega
      simp [Caps.rel, groupOf, e1, e2, e3, e4, e6, hv1ne, hv3ne]
    refine teen_reads ok hs ht hv hall (List.prefix_append _ _) ⟨tok, ps', g3, g4, g5, g6, by rw [g8]; simp, ?_⟩
    rw [g8]
    refine ⟨[a, b], ?_, by simp⟩
    simp [makeTokens, makeGroup, texts, low_incase hv1, low_incase hv3, h2, h4]
  | hundred =>
    have e := ok.big.1
    rw [e] at hv hfold
    obtain ⟨hne, hlt, hsk, hn99⟩ := hbigs (b := C.hundred) (by simp [Comp.bigs]) hv
    have hpre : C.hundred <+: folded u t p := by rw [hfold]; exact List.prefix_append _ _
    refine ⟨hlt, ?_, ?_, hne⟩
    · intro l ls hacc
      cases l <;> simp only [accept, reduceCtorEq, Option.some.injEq] at hacc
      subst hacc
      obtain ⟨tok, ps', h1, h2, h3, h4, h5⟩ := tongue_hit (g := C.tongue u J) (l := .p2) (ps := [skipRule u]) (qs := []) (a := lit u C.hundred)
        (tg := ⟨1, [.n99]⟩) ht hne rfl (by
          intro r hr
          simp only [List.mem_cons, List.not_mem_nil, or_false] at hr
          subst hr
          exact hsk) (by rw [incase_len hv]; exact lit_best hpre)
      exact ⟨tok, ps', h1, h2, h3, h4, by rw [h5]; simp, fun h => by simp [rank] at h⟩
    · intro l hlr hacc _
      by_cases hl : l = .n99
      · subst hl; exact hn99
      · refine other_miss (Nat.le_of_lt hlt) hsk hl (fun x h2 h3 h6 hor hxp => ?_)
        rcases hor with h | h | h
        · rw [h2 h] at hxp
          subst h; simp [accept] at hacc
        · rw [h3 h] at hxp
          exact ok.bigNe.1.symm (hbb (b := C.hundred) (x := C.thousand) (by simp [Comp.bigs]) (by simp [Comp.bigs]) hpre hxp)
        · rw [h6 h] at hxp
          exact ok.bigNe.2.1.symm (hbb (b := C.hundred) (x := C.million) (by simp [Comp.bigs]) (by simp [Comp.bigs]) hpre hxp)
  | thousand =>
    have e := ok.big.2.1
    rw [e] at hv hfold
    obtain ⟨hne, hlt, hsk, hn99⟩ := hbigs (b := C.thousand) (by simp [Comp.bigs]) hv
    have hpre : C.thousand <+: folded u t p := by rw [hfold]; exact List.prefix_append _ _
    refine ⟨hlt, ?_, ?_, hne⟩
    · intro l ls hacc
      cases l <;> simp only [accept, reduceCtorEq, Option.some.injEq] at hacc
      subst hacc
      obtain ⟨tok, ps', h1, h2, h3, h4, h5⟩ := tongue_hit (g := C.tongue u J) (l := .p3) (ps := [skipRule u]) (qs := []) (a := lit u C.thousand)
        (tg := ⟨1, [.p2, .n99]⟩) ht hne rfl (by
          intro r hr
          simp only [List.mem_cons, List.not_mem_nil, or_false] at hr
          subst hr
          exact hsk) (by rw [incase_len hv]; exact lit_best hpre)
      exact ⟨tok, ps', h1, h2, h3, h4, by rw [h5]; simp, fun h => by simp [rank] at h⟩
    · intro l hlr hacc _
      by_cases hl : l = .n99
      · subst hl; exact hn99
      · refine other_miss (Nat.le_of_lt hlt) hsk hl (fun x h2 h3 h6 hor hxp => ?_)
        rcases hor with h | h | h
        · rw [h2 h] at hxp
          exact ok.bigNe.1 (hbb (b := C.thousand) (x := C.hundred) (by simp [Comp.bigs]) (by simp [Comp.bigs]) hpre hxp)
        · rw [h3 h] at hxp
          subst h; simp [accept] at hacc
        · rw [h6 h] at hxp
          exact ok.bigNe.2.2.symm (hbb (b := C.thousand) (x := C.million) (by simp [Comp.bigs]) (by simp [Comp.bigs]) hpre hxp)
  | million =>
    have e := ok.big.2.2
    rw [e] at hv hfold
    obtain ⟨hne, hlt, hsk, hn99⟩ := hbigs (b := C.million) (by simp [Comp.bigs]) hv
    have hpre : C.million <+: folded u t p := by rw [hfold]; exact List.prefix_append _ _
    refine ⟨hlt, ?_, ?_, hne⟩
    · intro l ls hacc
      cases l <;> simp only [accept, reduceCtorEq, Option.some.injEq] at hacc
      subst hacc
      obtain ⟨tok, ps', h1, h2, h3, h4, h5⟩ := tongue_hit (g := C.tongue u J) (l := .p6) (ps := [skipRule u]) (qs := []) (a := lit u C.million)
        (tg := ⟨1, [.p3, .p2, .n99]⟩) ht hne rfl (by
          intro r hr
          simp only [List.mem_cons, List.not_mem_nil, or_false] at hr
          subst hr
          exact hsk) (by rw [incase_len hv]; exact lit_best hpre)
      exact ⟨tok, ps', h1, h2, h3, h4, by rw [h5]; simp, fun h => by simp [rank] at h⟩
    · intro l hlr hacc _
      by_cases hl : l = .n99
      · subst hl; exact hn99
      · refine other_miss (Nat.le_of_lt hlt) hsk hl (fun x h2 h3 h6 hor hxp => ?_)
        rcases hor with h | h | h
        · rw [h2 h] at hxp
          exact ok.bigNe.2.1 (hbb (b := C.million) (x := C.hundred) (by simp [Comp.bigs]) (by simp [Comp.bigs]) hpre hxp)
        · rw [h3 h] at hxp
          exact ok.bigNe.2.2 (hbb (b := C.million) (x := C.thousand) (by simp [Comp.bigs]) (by simp [Comp.bigs]) hpre hxp)
        · rw [h6 h] at hxp
          subst h; simp [accept] at hacc

end
end Parce.Num

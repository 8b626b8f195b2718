import Verif.Lemmas.GoesItems
import Verif.Spec.CssLang
/-!
# Steps of the lexer in CSS texts

As `Verif.Lemmas.GoesItems`, with the remaining text instead of the position.
-/
namespace Parce.CssL
open Parce.Json (Uni str)
variable {Q K : Type} {u : Uni} {k : Words} {f : Funcs Q K}

abbrev Fr (Q K : Type) := CL × List (Itm Q K)

/-- The remaining text, the open contexts with their items, how many of them are only in the pending target, and whether no default
    target was followed here that left a context. -/
structure St (Q K : Type) where
  rest : List Nat
  frames : List (Fr Q K)
  fresh : Nat
  ok : Bool

def Go (u : Uni) (k : Words) (f : Funcs Q K) (x y : St Q K) : Prop :=
  ∀ t p, t.drop p = x.rest → p ≤ t.length → ∃ q, t.drop q = y.rest ∧ q ≤ t.length ∧
    IGoes (lang u k) (method k f) t ⟨p, x.frames, x.fresh, x.ok⟩ ⟨q, y.frames, y.fresh, y.ok⟩

theorem Go.refl (x : St Q K) : Go u k f x x := fun _ p h1 h2 => ⟨p, h1, h2, .refl _⟩

theorem Go.trans {x y z : St Q K} (h1 : Go u k f x y) (h2 : Go u k f y z) : Go u k f x z := by
  intro t p h3 h4
  obtain ⟨q, h5, h6, h7⟩ := h1 t p h3 h4
  obtain ⟨r, h8, h9, h10⟩ := h2 t q h5 h6
  exact ⟨r, h8, h9, h7.trans h10⟩

/-! ### Matches -/

def pats (u : Uni) (k : Words) (l : CL) : List (Pat Nat) := (rules u k l).map (·.pat)

/-- A rule of the lexicon matches the text `w`, when `post` is after it. -/
structure Hits (u : Uni) (k : Words) (l : CL) (w post : List Nat) (a : CA) (tg : Option (Target CL)) : Prop where
  ne : w ≠ []
  hit : ∀ t p, t.drop p = w ++ post → ∃ i c r, rxMatch (pats u k l) t p = some ⟨p, p + w.length, ⟨i, c⟩⟩ ∧ (rules u k l)[i]? = some r ∧
    ∀ gs, r.out w gs = (a, tg)

/-- No rule matches. -/
def Misses (u : Uni) (k : Words) (l : CL) (rest : List Nat) : Prop := ∀ t p, t.drop p = rest → ¬ Starts (pats u k l) t p

/-- The expression takes `w`. -/
def PBest (a : Pat Nat) (w post : List Nat) : Prop := ∀ t p, t.drop p = w ++ post → Best t a p (p + w.length)

/-- The expression does not match. -/
def PFail (a : Pat Nat) (rest : List Nat) : Prop := ∀ t p, t.drop p = rest → Fails t a p

theorem hits_parse {l : CL} {w post : List Nat} {a : CA} {tg : Option (Target CL)} (h : Hits u k l w post a tg) {t : List Nat} {p : Nat}
    (ht : t.drop p = w ++ post) : ∃ m, parseNext CA.none ((lang u k).ld l) t (.at p false) =
      some (⟨p, w, m, a, tg⟩, .at (p + w.length) false) := by
  obtain ⟨i, c, r, h1, h2, h3⟩ := h.hit t p ht
  exact hit_parse (noAct := CA.none) (dl := dflt l) ⟨Nat.le_refl _, ⟨post, ht⟩, h.ne, fun h => absurd rfl h, i, c, r, h1, h2, h3⟩

/-- The action gives one token. -/
def plain (a : CA) : Bool := a != .urlGroups && a != .skip

theorem expand_plain {a : CA} (h : plain a = true) (p : Nat) (w : List Nat) (m : Option (Mtch RM)) (tg : Option (Target CL)) :
    (lang u k).expand ⟨p, w, m, a, tg⟩ = [⟨p, w, a⟩] := by
  cases a <;> first | rfl | simp [plain] at h

theorem expand_skip (p : Nat) (w : List Nat) (m : Option (Mtch RM)) (tg : Option (Target CL)) :
    (lang u k).expand ⟨p, w, m, .skip, tg⟩ = [] := rfl

/-! ### Steps -/

section
variable {l : CL} {w post : List Nat} {is : List (Itm Q K)} {fs : List (Fr Q K)} {n : Nat} {o : Bool} {a : CA}

theorem s_tok (h : Hits u k l w post a none) (ha : plain a = true := by rfl) :
    Go u k f ⟨w ++ post, (l, is) :: fs, n, o⟩ ⟨post, (l, is ++ [.tok w a]) :: fs, 0, true⟩ := by
  intro t p ht hp
  obtain ⟨m, hm⟩ := hits_parse h ht
  exact ⟨p + w.length, drop_add ht, drop_le ht h.ne, i_tok (lang := lang u k) hm rfl h.ne rfl (expand_plain ha ..) rfl⟩

theorem s_skip (h : Hits u k l w post .skip none) :
    Go u k f ⟨w ++ post, (l, is) :: fs, n, o⟩ ⟨post, (l, is) :: fs, n, true⟩ := by
  intro t p ht hp
  obtain ⟨m, hm⟩ := hits_parse h ht
  exact ⟨p + w.length, drop_add ht, drop_le ht h.ne, i_skip (lang := lang u k) hm rfl h.ne rfl (expand_skip ..) rfl⟩

theorem s_target {tg : Target CL} (h : Hits u k l w post a (some tg)) (hpop : tg.pop ≤ fs.length)
    (hc : (tg.push.getLast?.map consumes).getD false = false := by rfl) (ha : plain a = true := by rfl) :
    Go u k f ⟨w ++ post, (l, is) :: fs, n, o⟩
      ⟨post, tg.push.reverse.map (fun l => (l, [])) ++ closeN (method k f) tg.pop ((l, is ++ [.tok w a]) :: fs), tg.push.length, true⟩ := by
  intro t p ht hp
  obtain ⟨m, hm⟩ := hits_parse h ht
  refine ⟨p + w.length, drop_add ht, drop_le ht h.ne, ?_⟩
  have := i_target (lang := lang u k) (m := method k f) (n := n) (is := is) (o := o) hm rfl h.ne rfl
    (by rw [expand_plain ha]; simp) hpop hc
  rw [expand_plain ha] at this
  exact this

theorem s_consume {ls : List CL} {l' : CL} (h : Hits u k l w post a (some ⟨0, ls ++ [l']⟩)) (hc : consumes l' = true := by rfl)
    (ha : plain a = true := by rfl) :
    Go u k f ⟨w ++ post, (l, is) :: fs, n, o⟩ ⟨post, (l', [.tok w a]) :: (ls.reverse.map (fun l => (l, [])) ++ (l, is) :: fs), 0, true⟩ := by
  intro t p ht hp
  obtain ⟨m, hm⟩ := hits_parse h ht
  exact ⟨p + w.length, drop_add ht, drop_le ht h.ne, i_consume (lang := lang u k) hm rfl h.ne rfl (expand_plain ha ..) hc⟩

theorem rules_ne (l : CL) : rules u k l ≠ [] := by
  cases l <;> simp [rules, toplevelRules, inlineRules, commonRules, identRules]

theorem miss_parse {l : CL} {rest : List Nat} {tg : Target CL} (h : Misses u k l rest) (hr : rest ≠ []) (hd : dflt l = .target tg) {t : List Nat}
    {p : Nat} (ht : t.drop p = rest) :
    parseNext CA.none ((lang u k).ld l) t (.at p false) = some (⟨p, [], none, .none, some tg⟩, .stop) := by
  have hp : p < t.length := by
    have := congrArg List.length ht
    have := List.length_pos_iff.2 hr
    simp only [List.length_drop] at *
    omega
  have hm : rxMatch ((rules u k l).map (·.pat)) t p = none := (rxMatch_none (by omega)).2 (h t p ht)
  show parseNext _ (compile .none (rules u k l) (dflt l)) _ _ = _
  rw [compile_cons _ _ _ (rules_ne l), hd]
  simp only [parseNext, hm, tailTok, hp, if_true]

theorem s_push {rest : List Nat} {l' : CL} (h : Misses u k l rest) (hr : rest ≠ []) (hd : dflt l = .target ⟨0, [l']⟩ := by rfl) :
    Go u k f ⟨rest, (l, is) :: fs, n, true⟩ ⟨rest, (l', []) :: (l, is) :: fs, n + 1, true⟩ := by
  intro t p ht hp
  exact ⟨p, ht, hp, i_push (lang := lang u k) (miss_parse h hr hd ht) rfl rfl rfl⟩

theorem s_pop {rest : List Nat} {l' : CL} {is' : List (Itm Q K)} (h : Misses u k l rest) (hr : rest ≠ []) (hd : dflt l = .target ⟨1, []⟩ := by rfl) :
    Go u k f ⟨rest, (l, is) :: (l', is') :: fs, 0, o⟩ ⟨rest, (l', is' ++ done (method k f) l is) :: fs, 0, false⟩ := by
  intro t p ht hp
  exact ⟨p, ht, hp, i_pop (lang := lang u k) (miss_parse h hr hd ht) rfl rfl rfl⟩

theorem s_pop_fresh {rest : List Nat} {x : Fr Q K} (h : Misses u k l rest) (hr : rest ≠ []) (hd : dflt l = .target ⟨1, []⟩ := by rfl) :
    Go u k f ⟨rest, (l, is) :: x :: fs, n + 1, o⟩ ⟨rest, x :: fs, n, false⟩ := by
  intro t p ht hp
  exact ⟨p, ht, hp, i_pop_fresh (lang := lang u k) (miss_parse h hr hd ht) rfl rfl rfl⟩

theorem s_gap {c : Nat} {rest : List Nat} (h : Misses u k l (c :: rest)) (hd : dflt l = .skip := by rfl) :
    Go u k f ⟨c :: rest, (l, is) :: fs, n, o⟩ ⟨rest, (l, is) :: fs, n, true⟩ := by
  intro t p ht hp
  have hlt : p < t.length := by
    have := congrArg List.length ht
    simp only [List.length_drop, List.length_cons] at this
    omega
  refine ⟨p + 1, by rw [← List.drop_drop, ht]; rfl, hlt, i_gap (lang := lang u k) ?_ (Nat.lt_succ_self _)⟩
  have hm : rxMatch ((rules u k l).map (·.pat)) t p = none := (rxMatch_none (by omega)).2 (h t p ht)
  have hs : rxSearch ((rules u k l).map (·.pat)) t p false = rxSearch ((rules u k l).map (·.pat)) t (p + 1) false := by
    unfold rxSearch
    simp only [Bool.false_eq_true, if_false]
    rw [show t.length + 1 - p = (t.length + 1 - (p + 1)) + 1 by omega, rxScan, hm]
  show parseNext _ (compile .none (rules u k l) (dflt l)) _ _ = parseNext _ (compile .none (rules u k l) (dflt l)) _ _
  rw [compile_cons _ _ _ (rules_ne l), hd]
  simp only [parseNext, hs]

end

/-! ### Which rules may match -/

/-- For ASCII. -/
def uni0 : Uni where
  digit c := 48 ≤ c && c ≤ 57
  space c := (9 ≤ c && c ≤ 13) || (28 ≤ c && c ≤ 32)
  word c := (48 ≤ c && c ≤ 57) || (65 ≤ c && c ≤ 90) || c == 95 || (97 ≤ c && c ≤ 122)

def words0 : Words := ⟨fun _ => false, fun _ => false⟩

theorem leads_ascii (hu : u.Ascii) {c : Nat} (hc : c < 128) (l : CL) : leads (rules u k l) (some c) = leads (rules uni0 words0 l) (some c) := by
  have h1 := hu.digit c hc
  have h2 := hu.space c hc
  have h3 := hu.word c hc
  cases l <;> simp only [leads, rules, toplevelRules, selectorsRules, inlineRules, commonRules, atruleRules, stringRules, identRules, rule, ruleOf,
    List.map_cons, List.map_nil, List.map_append, List.cons_append, List.nil_append,
    numberPat, colorPat, escapePat, upTo, namePat, spacePat, nameChar, chr, Ini.emailPat, Ini.urlPat, Ini.alertPat, Ini.wordOr,
    Pat.opt, Pat.plus, Pat.times, Pat.bound, Pat.alts,
    Pat.can, Pat.fst, Pat.nul, Option.map_some, Option.getD_some, h1, h2, h3, uni0]

/-- Before the rule `i`, only the rules in `ex` may match text that starts with this character. -/
def onlyAt (l : CL) (i : Nat) (ex : List Nat) (c : Nat) : Bool :=
  ((leads (rules uni0 words0 l) (some c)).take i).zipIdx.all (fun x => !x.1 || ex.contains x.2)

/-- No rule can match text that starts with this character. -/
def noneAt (l : CL) (c : Nat) : Bool := (leads (rules uni0 words0 l) (some c)).all (!·)

theorem hits (hu : u.Ascii) (i : Nat) (ex : List Nat) {l : CL} {c : Nat} {w post : List Nat} {r : CRule} {a : CA} {tg : Option (Target CL)}
    (hr : (rules u k l)[i]? = some r) (hout : ∀ gs, r.out (c :: w) gs = (a, tg)) (hc : c < 128) (hl : onlyAt l i ex c = true)
    (hx : ∀ j ∈ ex, ∀ r, (rules u k l)[j]? = some r → PFail r.pat (c :: w ++ post)) (hb : PBest r.pat (c :: w) post) :
    Hits u k l (c :: w) post a tg := by
  refine ⟨by simp, fun t p ht => ⟨i, [], r, ?_, hr, hout⟩⟩
  have hg : t[p]? = some c := drop_get ht
  have hp := (List.getElem?_eq_some_iff.1 hg).1
  refine match_rule (g := []) hr (leads_fail' ex ?_ (fun j hj r hr => hx j hj r hr t p ht)) (hb t p ht) (by omega)
  rw [hg, leads_ascii hu hc]
  exact hl

theorem pbest_str (w post : List Nat) : PBest (Pat.str w) w post := fun _ _ ht => best_str w ht

theorem misses (hu : u.Ascii) {l : CL} {c : Nat} {post : List Nat} (hc : c < 128) (hl : noneAt l c = true) : Misses u k l (c :: post) := by
  intro t p ht
  refine leads_none ?_
  rw [drop_get ht, leads_ascii hu hc]
  exact hl

theorem pfail_can {a : Pat Nat} {rest : List Nat} (h : a.can rest.head? = false) : PFail a rest := by
  intro t p ht
  refine can_fails ?_
  rw [drop_head ht]
  exact h

end Parce.CssL

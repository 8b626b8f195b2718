import Verif.Lemmas.Introspect
import Verif.Props.RuleItem
/-!
# Properties of introspection (C111)
-/
namespace Parce.Isp
open Parce.RI
variable {V D A : Type}

theorem mem_lexicons (mro : List (Cls D A)) (k : Nat) (a : Option (Attr D A)) :
    (k, a) ∈ lexicons mro ↔ a = getattr mro k ∧ ∃ c ∈ mro.takeWhile (fun c => !c.isLanguage), ∃ d, (k, .lexicon d) ∈ c.dict := by
  simp only [lexicons, List.mem_map, Prod.mk.injEq, names, mem_sortedSet, List.mem_flatMap, mem_lexNames]
  constructor
  · rintro ⟨k', h, rfl, rfl⟩
    exact ⟨rfl, h⟩
  · rintro ⟨rfl, h⟩
    exact ⟨k, h, rfl, rfl⟩

theorem lookup_mem {β : Type} : (l : List (Nat × β)) → (k : Nat) → (b : β) → l.lookup k = some b → (k, b) ∈ l
  | [], _, _, h => by simp at h
  | (k', b') :: l, k, b, h => by
    rw [List.lookup_cons] at h
    cases hk : k == k'
    · rw [hk] at h
      exact List.mem_cons_of_mem _ (lookup_mem l k b h)
    · rw [hk] at h
      cases h
      rw [beq_iff_eq.1 hk]
      exact List.mem_cons_self

/-- C111, the lexicons. They are listed in the order of their names, each name once, and they are
    exactly the attributes of the language that are lexicons. Partial: no lexicon is replaced with
    something else in a subclass (`C111_override_violated`), and no class after `Language` has
    lexicons (`C111_mixin_violated`). -/
theorem C111_lexicons_partial (mro : List (Cls D A)) (h1 : NoOverride mro) (h2 : LanguageLast mro) :
    ((lexicons mro).map (·.1)).Pairwise (· < ·) ∧
    ∀ k a, (k, a) ∈ lexicons mro ↔ ∃ d, a = some (.lexicon d) ∧ getattr mro k = some (.lexicon d) := by
  constructor
  · have : (lexicons mro).map (·.1) = names mro := by
      simp [lexicons, Function.comp_def]
    rw [this]
    exact pairwise_sortedSet _
  · intro k a
    rw [mem_lexicons]
    constructor
    · rintro ⟨rfl, c, hc, d, hd⟩
      obtain ⟨d', hd'⟩ := h1 k d c ((List.takeWhile_sublist _).subset hc) hd
      exact ⟨d', hd', hd'⟩
    · rintro ⟨d, rfl, hg⟩
      refine ⟨hg.symm, ?_⟩
      obtain ⟨c, hc, hl⟩ := List.exists_of_findSome?_eq_some hg
      have hm := lookup_mem _ _ _ hl
      rw [← List.takeWhile_append_dropWhile (p := fun c : Cls D A => !c.isLanguage) (l := mro)] at hc
      rcases List.mem_append.1 hc with hc | hc
      · exact ⟨c, hc, d, hm⟩
      · exact absurd hm (h2 c hc k d)

/-- Two classes and `Language`: lexicon 5 is redefined, 3 is inherited, 4 is no lexicon. -/
def exMro : List (Cls Nat Nat) :=
  [⟨false, [(5, .lexicon 10), (4, .other 0)]⟩, ⟨false, [(5, .lexicon 11), (3, .lexicon 12)]⟩, ⟨true, [(9, .other 1)]⟩, ⟨false, []⟩]

theorem exMro_override : NoOverride exMro := by
  intro k d c hc hd
  simp only [exMro, List.mem_cons, List.not_mem_nil, or_false] at hc
  rcases hc with rfl | rfl | rfl | rfl
  · simp only [List.mem_cons, Prod.mk.injEq, Attr.lexicon.injEq, reduceCtorEq, and_false, List.not_mem_nil, or_false] at hd
    rw [hd.1]; exact ⟨10, by decide⟩
  · simp only [List.mem_cons, Prod.mk.injEq, List.not_mem_nil, or_false] at hd
    rcases hd with hd | hd
    · rw [hd.1]; exact ⟨10, by decide⟩
    · rw [hd.1]; exact ⟨12, by decide⟩
  · simp at hd
  · simp at hd

theorem exMro_last : LanguageLast exMro := by
  intro c hc k d
  have : exMro.dropWhile (fun c => !c.isLanguage) = [⟨true, [(9, .other 1)]⟩, ⟨false, []⟩] := rfl
  rw [this] at hc
  simp only [List.mem_cons, List.not_mem_nil, or_false] at hc
  rcases hc with rfl | rfl <;> simp

example : NoOverride exMro ∧ LanguageLast exMro ∧
    lexicons exMro = [(3, some (.lexicon 12)), (5, some (.lexicon 10))] := ⟨exMro_override, exMro_last, by decide⟩

/-- C111, the rule items. If `rule_items` raises no exception, then whatever a rule of a lexicon of
    the language comes to, with any text, match and argument, each member (other than `skip`) is
    covered by one of the items: it is the same, or a number and `a_number` is listed, or a pattern
    and `a_string` is listed, or a lexicon derived from one that is listed. Partial: for delegated
    lexicons without dynamic subgroup actions, and as `C111_lexicons_partial`. -/
theorem C111_items_partial (py : Py V) (mk : Marks V) (hpl : py.Plain mk) (rules : D → List (List (Itm V)))
    (mro : List (Cls D A)) (h1 : NoOverride mro) (h2 : LanguageLast mro) (l : List (Itm V))
    (hl : ruleItems py mk rules mro = some l) (k : Nat) (d : D) (hd : getattr mro k = some (.lexicon d))
    (rule : List (Itm V)) (hr : rule ∈ rules d) (ho : DelOkL rule) (ns : NS V) (hb : BoundL ns rule)
    (rs : List (Itm V)) (he : evalRule py ns rule = .ok rs) (os : List (Itm V)) (hx : ExpandL py ns rs os) :
    ∀ o ∈ os, o ≠ .skip → ∃ w ∈ l, Covers py mk w o := by
  obtain ⟨a, ha, hal⟩ := (itemsOf_mem hl).1 (k, some (.lexicon d)) (((C111_lexicons_partial mro h1 h2).2 k _).2 ⟨d, rfl, hd⟩)
  obtain ⟨b, hb', hba⟩ := (flatten_rules (by simpa only [lexItems] using ha)).1 rule hr
  exact (icov_rule py mk hpl ns rule ho hb he hx hb').mono (fun w hw => hal w (hba w hw))

/-- The rules of the lexicons 10 and 12 of the example. -/
def exRules : Nat → List (List (Itm Nat))
  | 10 => [[.val 60, .skip, .val 1], exRule]
  | 12 => [[.val 61, .val 43, .target (.var .text) [.val 20, .tup [.val 22, .val 2]]]]
  | _ => []

theorem exRules_items : ruleItems exPy exMk exRules exMro =
    some [.val 61, .val 43, .val 200, .val 20, .val 22, .val 2, .val 60, .val 1, .val 40, .val 30, .val 20, .val 41, .val 42] := rfl

example : (∃ l, ruleItems exPy exMk exRules exMro = some l) ∧ getattr exMro 5 = some (.lexicon 10) ∧
    [.val 60, .skip, .val 1] ∈ exRules 10 ∧ DelOkL ([.val 60, .skip, .val 1] : List (Itm Nat)) ∧
    evalRule exPy (matchNS (.val 1) (.val 8)) [.val 60, .skip, .val 1] = .ok [.val 60, .skip, .val 1] ∧
    DelOkL exRule ∧ BoundL (matchNS (.val 1) (.val 8)) exRule ∧
    evalRule exPy (matchNS (.val 1) (.val 8)) exRule = .ok [.val 40, .val 21, .subgroup [.val 41, .val 42]] := by
  refine ⟨⟨_, exRules_items⟩, by decide, by simp [exRules], by simp [DelOkL, DelOk], rfl, ?_, ?_, rfl⟩
  · simp [DelOkL, DelOk, exRule]
  · simp [BoundL, Itm.Bound, exRule, matchNS]

/-- C111, nothing else is listed. Every rule item is in a variation of a rule of a lexicon of the
    language. Partial: for rules without nested lists and `skip`, which have something to choose
    from (a rule with `skip` has no variations, C44). -/
theorem C111_only_partial (py : Py V) (mk : Marks V) (rules : D → List (List (Itm V)))
    (mro : List (Cls D A)) (h1 : NoOverride mro) (h2 : LanguageLast mro) (l : List (Itm V))
    (hl : ruleItems py mk rules mro = some l)
    (hok : ∀ k d, getattr mro k = some (.lexicon d) → ∀ rule ∈ rules d, Flat rule ∧ TreeOkL rule) (x : Itm V) (hx : x ∈ l) :
    ∃ k d, getattr mro k = some (.lexicon d) ∧ ∃ rule ∈ rules d, ∃ vs, variations py mk rule = some vs ∧ ∃ w ∈ vs, x ∈ w := by
  obtain ⟨⟨k, at'⟩, he, a, ha, hxa⟩ := (itemsOf_mem hl).2 x hx
  obtain ⟨d, rfl, hd⟩ := ((C111_lexicons_partial mro h1 h2).2 k at').1 he
  obtain ⟨rule, hr, b, hb, hxb⟩ := (flatten_rules (by simpa only [lexItems] using ha)).2 x hxa
  have hok' := hok k d hd rule hr
  obtain ⟨vs, hv, _, h⟩ := isubL py mk rule hok'.2 hb
  exact ⟨k, d, hd, rule, hr, vs, by rw [variations_flat py mk rule hok'.1]; exact hv, h x hxb⟩

example : Flat exRule ∧ TreeOkL exRule := by
  constructor
  · simp [Flat, exRule]
  · simp [TreeOkL, Itm.TreeOk, exRule]

theorem covers_val {py : Py V} {mk : Marks V} (P : V → Prop) (hint : ∀ v, P v → py.asInt v = none)
    (happ : ∀ o arg r, py.app o [arg] = some (.val r) → P r → ∃ x, o = .val x ∧ P x) {w o : Itm V} (h : Covers py mk w o) :
    ∀ v, o = .val v → P v → w = .val mk.string ∨ ∃ u, w = .val u ∧ P u := by
  induction h with
  | same o => exact fun v hv hp => .inr ⟨v, hv, hp⟩
  | number o ho =>
    intro v hv hp
    rw [hv] at ho
    simp only [Itm.int?, hint v hp] at ho
    cases ho
  | string v _ => exact fun _ _ _ => .inl rfl
  | derived w o arg r _ ha ih =>
    intro v hv hp
    rw [hv] at ha
    obtain ⟨x, hx, hpx⟩ := happ _ _ _ ha hp
    exact ih x hx hpx

theorem mem_vals {l : List (Itm V)} {v : V} : v ∈ vals l ↔ .val v ∈ l := by
  simp only [vals, List.mem_filterMap]
  constructor
  · rintro ⟨o, ho, h⟩
    cases o <;> simp at h
    rw [← h]; exact ho
  · exact fun h => ⟨_, h, rfl⟩

/-- C111, the actions. Every standard action that a rule of the language can come to is in
    `standardactions`, and all listed are standard actions. Partial: as `C111_items_partial`, and no pattern of a
    rule depends on the text or the argument; numbers are no standard actions, and none is the result of
    calling something with one argument. -/
theorem C111_actions_partial (py : Py V) (mk : Marks V) (hpl : py.Plain mk) (isStd : V → Bool)
    (hint : ∀ v, isStd v = true → py.asInt v = none)
    (happ : ∀ o arg r, py.app o [arg] = some (.val r) → isStd r = false)
    (rules : D → List (List (Itm V)))
    (mro : List (Cls D A)) (h1 : NoOverride mro) (h2 : LanguageLast mro) (l : List (Itm V)) (s : List V)
    (hl : ruleItems py mk rules mro = some l) (hstr : .val mk.string ∉ l) (hs : standardactions py mk isStd rules mro = some s) :
    (∀ v ∈ s, isStd v = true ∧ .val v ∈ l) ∧
    ∀ (k : Nat) (d : D), getattr mro k = some (.lexicon d) → ∀ rule ∈ rules d, DelOkL rule → ∀ ns : NS V, BoundL ns rule →
      ∀ rs, evalRule py ns rule = .ok rs → ∀ os, ExpandL py ns rs os → ∀ v, .val v ∈ os → isStd v = true → v ∈ s := by
  simp only [standardactions, hl, Option.map_some, Option.some.injEq] at hs
  subst hs
  constructor
  · intro v hv
    obtain ⟨h3, h4⟩ := List.mem_filter.1 hv
    exact ⟨h4, mem_vals.1 h3⟩
  · intro k d hd rule hr ho ns hb rs he os hx v hv hsv
    obtain ⟨w, hw, hc⟩ := C111_items_partial py mk hpl rules mro h1 h2 l hl k d hd rule hr ho ns hb rs he os hx _ hv (fun h => by cases h)
    -- the covering item is the action itself
    have key : ∀ {w o : Itm V}, Covers py mk w o → ∀ v, o = .val v → isStd v = true → w = .val mk.string ∨ w = .val v := by
      intro w o h
      induction h with
      | same o => exact fun v hv _ => .inr hv
      | number o ho =>
        intro v hv hp
        rw [hv] at ho
        simp only [Itm.int?, hint v hp] at ho
        cases ho
      | string v _ => exact fun _ _ _ => .inl rfl
      | derived w o arg r _ ha ih =>
        intro v hv hp
        rw [hv] at ha
        rw [happ _ _ _ ha] at hp
        cases hp
    rcases key hc v rfl hsv with h | h
    · exact absurd (h ▸ hw) hstr
    · exact List.mem_filter.2 ⟨mem_vals.2 (h ▸ hw), hsv⟩

example : (∀ v : Nat, decide (40 ≤ v ∧ v < 50) = true → exPy.asInt v = none) ∧
    (∀ o arg r, exPy.app o [arg] = some (.val r) → decide (40 ≤ r ∧ r < 50) = false) ∧
    standardactions exPy exMk (fun v => decide (40 ≤ v ∧ v < 50)) exRules exMro = some [43, 40, 41, 42] := by
  refine ⟨?_, ?_, rfl⟩
  · intro v hv
    simp only [decide_eq_true_eq] at hv
    simp only [exPy, show ¬ v < 10 by omega, if_false]
  · intro o arg r h
    unfold exPy at h
    simp only at h
    split at h
    · cases h; rfl
    · next x _ _ =>
      cases h
      simp only [decide_eq_false_iff_not]
      omega
    · next x _ _ =>
      cases h
      simp only [decide_eq_false_iff_not]
      omega
    · cases h

/-- C111, the languages. If a rule of the language can come to a lexicon of another language, that
    language is in `languages`, and the language itself is not. Partial: as
    `C111_actions_partial`, where a lexicon is the result of a call with one argument only if it is
    derived from a lexicon of the same language. -/
theorem C111_languages_partial (py : Py V) (mk : Marks V) (hpl : py.Plain mk) (langOf : V → Option Nat) (self : Nat)
    (hint : ∀ v, langOf v ≠ none → py.asInt v = none)
    (happ : ∀ x arg r, py.app (.val x) [arg] = some (.val r) → ∀ n, langOf r = some n → langOf x = some n)
    (rules : D → List (List (Itm V)))
    (mro : List (Cls D A)) (h1 : NoOverride mro) (h2 : LanguageLast mro) (l : List (Itm V)) (s : List Nat)
    (hl : ruleItems py mk rules mro = some l) (hstr : .val mk.string ∉ l) (hs : languages py mk langOf self rules mro = some s) :
    self ∉ s ∧
    ∀ (k : Nat) (d : D), getattr mro k = some (.lexicon d) → ∀ rule ∈ rules d, DelOkL rule → ∀ ns : NS V, BoundL ns rule →
      ∀ rs, evalRule py ns rule = .ok rs → ∀ os, ExpandL py ns rs os → ∀ v, .val v ∈ os → ∀ n, langOf v = some n → n ≠ self → n ∈ s := by
  simp only [languages, hl, Option.map_some, Option.some.injEq] at hs
  subst hs
  constructor
  · intro h
    simpa using (List.mem_filter.1 h).2
  · intro k d hd rule hr ho ns hb rs he os hx v hv n hn hne
    obtain ⟨w, hw, hc⟩ := C111_items_partial py mk hpl rules mro h1 h2 l hl k d hd rule hr ho ns hb rs he os hx _ hv (fun h => by cases h)
    rcases covers_val (fun v => langOf v = some n) (fun v h => hint v (by rw [h]; simp))
        (fun o arg r h hp => by
          obtain ⟨⟨x, rfl⟩, _⟩ := hpl.app _ _ _ h
          exact ⟨x, rfl, happ x arg r h n hp⟩) hc v rfl hn with h | ⟨u, hu, hlu⟩
    · exact absurd (h ▸ hw) hstr
    · refine List.mem_filter.2 ⟨List.mem_filterMap.2 ⟨u, mem_vals.2 (hu ▸ hw), hlu⟩, by simpa using hne⟩

/-- Lexicons 20 and 21 (derived) are of language 1, 22 of language 0. -/
def exLang (v : Nat) : Option Nat := if v = 20 ∨ v = 21 then some 1 else if v = 22 then some 0 else none

example : (∀ v, exLang v ≠ none → exPy.asInt v = none) ∧
    (∀ x arg r, exPy.app (.val x) [arg] = some (.val r) → ∀ n, exLang r = some n → exLang x = some n) ∧
    languages exPy exMk exLang 0 exRules exMro = some [1, 1] ∧ exLang 21 = some 1 := by
  refine ⟨?_, ?_, rfl, rfl⟩
  · intro v hv
    have : ¬ v < 10 := by
      intro h
      apply hv
      unfold exLang
      rw [if_neg (by omega), if_neg (by omega)]
    simp only [exPy, this, if_false]
  · intro x arg r h n hn
    unfold exPy at h
    simp only at h
    split at h
    · next he _ => cases h; cases he; exact hn
    · cases h
      unfold exLang at hn
      rw [if_neg (by omega), if_neg (by omega)] at hn
      cases hn
    · cases h
      unfold exLang at hn
      rw [if_neg (by omega), if_neg (by omega)] at hn
      cases hn
    · cases h

/-- C111 does not hold if a subclass sets a lexicon to `None` (0) to remove it: it is still listed, as `None`,
    and `rule_items` raises. -/
theorem C111_override_violated : ∃ mro : List (Cls Nat Nat), LanguageLast mro ∧
    lexicons mro = [(3, some (.other 0))] ∧ getattr mro 3 = some (.other 0) ∧
    ∀ (py : Py V) (mk : Marks V) rules, ruleItems py mk rules mro = none := by
  refine ⟨[⟨false, [(3, .other 0)]⟩, ⟨false, [(3, .lexicon 12)]⟩, ⟨true, []⟩], ?_, by decide, by decide, fun _ _ _ => rfl⟩
  intro c hc k d
  have : ([⟨false, [(3, .other 0)]⟩, ⟨false, [(3, .lexicon 12)]⟩, ⟨true, []⟩] : List (Cls Nat Nat)).dropWhile (fun c => !c.isLanguage) = [⟨true, []⟩] := rfl
  rw [this] at hc
  cases List.mem_singleton.1 hc
  simp

/-- C111 does not hold if a class after `Language` has a lexicon (`class A(Language, Mixin)`): it is an attribute of the
    language, but not listed. -/
theorem C111_mixin_violated : ∃ mro : List (Cls Nat Nat), getattr mro 3 = some (.lexicon 12) ∧ lexicons mro = [] :=
  ⟨[⟨false, []⟩, ⟨true, []⟩, ⟨false, [(3, .lexicon 12)]⟩], by decide, by decide⟩

/-- C111 does not hold if a `select` has a call among its items: the rule can be evaluated, but
    `rule_items` raises. -/
theorem C111_call_violated : ∃ rule : List (Itm Nat),
    evalRule exPy ((argNS (.val 0)).union (matchNS (.val 7) (.val 8))) rule = .ok [.val 40, .val 107] ∧
    ruleItems exPy exMk (fun _ : Nat => [rule]) exMro = none :=
  ⟨[.val 40, .select (.var .arg) [.call (.val 51) [.var .text]]], rfl, rfl⟩

end Parce.Isp

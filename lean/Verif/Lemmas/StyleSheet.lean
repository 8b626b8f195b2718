import Verif.Spec.StyleSheet
/-!
# Lemmas about style sheets
-/
set_option linter.unusedSectionVars false
namespace Parce.Sheet
variable {F R : Type} [DecidableEq F]

theorem styles_append (a b : List (Entry F R)) : styles (a ++ b) = styles a ++ styles b := by
  induction a with
  | nil => rfl
  | cons e es ih => simp [styles, ih]

/-- An import that is read. -/
theorem importRules_ok (fc : From F R) (env : Env F R) (fn : Option F) (seen : List (Option F)) {f : F} {icss : List (Node F R)} {s : StyleSheet F R} :
    ∀ {vs : List (Val F)}, NoStr vs → named vs = some f → media vs ≠ [] → some (env.join fn f) ∉ seen → env.fs (env.join fn f) = some icss →
    fc (some (env.join fn f)) true icss = .ok s →
    importRules fc env fn true seen vs = .ok ([.cond "import" (media vs) s.filename s.imported s.rules], some (env.join fn f) :: seen)
  | [], _, h, _, _, _, _ => by cases h
  | .str :: vs, h, _, _, _, _, _ => h.elim
  | .value t u :: vs, h1, h2, h3, h4, h5, h6 => by
    simp only [importRules]
    cases hx : t.or u with
    | none =>
      simp only [NoStr, named, media, hx] at h1 h2 h3 ⊢
      exact importRules_ok fc env fn seen h1 h2 h3 h4 h5 h6
    | some g =>
      simp only [named, media, hx, Option.some.injEq] at h2 h3 ⊢
      subst h2
      rw [if_neg h4, h5]
      simp only
      rw [if_neg h3, h6]

theorem importRules_none (fc : From F R) (env : Env F R) (fn : Option F) (seen : List (Option F)) :
    ∀ {vs : List (Val F)}, NoStr vs → named vs = none → importRules fc env fn true seen vs = .ok ([], seen)
  | [], _, _ => rfl
  | .str :: vs, h, _ => h.elim
  | .value t u :: vs, h1, h2 => by
    simp only [importRules]
    cases hx : t.or u with
    | none =>
      simp only [NoStr, named, hx] at h1 h2 ⊢
      exact importRules_none fc env fn seen h1 h2
    | some g => simp only [named, hx] at h2; cases h2

theorem fine_tail {env : Env F R} {fn : Option F} {n : Node F R} {css : List (Node F R)} (h : Fine env fn (n :: css)) : Fine env fn css := by
  obtain ⟨hq, hd, hs, hb⟩ := h
  cases n with
  | rule r => exact ⟨hq, hd, hs, hb⟩
  | nested kw vs block => exact ⟨hq, hd, hs, fun b h => hb b (List.mem_cons_of_mem _ h)⟩
  | «at» kw vs =>
    by_cases hk : kw = "import"
    · subst hk
      have hsub : importNames env fn (.at "import" vs :: css) = ((named vs).map (env.join fn)).toList ++ importNames env fn css := by
        simp only [importNames, imports, if_true, List.filterMap_cons]
        cases (named vs).map (env.join fn) <;> rfl
      rw [hsub] at hd hs
      simp only [imports, if_true] at hq
      exact ⟨fun v hv => hq v (List.mem_cons_of_mem _ hv), (List.nodup_append.1 hd).2.1, fun f hf => hs f (List.mem_append_right _ hf), hb⟩
    · simp only [imports, if_neg hk] at hq
      simp only [importNames, imports, if_neg hk] at hd hs
      exact ⟨hq, hd, hs, hb⟩

/-- What is expanded is read, from some depth on. -/
theorem expands_ok {env : Env F R} (hfs : ∀ f icss, env.fs f = some icss → Fine env (some f) icss) {fn : Option F} {css : List (Node F R)} {l : List R}
    (h : Expands env fn css l) : Fine env fn css → ∀ seen : List (Option F), (∀ f ∈ importNames env fn css, some f ∉ seen) →
    ∃ N es, styles es = l ∧ ∀ n, N ≤ n → getRules (fromCss env n) env fn true seen css = .ok es := by
  induction h with
  | nil => intro _ seen _; exact ⟨0, [], rfl, fun n _ => rfl⟩
  | @rule fn r css l h ih =>
    intro hf seen hs
    obtain ⟨N, es, h1, h2⟩ := ih (fine_tail hf) seen hs
    exact ⟨N, .rule r :: es, by simp [styles, Entry.styles, h1], fun n hn => by simp [getRules, h2 n hn]⟩
  | @«at» fn kw vs css l hk h ih =>
    intro hf seen hs
    obtain ⟨N, es, h1, h2⟩ := ih (fine_tail hf) seen (by simpa [importNames, imports, hk] using hs)
    exact ⟨N, .at kw vs :: es, by simp [styles, Entry.styles, h1], fun n hn => by simp [getRules, h2 n hn, hk]⟩
  | @nested fn kw vs block css l1 l2 hk hb h ihb ih =>
    intro hf seen hs
    obtain ⟨N, es, h1, h2⟩ := ih (fine_tail hf) seen hs
    have hfb : Fine env none block := by
      obtain ⟨_, _, _, hb'⟩ := hf
      exact hb' block (by simp [blocks])
    have hfb2 := hfb
    obtain ⟨_, _, hsb, _⟩ := hfb2
    obtain ⟨M, bs, h3, h4⟩ := ihb hfb [none] (by simp)
    refine ⟨max N (M + 1), .cond kw vs none [] bs :: es, by simp [styles, Entry.styles, h1, h3], fun n hn => ?_⟩
    obtain ⟨m, rfl⟩ : ∃ m, n = m + 1 := ⟨n - 1, by omega⟩
    simp only [getRules, if_neg hk, h2 (m + 1) (by omega)]
    rw [fromCss, h4 m (by omega)]
  | @nothing fn vs css l hn h ih =>
    intro hf seen hs
    obtain ⟨N, es, h1, h2⟩ := ih (fine_tail hf) seen (by simpa [importNames, imports, hn] using hs)
    have hq : NoStr vs := by
      obtain ⟨hq, _⟩ := hf
      exact (hq _ (by simp only [imports, if_true]; exact List.mem_cons_self)).1
    exact ⟨N, es, h1, fun n hn' => by simp [getRules, importRules_none _ _ _ _ hq hn, h2 n hn']⟩
  | @«import» fn vs f icss css l1 l2 hn hfile hi h ihi ih =>
    intro hf seen hs
    have hft := fine_tail hf
    obtain ⟨hq, hd, hself, _⟩ := hf
    obtain ⟨hq1, hq2⟩ := hq vs (by simp only [imports, if_true]; exact List.mem_cons_self)
    have hq2 := hq2 (by rw [hn]; simp)
    have hnames : importNames env fn (.at "import" vs :: css) = env.join fn f :: importNames env fn css := by
      simp [importNames, imports, hn]
    rw [hnames] at hs hd hself
    obtain ⟨N, es, h1, h2⟩ := ih hft (some (env.join fn f) :: seen) (by
      intro g hg hm
      rcases List.mem_cons.1 hm with e | hm
      · cases e
        exact (List.nodup_cons.1 hd).1 hg
      · exact hs g (List.mem_cons_of_mem _ hg) hm)
    have hfi := hfs _ icss hfile
    have hfi2 := hfi
    obtain ⟨_, _, hsi, _⟩ := hfi2
    obtain ⟨M, bs, h3, h4⟩ := ihi hfi [some (env.join fn f)] (by
      intro g hg hm
      simp only [List.mem_singleton] at hm
      exact hsi g hg hm.symm)
    refine ⟨max N (M + 1), .cond "import" (media vs) (some (env.join fn f)) [] bs :: es, by simp [styles, Entry.styles, h1, h3], fun n hn' => ?_⟩
    obtain ⟨m, rfl⟩ : ∃ m, n = m + 1 := ⟨n - 1, by omega⟩
    have hread : fromCss env (m + 1) (some (env.join fn f)) true icss = .ok ⟨some (env.join fn f), [], bs⟩ := by
      rw [fromCss, h4 m (by omega)]
    simp only [getRules, if_true, importRules_ok _ env fn seen hq1 hn hq2 (hs _ List.mem_cons_self) hfile hread, h2 (m + 1) (by omega)]
    rfl

/-- A style sheet without imports. -/
theorem noImport_ok (env : Env F R) : ∀ (css : List (Node F R)), NoImport css → ∀ (fn : Option F) (allow : Bool) (seen : List (Option F)),
    ∃ N es, styles es = ownRules css ∧ ∀ n, N ≤ n → getRules (fromCss env n) env fn allow seen css = .ok es
  | [], _, _, _, _ => ⟨0, [], rfl, fun n _ => rfl⟩
  | .rule r :: css, h, fn, allow, seen => by
    obtain ⟨N, es, h1, h2⟩ := noImport_ok env css h.2 fn allow seen
    exact ⟨N, .rule r :: es, by simp [styles, Entry.styles, ownRules, Node.ownRules, h1], fun n hn => by simp [getRules, h2 n hn]⟩
  | .at kw vs :: css, h, fn, allow, seen => by
    obtain ⟨N, es, h1, h2⟩ := noImport_ok env css h.2 fn allow seen
    exact ⟨N, .at kw vs :: es, by simp [styles, Entry.styles, ownRules, Node.ownRules, h1], fun n hn => by simp [getRules, h2 n hn, show ¬ kw = "import" from h.1]⟩
  | .nested kw vs block :: css, h, fn, allow, seen => by
    obtain ⟨N, es, h1, h2⟩ := noImport_ok env css h.2 fn allow seen
    obtain ⟨M, bs, h3, h4⟩ := noImport_ok env block h.1.2 none true [none]
    refine ⟨max N (M + 1), .cond kw vs none [] bs :: es, by simp [styles, Entry.styles, ownRules, Node.ownRules, h1, h3], fun n hn => ?_⟩
    obtain ⟨m, rfl⟩ : ∃ m, n = m + 1 := ⟨n - 1, by omega⟩
    simp only [getRules, if_neg h.1.1, h2 (m + 1) (by omega)]
    rw [fromCss, h4 m (by omega)]

theorem notAllowed_ok (env : Env F R) : ∀ (css : List (Node F R)), NoNestedImport css → ∀ (fn : Option F) (seen : List (Option F)),
    ∃ N es, styles es = ownRules css ∧ ∀ n, N ≤ n → getRules (fromCss env n) env fn false seen css = .ok es
  | [], _, _, _ => ⟨0, [], rfl, fun n _ => rfl⟩
  | .rule r :: css, h, fn, seen => by
    obtain ⟨N, es, h1, h2⟩ := notAllowed_ok env css h fn seen
    exact ⟨N, .rule r :: es, by simp [styles, Entry.styles, ownRules, Node.ownRules, h1], fun n hn => by simp [getRules, h2 n hn]⟩
  | .at kw vs :: css, h, fn, seen => by
    obtain ⟨N, es, h1, h2⟩ := notAllowed_ok env css h fn seen
    by_cases hk : kw = "import"
    · exact ⟨N, es, by simp [ownRules, Node.ownRules, h1], fun n hn => by simp [getRules, h2 n hn, hk]⟩
    · exact ⟨N, .at kw vs :: es, by simp [styles, Entry.styles, ownRules, Node.ownRules, h1], fun n hn => by simp [getRules, h2 n hn, hk]⟩
  | .nested kw vs block :: css, h, fn, seen => by
    obtain ⟨N, es, h1, h2⟩ := notAllowed_ok env css h.2.2 fn seen
    obtain ⟨M, bs, h3, h4⟩ := noImport_ok env block h.2.1 none true [none]
    refine ⟨max N (M + 1), .cond kw vs none [] bs :: es, by simp [styles, Entry.styles, ownRules, Node.ownRules, h1, h3], fun n hn => ?_⟩
    obtain ⟨m, rfl⟩ : ∃ m, n = m + 1 := ⟨n - 1, by omega⟩
    simp only [getRules, if_neg h.1, h2 (m + 1) (by omega)]
    rw [fromCss, h4 m (by omega)]

/-- An import of a file that is noted gives nothing. -/
theorem importRules_again (fc : From F R) (env : Env F R) (fn : Option F) (allow : Bool) {vs : List (Val F)} {f : F} (hs : NoStr vs)
    (hn : named vs = some f) (fs : List (Option F)) (hm : some (env.join fn f) ∈ fs) : importRules fc env fn allow fs vs = .ok ([], fs) := by
  induction vs with
  | nil => cases hn
  | cons v vs ih =>
    cases v with
    | str => exact absurd hs id
    | value text url =>
      simp only [NoStr, named] at hs hn
      cases ho : text.or url with
      | none => rw [ho] at hs hn; simp only at hs hn; simp only [importRules, ho]; exact ih hs hn
      | some g =>
        rw [ho] at hn; simp only [Option.some.injEq] at hn; subst hn
        simp only [importRules, ho, hm, if_true]

/-- The files noted stay noted, and the named one is noted. -/
theorem importRules_grows (fc : From F R) (env : Env F R) (fn : Option F) (allow : Bool) {vs : List (Val F)} {fs fs' : List (Option F)}
    {es : List (Entry F R)} (h : importRules fc env fn allow fs vs = .ok (es, fs')) :
    (∀ x ∈ fs, x ∈ fs') ∧ ∀ f, named vs = some f → some (env.join fn f) ∈ fs' := by
  induction vs with
  | nil =>
    simp only [importRules, Except.ok.injEq, Prod.mk.injEq] at h
    obtain ⟨_, rfl⟩ := h
    exact ⟨fun x hx => hx, fun f hf => by cases hf⟩
  | cons v vs ih =>
    cases v with
    | str => cases h
    | value text url =>
      simp only [importRules] at h
      simp only [named]
      cases ho : text.or url with
      | none => rw [ho] at h; exact ih h
      | some g =>
        rw [ho] at h
        simp only at h
        split at h
        · next hm =>
          simp only [Except.ok.injEq, Prod.mk.injEq] at h
          obtain ⟨_, rfl⟩ := h
          exact ⟨fun x hx => hx, fun f hf => by cases hf; exact hm⟩
        · split at h
          · cases h
          · split at h
            · cases h
            · split at h
              · cases h
              · simp only [Except.ok.injEq, Prod.mk.injEq] at h
                obtain ⟨_, rfl⟩ := h
                exact ⟨fun x hx => List.mem_cons_of_mem _ hx, fun f hf => by cases hf; exact List.mem_cons_self ..⟩

/-- An import of a file that was imported before is left out. -/
theorem getRules_again (fc : From F R) (env : Env F R) (fn : Option F) {vs' : List (Val F)} {f : F} (hs : NoStr vs')
    (hn : named vs' = some f) (post : List (Node F R)) : ∀ (pre : List (Node F R)) (fs : List (Option F)),
    (some (env.join fn f) ∈ fs ∨ ∃ vs g, Node.at "import" vs ∈ pre ∧ named vs = some g ∧ env.join fn g = env.join fn f) →
    getRules fc env fn true fs (pre ++ .at "import" vs' :: post) = getRules fc env fn true fs (pre ++ post) := by
  intro pre
  induction pre with
  | nil =>
    intro fs h
    rcases h with h | ⟨vs, g, h, _⟩
    · simp only [List.nil_append, getRules, if_true, importRules_again fc env fn true hs hn fs h]
      cases getRules fc env fn true fs post <;> rfl
    · cases h
  | cons n pre ih =>
    intro fs h
    have other : (∀ vs, n ≠ .at "import" vs) → getRules fc env fn true fs (pre ++ .at "import" vs' :: post) = getRules fc env fn true fs (pre ++ post) := by
      intro hne
      apply ih
      rcases h with h | ⟨vs, g, h, h'⟩
      · exact Or.inl h
      · rcases List.mem_cons.1 h with h | h
        · exact absurd h.symm (hne vs)
        · exact Or.inr ⟨vs, g, h, h'⟩
    cases n with
    | rule r => simp only [List.cons_append, getRules, other (by simp)]
    | «at» kw vs =>
      by_cases hk : kw = "import"
      · subst hk
        simp only [List.cons_append, getRules, if_true]
        cases hi : importRules fc env fn true fs vs with
        | error e => rfl
        | ok r =>
          obtain ⟨es, fs'⟩ := r
          simp only
          obtain ⟨g1, g2⟩ := importRules_grows fc env fn true hi
          rw [ih fs' ?_]
          rcases h with h | ⟨vs2, g, h, h1, h2⟩
          · exact Or.inl (g1 _ h)
          · rcases List.mem_cons.1 h with h | h
            · cases h
              exact Or.inl (by rw [← h2]; exact g2 _ h1)
            · exact Or.inr ⟨vs2, g, h, h1, h2⟩
      · simp only [List.cons_append, getRules, hk, if_false, other (fun v h => by cases h; exact hk rfl)]
    | nested kw vs block =>
      by_cases hk : kw = "import"
      · subst hk
        simp only [List.cons_append, getRules, if_true]
        cases hi : importRules fc env fn true fs vs with
        | error e => rfl
        | ok r =>
          obtain ⟨es, fs'⟩ := r
          simp only
          obtain ⟨g1, g2⟩ := importRules_grows fc env fn true hi
          rw [ih fs' ?_]
          rcases h with h | ⟨vs2, g, h, h1, h2⟩
          · exact Or.inl (g1 _ h)
          · rcases List.mem_cons.1 h with h | h
            · cases h
            · exact Or.inr ⟨vs2, g, h, h1, h2⟩
      · simp only [List.cons_append, getRules, hk, if_false, other (by simp)]

end Parce.Sheet

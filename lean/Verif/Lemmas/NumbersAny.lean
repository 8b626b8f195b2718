import Verif.Lemmas.NumbersEnglish
/-!
# Any text gives numbers
-/
namespace Parce.Num
variable {u : Uni} {t : List Char}

/-- The longest word that is there. -/
theorem longest_word {ws : List Word} {T : List Char} (h : ∃ x ∈ ws, x <+: T) : ∃ w ∈ ws, w <+: T ∧ ∀ x ∈ ws, x <+: T → x.length ≤ w.length := by
  induction ws with
  | nil => obtain ⟨x, hx, _⟩ := h; cases hx
  | cons y ws ih =>
    by_cases h1 : ∃ x ∈ ws, x <+: T
    · obtain ⟨w, h2, h3, h4⟩ := ih h1
      by_cases h5 : y <+: T ∧ w.length ≤ y.length
      · refine ⟨y, List.mem_cons_self .., h5.1, fun x hx hp => ?_⟩
        rcases List.mem_cons.1 hx with rfl | hx
        · exact Nat.le_refl _
        · exact Nat.le_trans (h4 x hx hp) h5.2
      · refine ⟨w, List.mem_cons_of_mem _ h2, h3, fun x hx hp => ?_⟩
        rcases List.mem_cons.1 hx with rfl | hx
        · exact Nat.le_of_lt (Nat.lt_of_not_le (fun hl => h5 ⟨hp, hl⟩))
        · exact h4 x hx hp
    · obtain ⟨x, hx, hp⟩ := h
      refine ⟨y, List.mem_cons_self .., ?_, fun z hz hzp => ?_⟩
      · rcases List.mem_cons.1 hx with rfl | hx
        · exact hp
        · exact absurd ⟨x, hx, hp⟩ h1
      · rcases List.mem_cons.1 hz with rfl | hz
        · exact Nat.le_refl _
        · exact absurd ⟨z, hz, hzp⟩ h1

theorem blank_move {p : Nat} (hp : p < t.length) {x : Char} (hx : t[p]? = some x) (hs : isSkip u x = true) : ∃ s, BlankAt u t p s := by
  obtain ⟨h1, h2⟩ := List.getElem?_eq_some_iff.1 hx
  refine ⟨(t.drop p).takeWhile (isSkip u), ?_, ⟨(t.drop p).dropWhile (isSkip u), (List.takeWhile_append_dropWhile ..).symm, ?_⟩, ?_⟩
  · rw [List.drop_eq_getElem_cons h1, h2, List.takeWhile_cons, if_pos hs]
    simp
  · intro c hc
    have := List.head?_dropWhile_not (isSkip u) (t.drop p)
    rw [Option.mem_def.1 hc] at this
    simpa using this
  · intro c hc
    exact List.all_eq_true.1 List.all_takeWhile c hc

theorem check_values : (enTens ++ enTo19 ++ enUnits).all (fun w => (look (values enTens enTo19) w).isSome) = true := by decide +kernel

/-- The text of a word, in lower case. -/
theorem low_word (he : ∀ c : Char, (u.fold c).isAlpha = true → u.low c = [u.fold c]) {v : List Char} {w : Word} (hw : w ∈ enLists) (hv : v.map u.fold = w) :
    v.flatMap u.low = w := by
  have h1 : ∀ c ∈ v, (u.fold c).isAlpha = true := fun c hc => (word_alpha hw).2 _ (by rw [← hv]; exact List.mem_map.2 ⟨c, hc, rfl⟩)
  rw [← hv]
  clear hv hw
  induction v with
  | nil => rfl
  | cons c v ih =>
    simp only [List.flatMap_cons, List.map_cons, he c (h1 c (List.mem_cons_self ..)), ih (fun x hx => h1 x (List.mem_cons_of_mem _ hx))]
    rfl

theorem english_move (he : ∀ c : Char, (u.fold c).isAlpha = true → u.low c = [u.fold c]) {p : Nat} (hp : p < t.length) (l : NL) (hl : l ≠ .root) :
    Move u (english u) t p l := by
  have hget : t[p]? = some t[p] := List.getElem?_eq_some_iff.2 ⟨hp, rfl⟩
  by_cases hln : l = .number
  · subst hln
    refine .miss ?_
    rw [rxMatch_none (Nat.le_of_lt hp)]
    rintro ⟨a, ha, _⟩
    simp [rules] at ha
  by_cases hs : isSkip u t[p] = true
  · obtain ⟨s, hb⟩ := blank_move hp hget hs
    exact .blank hb hln
  · have hskip := skip_fails hget (by simpa using hs)
    -- a word that a rule finds
    have key : ∀ {w : Word} {ps qs : List (PRule Char NL NA)} {a : Pat Char} {ls : List NL} (k : Kind), w ∈ enLists → w <+: folded u t p →
        rules u (english u) l = ps ++ rule a .number (some ⟨1, ls⟩) :: qs → (∀ r ∈ ps, Fails t r.pat p) → Best t a p (p + w.length) →
        accept l k = some ls → (rank l = 0 → w ∈ enTens ++ enTo19 ++ enUnits) → Move u (english u) t p l := by
      intro w ps qs a ls k hw hpre hr hf hb ha hv
      have hlen := hpre.length_le
      simp only [folded, List.length_map] at hlen
      have hvw : ((t.drop p).take w.length).map u.fold = w := by
        rw [List.map_take]
        show (folded u t p).take w.length = w
        obtain ⟨r, hr⟩ := hpre
        rw [← hr, List.take_left]
      have hvl : ((t.drop p).take w.length).length = w.length := by rw [List.length_take]; omega
      have hne : (t.drop p).take w.length ≠ [] := by
        intro h
        rw [h] at hvl
        exact (word_alpha hw).1 (List.length_eq_zero_iff.1 hvl.symm)
      obtain ⟨tok, ps', h1, h2, h3, h4, h5⟩ := english_hit (l := l) (a := a) (tg := ⟨1, ls⟩) (List.take_append_drop w.length (t.drop p)).symm hne hr hf
        (by rw [hvl]; exact hb)
      have hsome : ∃ vs, rank l = 0 → texts u (english u).values ((makeTokens ((lang u (english u)).expand tok)).map .tok) = some vs := by
        by_cases h0 : rank l = 0
        · have := List.all_eq_true.1 check_values w (hv h0)
          obtain ⟨n, hn⟩ := Option.isSome_iff_exists.1 this
          refine ⟨[n], fun _ => ?_⟩
          rw [h5]
          show texts u (values enTens enTo19) [.tok ⟨p, _, .number, none⟩] = _
          simp only [texts, low_word he hw hvw, hn, Option.map_some]
        · exact ⟨[], fun h => absurd h h0⟩
      obtain ⟨vs, hvs⟩ := hsome
      have hdl : (t.drop p).length = t.length - p := List.length_drop
      exact .tok h1 h2 (by rw [h3]; exact hne) (by rw [h3, hvl]; omega) h4 ha (by rw [h5]; simp) hvs
    have hfail0 : ∀ r ∈ [skipRule u], Fails t r.pat p := by
      intro r hr
      simp only [List.mem_cons, List.not_mem_nil, or_false] at hr
      subst hr
      exact hskip
    by_cases hfind : ∃ x ∈ lexWords l, x <+: folded u t p
    · cases l with
      | root => exact absurd rfl hl
      | number => exact absurd rfl hln
      | n99 =>
        by_cases hte : ∃ x ∈ enTens, x <+: folded u t p
        · obtain ⟨w, h1, h2, h3⟩ := longest_word hte
          exact key (ps := [skipRule u]) (.tens 0) (lex_sub (l := .n99) (List.mem_append.2 (Or.inl h1))) h2 rfl hfail0 (words_best h1 h2 h3) rfl
            (fun _ => by simp only [List.mem_append]; exact Or.inl (Or.inl h1))
        · have hto : ∃ x ∈ enTo19, x <+: folded u t p := by
            obtain ⟨x, hx, hxp⟩ := hfind
            rcases List.mem_append.1 hx with hx | hx
            · exact absurd ⟨x, hx, hxp⟩ hte
            · exact ⟨x, hx, hxp⟩
          obtain ⟨w, h1, h2, h3⟩ := longest_word hto
          exact key (ps := [skipRule u, rule (words u enTens) .number (some ⟨1, [.p1]⟩)]) (.teen 0)
            (lex_sub (l := .n99) (List.mem_append.2 (Or.inr h1))) h2 rfl (by
              intro r hr
              simp only [List.mem_cons, List.not_mem_nil, or_false] at hr
              rcases hr with rfl | rfl
              · exact hskip
              · exact words_fails (fun x hx hxp => hte ⟨x, hx, hxp⟩)) (words_best h1 h2 h3) rfl
            (fun _ => by simp only [List.mem_append]; exact Or.inl (Or.inr h1))
      | p1 =>
        obtain ⟨w, h1, h2, h3⟩ := longest_word hfind
        exact key (ps := [skipRule u]) (.unit 0) (lex_sub h1) h2 rfl hfail0 (words_best h1 h2 h3) rfl
          (fun _ => List.mem_append.2 (Or.inr h1))
      | p2 =>
        obtain ⟨x, hx, hxp⟩ := hfind
        have hx' := hx
        simp only [lexWords, List.mem_cons, List.not_mem_nil, or_false] at hx'
        subst hx'
        exact key (ps := [skipRule u]) .hundred (lex_sub hx) hxp rfl hfail0 (lit_best hxp) rfl (fun h => by simp [rank] at h)
      | p3 =>
        obtain ⟨x, hx, hxp⟩ := hfind
        have hx' := hx
        simp only [lexWords, List.mem_cons, List.not_mem_nil, or_false] at hx'
        subst hx'
        exact key (ps := [skipRule u]) .thousand (lex_sub hx) hxp rfl hfail0 (lit_best hxp) rfl (fun h => by simp [rank] at h)
      | p6 =>
        obtain ⟨x, hx, hxp⟩ := hfind
        have hx' := hx
        simp only [lexWords, List.mem_cons, List.not_mem_nil, or_false] at hx'
        subst hx'
        exact key (ps := [skipRule u]) .million (lex_sub hx) hxp rfl hfail0 (lit_best hxp) rfl (fun h => by simp [rank] at h)
    · exact .miss (english_miss (Nat.le_of_lt hp) hskip (fun x hx hxp => hfind ⟨x, hx, hxp⟩))

theorem check_units_to19 : enUnits.all (fun w => enTo19.contains w) = true := by decide +kernel

theorem english_p1 {p : Nat} (hp : p ≤ t.length) (h : rxMatch ((rules u (english u) .n99).map (·.pat)) t p = none) :
    rxMatch ((rules u (english u) .p1).map (·.pat)) t p = none := by
  rw [rxMatch_none hp] at h ⊢
  rintro ⟨a, ha, q, hq⟩
  simp only [rules, english, rule, skipRule, List.map_cons, List.map_nil, List.mem_cons, List.not_mem_nil, or_false] at ha
  rcases ha with rfl | rfl
  · exact h ⟨_, by simp [rules, skipRule, rule], q, hq⟩
  · refine h ⟨words u enTo19, by simp [rules, english, rule], ?_⟩
    refine Classical.byContradiction fun hno => ?_
    have : Fails t (words u enUnits) p := words_fails (fun x hx hxp => by
      have hx' := List.contains_iff_mem.1 (List.all_eq_true.1 check_units_to19 x hx)
      obtain ⟨w, h1, h2, h3⟩ := longest_word ⟨x, hx', hxp⟩
      obtain ⟨r, hr⟩ := words_best (t := t) h1 h2 h3 []
      have := (run_nil t (words u enTo19) p []).2 (fun q hq => hno ⟨q, hq⟩)
      rw [hr] at this
      cases this)
    exact this q hq

/-- Any text is read to the end. -/
theorem gm_any (he : ∀ c : Char, (u.fold c).isAlpha = true → u.low c = [u.fold c]) (t : List Char) :
    ∃ m' P, GM u (english u) t 0 ⟨[], []⟩ (· = []) t.length m' P ∧ Wf m'.fs := by
  obtain ⟨m', h1, h2⟩ := gm_all (u := u) (g := english u) (t := t) (fun p hp l hl => english_move he hp l hl)
    (fun p hp h => english_p1 (Nat.le_of_lt hp) h) t.length 0 (m := ⟨[], []⟩) (by omega) (by omega) ⟨List.Pairwise.nil, by simp, by simp⟩
  exact ⟨m', _, h2.mono (by rintro c rfl e he; cases he) (fun _ h => h), h1⟩

end Parce.Num

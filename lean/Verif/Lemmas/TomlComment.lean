import Verif.Lemmas.TomlVal
import Verif.Lemmas.IniBlock
/-!
# Comments in TOML texts
-/
namespace Parce.Toml
open Parce.Json (Uni str)
open Parce.Xml (PC)
variable {u : Uni} {t : List Nat}

/-- What the expression matches has one of the texts. -/
def HasOne (a : Pat Nat) : Prop := ∀ (t : List Nat) (p q : Nat), a.mat t p q → ∃ s ∈ noted, ∃ i post, p ≤ i ∧ i + (str s).length ≤ q ∧ t.drop i = str s ++ post

theorem HasOne.left {a b : Pat Nat} (h : HasOne a) : HasOne (.cat a b) := by
  rintro t p q ⟨r, h1, h2⟩
  obtain ⟨s, hs, i, post, h3, h4, h5⟩ := h t p r h1
  have := (mat_bounds t b _ _ h2).1
  exact ⟨s, hs, i, post, h3, by omega, h5⟩

theorem HasOne.right {a b : Pat Nat} (h : HasOne b) : HasOne (.cat a b) := by
  rintro t p q ⟨r, h1, h2⟩
  obtain ⟨s, hs, i, post, h3, h4, h5⟩ := h t r q h2
  have := (mat_bounds t a _ _ h1).1
  exact ⟨s, hs, i, post, by omega, h4, h5⟩

theorem HasOne.alt {a b : Pat Nat} (h1 : HasOne a) (h2 : HasOne b) : HasOne (.alt a b) := by
  rintro t p q (h | h)
  · exact h1 t p q h
  · exact h2 t p q h

theorem HasOne.grp {a : Pat Nat} (n : Nat) (h : HasOne a) : HasOne (.grp n a) := fun t p q hm => h t p q hm

theorem HasOne.str (s : String) (hs : s ∈ noted) : HasOne (Pat.str (str s)) := by
  intro t p q h
  obtain ⟨h1, post, h2⟩ := str_mat _ h
  exact ⟨s, hs, p, post, Nat.le_refl _, by omega, h2⟩

theorem has_xxx : HasOne (.cat (Pat.str (str "XX")) (.plus (.chr 88))) := by
  rintro t p q ⟨r, h1, r2, h2, h3⟩
  obtain ⟨e1, post, h4⟩ := str_mat _ h1
  obtain ⟨e2, x, h5, h6⟩ := h2
  have e3 := (mat_bounds t _ _ _ h3).1
  have hl : (str "XX").length = 2 := by decide
  obtain rfl : x = 88 := by simpa using h6
  have h7 : (t.drop p)[2]? = some 88 := by rw [List.getElem?_drop, ← h5, e1, hl]
  rw [h4, show str "XX" = [88, 88] by decide] at h7
  have h8 : post.head? = some 88 := by simpa [List.head?_eq_getElem?] using h7
  obtain ⟨post', rfl⟩ : ∃ post', post = 88 :: post' := by
    cases post with
    | nil => cases h8
    | cons y l => exact ⟨l, by rw [Option.some.inj h8]⟩
  refine ⟨"XXX", by decide, p, post', Nat.le_refl _, ?_, ?_⟩
  · rw [show (str "XXX").length = 3 by decide]
    omega
  · rw [h4, show str "XX" = [88, 88] by decide, show str "XXX" = [88, 88, 88] by decide]
    rfl

theorem has_email (word : Nat → Bool) : HasOne (Ini.emailPat word) :=
  .right (.right (.right (.left (HasOne.str "@" (by decide)))))

theorem has_url (word : Nat → Bool) : HasOne (Ini.urlPat word) :=
  .left (.alt (.right (HasOne.str ":/" (by decide))) (.right (HasOne.str "www." (by decide))))

theorem has_alert (word : Nat → Bool) : HasOne (Ini.alertPat word) :=
  .right (.left (.grp 1 (.alt (HasOne.str "ALERT" (by decide)) (.alt (HasOne.str "BUG" (by decide)) (.alt (HasOne.str "FIXME" (by decide))
    (.alt (HasOne.str "TEMP" (by decide)) (.alt (HasOne.str "TODO" (by decide)) has_xxx)))))))

theorem com_misses (hu : u.Ascii) {w post : List Nat} (hw : ComOk w) (i : Nat) (hi : i < w.length) : Misses u t .comment (w.drop i ++ 10 :: post) := by
  rintro p ht ⟨a, ha, q, hq⟩
  have hlen : (w.drop i).length = w.length - i := List.length_drop ..
  have hend : t[p + (w.drop i).length]? = some 10 := by
    rw [← List.getElem?_drop, ht, List.getElem?_append_right (Nat.le_refl _)]
    simp
  have hsp : HasOne a → Ini.Avoids 10 a → False := by
    intro h1 h2
    obtain ⟨s, hs, j, r, h3, h4, h5⟩ := h1 t p q hq
    have hqe : q ≤ p + (w.drop i).length := by
      by_cases h : q ≤ p + (w.drop i).length
      · exact h
      · exact absurd hend (Ini.avoids_mat a h2 _ _ hq _ (by omega) (by omega))
    have h6 : t.drop j = w.drop (i + (j - p)) ++ 10 :: post := by
      rw [show t.drop j = (t.drop p).drop (j - p) by rw [List.drop_drop]; congr 1; omega, ht, List.drop_append_of_le_length (by omega), List.drop_drop]
    rw [h5] at h6
    have h7 : str s <+: w.drop (i + (j - p)) :=
      List.prefix_of_prefix_length_le (l₃ := w.drop (i + (j - p)) ++ 10 :: post) (h6 ▸ List.prefix_append _ _) (List.prefix_append _ _) (by
        simp only [List.length_drop] at *
        omega)
    exact hw.2 s hs (h7.isInfix.trans (List.drop_suffix _ _).isInfix)
  obtain ⟨a1, a2, a3⟩ := Ini.special_avoids (word := u.word) (word_low hu 10 (by simp))
  simp only [pats, rules, rule, List.map_cons, List.map_nil, List.mem_cons, List.not_mem_nil, or_false] at ha
  rcases ha with rfl | rfl | rfl | rfl
  · exact hsp (has_email _) a1
  · exact hsp (has_url _) a2
  · exact hsp (has_alert _) a3
  · obtain ⟨x, hx⟩ : ∃ x, w[i]? = some x := ⟨w[i], List.getElem?_eq_getElem hi⟩
    have hp0 : t[p]? = some x := by
      have : (t.drop p)[0]? = some x := by
        rw [ht, List.getElem?_append_left (by omega), List.getElem?_drop]
        exact hx
      simpa using this
    rcases (Ini.dollar_mat.1 hq).2 with h | h
    · rw [List.getElem?_eq_none h] at hp0
      cases hp0
    · rw [hp0] at h
      exact hw.1 x (List.mem_of_getElem? hx) (Option.some.inj h)

theorem com_dollar (hu : u.Ascii) {post : List Nat} (p : Nat) (ht : t.drop p = 10 :: post) (hp : p ≤ t.length) :
    rxMatch (pats u .comment) t p = some ⟨p, p, ⟨3, []⟩⟩ := by
  have hg : t[p]? = some 10 := drop_get ht
  have hb : Best t Ini.dollar p p := best_test (by simp [hg])
  refine match_rule (g := []) (rs := rules u .comment) (i := 3) (r := rule Ini.dollar .comment (some ⟨1, []⟩)) rfl ?_ hb hp
  refine leads_fail' [] ?_ (by simp)
  rw [hg, leads_ascii hu (by decide)]
  decide +kernel

/-- A match of no text that leaves a context that is still empty. -/
theorem s_pop_fresh {l l0 : TL} {post : List Nat} {is is0 : List V} {fs : List Fr} {n : Nat} {o : Bool} {a : TA} {i : Nat} {r : TRule}
    (h1 : ∀ p, t.drop p = post → p ≤ t.length → rxMatch (pats u l) t p = some ⟨p, p, ⟨i, []⟩⟩) (h2 : (rules u l)[i]? = some r)
    (h3 : r.out [] [] = (a, some ⟨1, []⟩)) :
    Go u t ⟨post, (l, is) :: (l0, is0) :: fs, n + 1, o⟩ ⟨post, (l0, is0) :: fs, n, false⟩ := by
  intro p ht hpl
  refine ⟨p, ht, hpl, ?_⟩
  have := parse_match (noAct := TA.none) (dl := dflt l) (h1 p ht hpl) h2
  have hs : slice t p p = [] := by simp [slice]
  rw [hs] at this
  simp only [groupTexts, List.map_nil, h3] at this
  exact i_pop_fresh (lang := lang u) (m := meths) (p := p) (l := l) (is := is.map vit) (f := (l0, is0.map vit)) (fs := conv fs) (o := o) this rfl rfl rfl

/-- A comment, up to the end of its line. -/
theorem com_go (hu : u.Ascii) {l0 : TL} {w post : List Nat} (hw : ComOk w) (is : List V) (fs : List Fr) :
    Go u t ⟨w ++ 10 :: post, (.comment, []) :: (l0, is) :: fs, 1, true⟩ ⟨10 :: post, (l0, is ++ comView (some w)) :: fs, 0, false⟩ := by
  by_cases he : w = []
  · subst he
    have := s_pop_fresh (u := u) (t := t) (is := []) (l0 := l0) (is0 := is) (fs := fs) (n := 0) (o := true) (a := .comment) (post := 10 :: post)
      (r := rule Ini.dollar .comment (some ⟨1, []⟩)) (com_dollar hu) rfl rfl
    simpa [comView] using this
  · have g1 := s_text (t := t) (u := u) (l := .comment) (is := []) (fs := (l0, is) :: fs) (n := 1) (o := true) (post := 10 :: post) (f := fun _ => .comment) rfl rfl (by simp) he
      (fun i hi => com_misses hu hw i hi) (.inr (fun p ht => ⟨_, com_dollar hu p ht (by
        have := drop_get ht
        obtain ⟨h, _⟩ := List.getElem?_eq_some_iff.1 this
        omega)⟩))
    have g2 := s_pop (u := u) (t := t) (is := [.tok w .comment]) (l0 := l0) (is0 := is) (fs := fs) (o := true) (a := .comment) (post := 10 :: post)
      (r := rule Ini.dollar .comment (some ⟨1, []⟩)) (com_dollar hu) rfl rfl
    have := g1.trans g2
    simpa [comView, he, mk] using this

theorem hits_ahash (hu : u.Ascii) (post : List Nat) : Hits u t .array [35] post .comment (some ⟨0, [.comment]⟩) [] :=
  hits hu 2 [] (c := 35) (r := rule (chr "#") .comment (some ⟨0, [.comment]⟩)) rfl rfl (by decide) (by decide +kernel) (by simp) (PC.of (Xml.pbest_chr "#" _))

theorem hits_hash (hu : u.Ascii) (post : List Nat) : Hits u t .root [35] post .comment (some ⟨0, [.comment]⟩) [] :=
  hits hu 0 [] (c := 35) (r := rule (chr "#") .comment (some ⟨0, [.comment]⟩)) rfl rfl (by decide) (by decide +kernel) (by simp) (PC.of (Xml.pbest_chr "#" _))

theorem hits_vhash (hu : u.Ascii) (post : List Nat) : Hits u t .value [35] post .comment (some ⟨1, [.comment]⟩) [] :=
  hits hu 0 [] (c := 35) (r := rule (chr "#") .comment (some ⟨1, [.comment]⟩)) rfl rfl (by decide) (by decide +kernel) (by simp) (PC.of (Xml.pbest_chr "#" _))

/-- A comment in the root. -/
theorem hash_go (hu : u.Ascii) {w post : List Nat} (hw : ComOk w) (is : List V) (fs : List Fr) (o : Bool) :
    Go u t ⟨35 :: (w ++ 10 :: post), (.root, is) :: fs, 0, o⟩ ⟨10 :: post, (.root, is ++ (hashView (some w) ++ comView (some w))) :: fs, 0, false⟩ := by
  have g1 := s_enter (is := is) (fs := fs) (n := 0) (o := o) (vs := [.tok [35] .comment]) (hits_hash (t := t) hu (w ++ 10 :: post)) rfl (by simp)
  have := g1.trans (com_go hu hw (is ++ [.tok [35] .comment]) fs)
  simpa [hashView] using this

/-- A comment after a value. -/
theorem vhash_go (hu : u.Ascii) {w post : List Nat} (hw : ComOk w) (is is0 : List V) (fs : List Fr) (o : Bool) :
    Go u t ⟨35 :: (w ++ 10 :: post), (.value, is) :: (.root, is0) :: fs, 0, o⟩
      ⟨10 :: post, (.root, is0 ++ mk .value (is ++ hashView (some w)) :: comView (some w)) :: fs, 0, false⟩ := by
  have g1 := s_switch (is := is) (l0 := .root) (is0 := is0) (fs := fs) (n := 0) (o := o) (vs := [.tok [35] .comment]) (hits_vhash (t := t) hu (w ++ 10 :: post)) rfl (by simp)
  have := g1.trans (com_go hu hw _ fs)
  simpa [hashView, mk] using this

/-- A comment in an array, with the newline. -/
theorem ahash_go (hu : u.Ascii) {w post : List Nat} (hw : ComOk w) (is : List V) (fs : List Fr) (n : Nat) (o : Bool) :
    ∃ o', Go u t ⟨35 :: (w ++ 10 :: post), (.array, is) :: fs, n, o⟩ ⟨post, (.array, is ++ (hashView (some w) ++ comView (some w))) :: fs, 0, o'⟩ := by
  have g1 := s_enter (is := is) (fs := fs) (n := n) (o := o) (vs := [.tok [35] .comment]) (hits_ahash (t := t) hu (w ++ 10 :: post)) rfl (by simp)
  have g2 := g1.trans (com_go hu hw (is ++ [.tok [35] .comment]) fs)
  obtain ⟨o', g3⟩ := go_gap (t := t) hu (.inr (.inl rfl)) (w := [10]) (by simp) post (is ++ [.tok [35] .comment] ++ comView (some w)) fs 0 false
  exact ⟨o', by simpa [hashView] using g2.trans g3⟩

theorem arr_gap (hu : u.Ascii) : ∀ (g : Gap), g.ok → ∀ (post : List Nat) (is : List V) (fs : List Fr) (n : Nat) (o : Bool), ∃ n' o',
    Go u t ⟨g.text ++ post, (.array, is) :: fs, n, o⟩ ⟨post, (.array, is ++ g.view) :: fs, n', o'⟩
  | .ws w, h, post, is, fs, n, o => by
    obtain ⟨o', g1⟩ := go_gap (t := t) hu (.inr (.inl rfl)) (ws_gap h) post is fs n o
    exact ⟨n, o', by simpa [Gap.text, Gap.view] using g1⟩
  | .com w c g, h, post, is, fs, n, o => by
    obtain ⟨h1, h2, h3⟩ := h
    obtain ⟨o1, g1⟩ := go_gap (t := t) hu (.inr (.inl rfl)) (ws_gap h1) (35 :: (c ++ 10 :: (g.text ++ post))) is fs n o
    obtain ⟨o2, g2⟩ := ahash_go (t := t) (post := g.text ++ post) hu h2 is fs n o1
    obtain ⟨n3, o3, g3⟩ := arr_gap hu g h3 post (is ++ (hashView (some c) ++ comView (some c))) fs 0 o2
    exact ⟨n3, o3, by simpa [Gap.text, Gap.view] using (g1.trans g2).trans g3⟩

/-- A value in an array, and what is after it. -/
theorem elem_gap (hu : u.Ascii) {v : Val}
    (hv : ∀ {r post : List Nat}, Ws r → Fin post → Free u t (v.text ++ (r ++ post)) → ∀ (is : List V) (fs : List Fr) (n : Nat) (o : Bool), ∃ r', r' <:+ r ∧
      Go u t ⟨v.text ++ (r ++ post), (.array, is) :: fs, n, o⟩ ⟨r' ++ post, (.array, is ++ v.view) :: fs, 0, true⟩)
    (g : Gap) (hg : g.ok) {post : List Nat} (hp : Fin post) (hf : Free u t (v.text ++ (g.text ++ post))) (is : List V) (fs : List Fr) (n : Nat) (o : Bool) : ∃ n' o',
    Go u t ⟨v.text ++ (g.text ++ post), (.array, is) :: fs, n, o⟩ ⟨post, (.array, is ++ (v.view ++ g.view)) :: fs, n', o'⟩ := by
  cases g with
  | ws w =>
    obtain ⟨r', hr', g1⟩ := hv (r := w) (post := post) hg hp hf is fs n o
    obtain ⟨o2, g2⟩ := go_gap (t := t) hu (.inr (.inl rfl)) (ws_gap (w := r') (fun c hc => hg c (hr'.subset hc))) post (is ++ v.view) fs 0 true
    exact ⟨0, o2, by simpa [Gap.text, Gap.view] using g1.trans g2⟩
  | com w c g =>
    obtain ⟨h1, h2, h3⟩ := hg
    have e : (Gap.com w c g).text ++ post = w ++ 35 :: (c ++ 10 :: (g.text ++ post)) := by simp [Gap.text]
    rw [e] at hf ⊢
    obtain ⟨r', hr', g1⟩ := hv (r := w) (post := 35 :: (c ++ 10 :: (g.text ++ post))) h1 ⟨35, _, rfl, by simp⟩ hf is fs n o
    obtain ⟨o2, g2⟩ := go_gap (t := t) hu (.inr (.inl rfl)) (ws_gap (w := r') (fun c hc => h1 c (hr'.subset hc))) (35 :: (c ++ 10 :: (g.text ++ post))) (is ++ v.view) fs 0 true
    obtain ⟨o3, g3⟩ := ahash_go (t := t) (post := g.text ++ post) hu h2 (is ++ v.view) fs 0 o2
    obtain ⟨n4, o4, g4⟩ := arr_gap (t := t) hu g h3 post (is ++ v.view ++ (hashView (some c) ++ comView (some c))) fs 0 o3
    exact ⟨n4, o4, by simpa [Gap.view] using ((g1.trans g2).trans g3).trans g4⟩

theorem free_gap (hu : u.Ascii) : ∀ {g : Gap}, g.ok → ∀ {post : List Nat}, Free u t (g.text ++ post) → Free u t post
  | .ws w, h, post, hf => free_ws hu hf h
  | .com w c g, h, post, hf => by
    refine free_gap hu (g := g) h.2.2 (Free.next (x := w ++ 35 :: c) (c := 10) ?_ (word_low hu 10 (by simp)))
    simpa [Gap.text] using hf

end Parce.Toml

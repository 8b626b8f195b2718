import Verif.Lemmas.XmlComment
/-!
# Attributes, processing instructions and character data in XML texts
-/
namespace Parce.Xml
open Parce.Json (Uni str)
open Parce.CssL (PBest PFail)
variable {u : Uni} {ci : Bool} {is : List V} {fs : List Fr} {n : Nat} {o : Bool}

theorem s1 : str "\"" = [34] := by decide
theorem s2 : str "'" = [39] := by decide
theorem s3 : str "=" = [61] := by decide
theorem s4 : str ">" = [62] := by decide
theorem s5 : str "/>" = [47, 62] := by decide
theorem s6 : str "?>" = [63, 62] := by decide
theorem s7 : str "&" = [38] := by decide
theorem s8 : str ";" = [59] := by decide

/-! ### Strings -/

/-- The lexicon of a string. -/
def strL (d : Bool) : XL := if d then .dqstring else .sqstring
def quoteOf (d : Bool) : Nat := if d then 34 else 39
def strA (d : Bool) : XA := if d then .dq else .sq
def endA (d : Bool) : XA := if d then .dqEnd else .sqEnd
def startA (d : Bool) : XA := if d then .dqStart else .sqStart

theorem hits_sref (d : Bool) {w : List Nat} (hw : RefName u w) (post : List Nat) :
    Hits u (strL d) (str "&" ++ w ++ str ";") post .stringEscape none [] :=
  hits_first (r := rule (refPat u) .stringEscape) (by simp [s7]) (by cases d <;> rfl) rfl (PC.of (pbest_ref hw))

theorem hits_quote (hu : u.Ascii) (d : Bool) (post : List Nat) : Hits u (strL d) [quoteOf d] post (endA d) (some ⟨1, []⟩) [] := by
  cases d
  · exact hits hu (c := 39) (w := []) 1 [] (r := rule (chr "'") .sqEnd (some ⟨1, []⟩)) rfl rfl (by decide) (by decide) (by simp)
      (PC.of (pbest_chr "'" post))
  · exact hits hu (c := 34) (w := []) 1 [] (r := rule (chr "\"") .dqEnd (some ⟨1, []⟩)) rfl rfl (by decide) (by decide) (by simp)
      (PC.of (pbest_chr "\"" post))

theorem misses_str (d : Bool) {c : Nat} {rest : List Nat} (h1 : c ≠ 38) (h2 : c ≠ quoteOf d) : Misses u (strL d) (c :: rest) := by
  refine misses_of (fun r hr => ?_)
  have e1 : (c == 38) = false := by simpa using h1
  have e2 : (c == quoteOf d) = false := by simpa using h2
  cases d <;> simp only [strL, quoteOf, rules, rule, if_true, if_false, Bool.false_eq_true, List.mem_cons, List.not_mem_nil, or_false] at hr e2
  · rcases hr with rfl | rfl
    · simp [Pat.can, refPat, chr, s7, Pat.str, Pat.chr, Pat.nul, Pat.fst, e1]
    · simp [Pat.can, chr, s2, Pat.str, Pat.chr, Pat.nul, Pat.fst, e2]
  · rcases hr with rfl | rfl
    · simp [Pat.can, refPat, chr, s7, Pat.str, Pat.chr, Pat.nul, Pat.fst, e1]
    · simp [Pat.can, chr, s1, Pat.str, Pat.chr, Pat.nul, Pat.fst, e2]

theorem go_parts (hu : u.Ascii) (d : Bool) (post : List Nat) : ∀ (l : List Part), partsOk u (quoteOf d) l → ∀ (is : List V) (n : Nat) (o : Bool),
    ∃ n' o', Go u ⟨partsText l ++ ([quoteOf d] ++ post), (strL d, is) :: fs, n, o⟩
      ⟨[quoteOf d] ++ post, (strL d, is ++ l.map (Part.view d)) :: fs, n', o'⟩ := by
  intro l
  induction l with
  | nil => intro _ is n o; exact ⟨n, o, by simpa [partsText] using Go.refl _⟩
  | cons p l ih =>
    intro h is n o
    cases p with
    | chars w =>
      obtain ⟨h1, h2, h3, h4⟩ := h
      have hb : Begins u (strL d) (partsText l ++ ([quoteOf d] ++ post)) := by
        cases l with
        | nil => exact (hits_quote hu d post).begins
        | cons p l =>
          cases p with
          | chars w' => exact absurd rfl (h3 w' l)
          | ref w' =>
            have := (hits_sref (u := u) d h4.1 (partsText l ++ ([quoteOf d] ++ post))).begins
            simpa [partsText, Part.text] using this
      obtain ⟨n', o', k⟩ := ih h4 (is ++ [.tok w (strA d)]) 0 true
      have g := s_text (u := u) (l := strL d) (f := fun _ => strA d) (w := w) (is := is) (fs := fs) (n := n) (o := o) (by cases d <;> rfl)
        (by cases d <;> rfl) (by cases d <;> decide) h1 (by
          intro i hi
          rw [List.drop_eq_getElem_cons hi]
          have := h2 _ (List.getElem_mem hi)
          exact misses_str d this.1 this.2) (Or.inr hb)
      refine ⟨n', o', ?_⟩
      have := g.trans k
      simpa [partsText, Part.text, Part.view, strA] using this
    | ref w =>
      obtain ⟨n', o', k⟩ := ih h.2 (is ++ [.tok (str "&" ++ w ++ str ";") .stringEscape]) 0 true
      have g := s_toks (is := is) (fs := fs) (n := n) (o := o) (hits_sref (u := u) d h.1 (partsText l ++ ([quoteOf d] ++ post)))
        (vs := [.tok (str "&" ++ w ++ str ";") .stringEscape]) rfl (by simp)
      refine ⟨n', o', ?_⟩
      have := g.trans k
      simpa [partsText, Part.text, Part.view] using this

theorem hits_start (hu : u.Ascii) {l : XL} (hl : l = .attrs ∨ l = .pi) (d : Bool) (post : List Nat) :
    Hits u l [quoteOf d] post (startA d) (some ⟨0, [strL d]⟩) [] := by
  rcases hl with rfl | rfl
  · cases d
    · exact hits hu (c := 39) (w := []) 3 [] (r := rule (chr "'") .sqStart (some ⟨0, [.sqstring]⟩)) rfl rfl (by decide) (by decide +kernel) (by simp)
        (PC.of (pbest_chr "'" post))
    · exact hits hu (c := 34) (w := []) 2 [] (r := rule (chr "\"") .dqStart (some ⟨0, [.dqstring]⟩)) rfl rfl (by decide) (by decide +kernel) (by simp)
        (PC.of (pbest_chr "\"" post))
  · cases d
    · exact hits hu (c := 39) (w := []) 2 [] (r := rule (chr "'") .sqStart (some ⟨0, [.sqstring]⟩)) rfl rfl (by decide) (by decide +kernel) (by simp)
        (PC.of (pbest_chr "'" post))
    · exact hits hu (c := 34) (w := []) 1 [] (r := rule (chr "\"") .dqStart (some ⟨0, [.dqstring]⟩)) rfl rfl (by decide) (by decide +kernel) (by simp)
        (PC.of (pbest_chr "\"" post))

/-- A string. -/
theorem go_value (hu : u.Ascii) {l : XL} (hl : l = .attrs ∨ l = .pi) (a : Attr) (h : partsOk u a.quote a.value) (post : List Nat) :
    Go u ⟨[a.quote] ++ partsText a.value ++ [a.quote] ++ post, (l, is) :: fs, n, o⟩ ⟨post, (l, is ++ a.valueView) :: fs, 0, true⟩ := by
  have hq : a.quote = quoteOf a.double := rfl
  rw [hq] at h ⊢
  have g1 := s_enter (vs := [.tok [quoteOf a.double] (startA a.double)]) (is := is) (fs := fs) (n := n) (o := o)
    (hits_start hu hl a.double (partsText a.value ++ ([quoteOf a.double] ++ post))) (by cases a.double <;> rfl) (by simp)
  obtain ⟨n', o', g2⟩ := go_parts hu a.double post a.value h (fs := (l, is ++ [.tok [quoteOf a.double] (startA a.double)]) :: fs) [] 1 true
  have g3 := s_leave (vs := [.tok [quoteOf a.double] (endA a.double)]) (fs := fs) (n := n') (o := o') (l0 := l)
    (is0 := is ++ [.tok [quoteOf a.double] (startA a.double)]) (is := [] ++ a.value.map (Part.view a.double))
    (hits_quote hu a.double post) (by cases a.double <;> rfl) (by simp)
  have := (g1.trans g2).trans g3
  have hv : is ++ [V.tok [quoteOf a.double] (startA a.double)] ++
      [mk (strL a.double) ([] ++ a.value.map (Part.view a.double) ++ [V.tok [quoteOf a.double] (endA a.double)])] = is ++ a.valueView := by
    unfold Attr.valueView
    cases a.double <;> simp [mk, strL, quoteOf, startA, endA, s1, s2]
  rw [hv] at this
  simpa using this

/-! ### Attributes in tags -/

theorem head_ws {w rest : List Nat} (hw : Ws w) {P : Nat → Prop} (h1 : ∀ c, IsWs c → P c) (h2 : ∀ c, rest.head? = some c → P c) :
    ∀ c, (w ++ rest).head? = some c → P c := by
  intro c hc
  cases w with
  | nil => exact h2 c hc
  | cons x w => obtain rfl : x = c := Option.some.inj hc; exact h1 x (hw x (by simp))

theorem go_ws (hu : u.Ascii) {w post : List Nat} (hw : Ws w) (hp : ∀ c, post.head? = some c → u.space c = false) :
    ∃ o', Go u ⟨w ++ post, (.attrs, is) :: fs, n, o⟩ ⟨post, (.attrs, is) :: fs, n, o'⟩ := by
  cases w with
  | nil => exact ⟨o, .refl _⟩
  | cons c w =>
    refine ⟨true, s_skip (w := c :: w) (g := []) ?_⟩
    have hc := hw c (by simp)
    refine hits hu 6 [] (r := rule (.plus (.set u.space)) .skip) rfl rfl (isWs_lt hc) ?_ (by simp) (PC.of ?_)
    · rcases hc with rfl | rfl | rfl | rfl <;> decide +kernel
    · exact PBest.cat (v := [c]) (CssL.pbest_set (isWs_space hu hc)) (CssL.pbest_star (fun x hx => isWs_space hu (hw x (by simp [hx]))) hp)

theorem go_attr (hu : u.Ascii) {a : Attr} (h : a.ok u) (post : List Nat) :
    Go u ⟨a.text ++ post, (.attrs, is) :: fs, n, o⟩ ⟨post, (.attrs, is ++ a.view) :: fs, 0, true⟩ := by
  obtain ⟨_, h1, h2, h3, h4, h5⟩ := h
  have hq : ∀ rest, ∀ c, ([a.quote] ++ rest).head? = some c → u.space c = false := by
    intro rest c hc
    obtain rfl : a.quote = c := Option.some.inj hc
    unfold Attr.quote
    split
    · exact not_space hu (c := 34) (rest := []) (by decide) (by decide) _ rfl
    · exact not_space hu (c := 39) (rest := []) (by decide) (by decide) _ rfl
  let r3 := [a.quote] ++ partsText a.value ++ [a.quote] ++ post
  let r2 := str "=" ++ (a.right ++ r3)
  let r1 := a.name ++ (a.left ++ r2)
  obtain ⟨o1, g1⟩ := go_ws (is := is) (fs := fs) (n := n) (o := o) (post := r1) hu h1 (name_space h2)
  have g2 : Go u ⟨r1, (.attrs, is) :: fs, n, o1⟩ ⟨a.left ++ r2, (.attrs, is ++ [.tok a.name .attribute]) :: fs, 0, true⟩ :=
    s_toks (hits_first (r := rule (namePat false) .attribute) (name_ne h2) rfl rfl (PC.of (pbest_name h2
      (head_ws h3 (fun c hc => Or.inl hc) (fun c hc => by obtain rfl : 61 = c := Option.some.inj hc; right; omega))))) rfl (by simp)
  obtain ⟨o3, g3⟩ := go_ws (is := is ++ [.tok a.name .attribute]) (fs := fs) (n := 0) (o := true) (post := r2) hu h3
    (by show ∀ c, (61 :: _).head? = some c → _; exact not_space hu (by decide) (by decide))
  have g4 : Go u ⟨r2, (.attrs, is ++ [.tok a.name .attribute]) :: fs, 0, o3⟩
      ⟨a.right ++ r3, (.attrs, is ++ [.tok a.name .attribute] ++ [.tok (str "=") .operator]) :: fs, 0, true⟩ :=
    s_toks (hits hu (c := 61) (w := []) 1 [] (r := rule (chr "=") .operator) rfl rfl (by decide) (by decide +kernel) (by simp) (PC.of (pbest_chr "=" _)))
      rfl (by simp)
  obtain ⟨o5, g5⟩ := go_ws (is := is ++ [.tok a.name .attribute] ++ [.tok (str "=") .operator]) (fs := fs) (n := 0) (o := true) (post := r3) hu h4
    (by show ∀ c, ([a.quote] ++ partsText a.value ++ [a.quote] ++ post).head? = some c → _
        rw [List.append_assoc, List.append_assoc]; exact hq _)
  have g6 := go_value (is := is ++ [.tok a.name .attribute] ++ [.tok (str "=") .operator]) (fs := fs) (n := 0) (o := o5) hu (Or.inl rfl) a h5 post
  have := ((((g1.trans g2).trans g3).trans g4).trans g5).trans g6
  simpa [r1, r2, r3, Attr.text, Attr.view] using this

theorem go_attrs (hu : u.Ascii) (post : List Nat) : ∀ (as : List Attr), (∀ a ∈ as, a.ok u) → ∀ (is : List V) (n : Nat) (o : Bool),
    ∃ n' o', Go u ⟨attrsText as ++ post, (.attrs, is) :: fs, n, o⟩ ⟨post, (.attrs, is ++ as.flatMap Attr.view) :: fs, n', o'⟩ := by
  intro as
  induction as with
  | nil => intro _ is n o; exact ⟨n, o, by simpa [attrsText] using Go.refl _⟩
  | cons a as ih =>
    intro h is n o
    obtain ⟨n', o', g⟩ := ih (fun b hb => h b (by simp [hb])) (is ++ a.view) 0 true
    refine ⟨n', o', ?_⟩
    have := (go_attr (is := is) (fs := fs) (n := n) (o := o) hu (h a (by simp)) (attrsText as ++ post)).trans g
    simpa [attrsText] using this

theorem attrs_head {as : List Attr} (hne : as ≠ []) (h : ∀ a ∈ as, a.ok u) (post : List Nat) :
    ∃ ws n' rest, attrsText as ++ post = ws ++ (n' ++ rest) ∧ ws ≠ [] ∧ Ws ws ∧ Name u n' := by
  cases as with
  | nil => exact absurd rfl hne
  | cons a as =>
    obtain ⟨h0, h1, h2, _⟩ := h a (by simp)
    exact ⟨a.before, a.name, a.left ++ str "=" ++ a.right ++ [a.quote] ++ partsText a.value ++ [a.quote] ++ attrsText as ++ post,
      by simp only [attrsText, List.flatMap_cons, Attr.text, List.append_assoc], h0, h1, h2⟩

theorem exp_open (n ws : List Nat) (slash : Bool) (hn : n ≠ []) :
    expV .tagGroups (60 :: (n ++ ws ++ tagStop slash)) [(3, 1 + n.length + ws.length, 1 + n.length + ws.length + (tagStop slash).length), (2, 1, 1 + n.length), (1, 0, 1)]
      = [.tok (str "<") .delimiter, .tok n .tagName, .tok (tagStop slash) .delimiter] := by
  have e1 : slice (60 :: (n ++ ws ++ tagStop slash)) 1 (1 + n.length) = n := by
    have := slice_mid [60] n (ws ++ tagStop slash) (s := 1) (e := 1 + n.length) rfl rfl
    simpa using this
  have e2 : slice (60 :: (n ++ ws ++ tagStop slash)) (1 + n.length + ws.length) (1 + n.length + ws.length + (tagStop slash).length) = tagStop slash := by
    have := slice_mid (60 :: (n ++ ws)) (tagStop slash) [] (s := 1 + n.length + ws.length) (e := 1 + n.length + ws.length + (tagStop slash).length)
      (by simp; omega) (by simp; omega)
    simpa using this
  have e3 : tagStop slash ≠ [] := by cases slash <;> decide
  have e4 : slice (60 :: (n ++ ws ++ tagStop slash)) 0 1 = [60] := rfl
  simp [-List.append_assoc, expV, groups, groupOf, e1, e2, e4, hn, e3]
  decide

theorem exp_open_attrs (n : List Nat) (hn : n ≠ []) :
    expV .tagGroups (60 :: n) [(2, 1, 1 + n.length), (1, 0, 1)] = [.tok (str "<") .delimiter, .tok n .tagName] := by
  have e1 : slice (60 :: n) 1 (1 + n.length) = n := by
    have := slice_mid [60] n [] (s := 1) (e := 1 + n.length) rfl rfl
    simpa using this
  have e4 : slice (60 :: n) 0 1 = [60] := rfl
  simp [expV, groups, groupOf, e1, e4, hn]
  decide

theorem exp_close (n ws : List Nat) (hn : n ≠ []) :
    expV .tagGroups (str "</" ++ n ++ ws ++ str ">") [(3, 2 + n.length + ws.length, 2 + n.length + ws.length + 1), (2, 2, 2 + n.length), (1, 0, 2)]
      = [.tok (str "</") .delimiter, .tok n .tagName, .tok (str ">") .delimiter] := by
  have e1 : slice (str "</" ++ n ++ ws ++ str ">") 2 (2 + n.length) = n := by
    have := slice_mid (str "</") n (ws ++ str ">") (s := 2) (e := 2 + n.length) rfl rfl
    simpa using this
  have e2 : slice (str "</" ++ n ++ ws ++ str ">") (2 + n.length + ws.length) (2 + n.length + ws.length + 1) = str ">" := by
    have := slice_mid (str "</" ++ n ++ ws) (str ">") [] (s := 2 + n.length + ws.length) (e := 2 + n.length + ws.length + 1)
      (by simp [str]; omega) (by simp [str]; omega)
    simpa using this
  have e4 : slice (str "</" ++ n ++ ws ++ str ">") 0 2 = str "</" := by
    have := slice_mid [] (str "</") (n ++ ws ++ str ">") (s := 0) (e := 2) rfl rfl
    simpa using this
  have e5 : str ">" ≠ [] := by decide
  have e6 : str "</" ≠ [] := by decide
  simp [-List.append_assoc, expV, groups, groupOf, e1, e2, e4, hn, e5, e6]

/-- A start tag. -/
theorem go_open (hu : u.Ascii) {l : XL} (hl : Cont l ci) {m ws : List Nat} {as : List Attr} (hm : Name u m) (ha : ∀ a ∈ as, a.ok u) (hw : Ws ws) (post : List Nat) :
    Go u ⟨str "<" ++ m ++ attrsText as ++ ws ++ str ">" ++ post, (l, is) :: fs, n, o⟩
      ⟨post, (.tag, []) :: (l, is ++ ([.tok (str "<") .delimiter, .tok m .tagName] ++ tagEnd as ">")) :: fs, 1, true⟩ := by
  by_cases has : as = []
  · subst has
    have := s_enter (is := is) (fs := fs) (n := n) (o := o) (post := post) (by simpa using hits_open hu hl false hm hw) (exp_open m ws false (name_ne hm)) (by simp)
    simpa [attrsText, tagStop, tagEnd, str] using this
  · obtain ⟨w1, n1, r1, h1, h2, h3, h4⟩ := attrs_head has ha (ws ++ (str ">" ++ post))
    have g1 := s_enter (is := is) (fs := fs) (n := n) (o := o) (hits_open_attrs hu hl (post := r1) hm h2 h3 h4) (exp_open_attrs m (name_ne hm)) (by simp)
    rw [← h1] at g1
    obtain ⟨n2, o2, g2⟩ := go_attrs (fs := (l, is ++ [.tok (str "<") .delimiter, .tok m .tagName]) :: fs) hu (ws ++ (str ">" ++ post)) as ha [] 1 true
    obtain ⟨o3, g3⟩ := go_ws (is := [] ++ as.flatMap Attr.view) (fs := (l, is ++ [.tok (str "<") .delimiter, .tok m .tagName]) :: fs) (n := n2) (o := o2)
      (post := str ">" ++ post) hu hw (by show ∀ c, (62 :: post).head? = some c → _; exact not_space hu (by decide) (by decide))
    have g4 := s_switch (vs := [.tok (str ">") .delimiter]) (is := [] ++ as.flatMap Attr.view) (fs := fs) (l0 := l) (is0 := is ++ [.tok (str "<") .delimiter, .tok m .tagName]) (n := n2) (o := o3)
      (hits hu (l := .attrs) (c := 62) (w := []) (post := post) 5 [] (r := rule (chr ">") .delimiter (some ⟨1, [.tag]⟩)) rfl rfl (by decide) (by decide +kernel) (by simp)
        (PC.of (pbest_chr ">" post))) rfl (by simp)
    have := ((g1.trans g2).trans g3).trans g4
    simpa [tagEnd, has, mk, str] using this

/-- The tag of an empty element. -/
theorem go_empty (hu : u.Ascii) {l : XL} (hl : Cont l ci) {m ws : List Nat} {as : List Attr} (hm : Name u m) (ha : ∀ a ∈ as, a.ok u) (hw : Ws ws) (post : List Nat) :
    Go u ⟨str "<" ++ m ++ attrsText as ++ ws ++ str "/>" ++ post, (l, is) :: fs, n, o⟩
      ⟨post, (l, is ++ ([.tok (str "<") .delimiter, .tok m .tagName] ++ tagEnd as "/>")) :: fs, 0, true⟩ := by
  by_cases has : as = []
  · subst has
    have := s_toks (is := is) (fs := fs) (n := n) (o := o) (post := post) (by simpa using hits_open hu hl true hm hw) (exp_open m ws true (name_ne hm)) (by simp)
    simpa [attrsText, tagStop, tagEnd, str] using this
  · obtain ⟨w1, n1, r1, h1, h2, h3, h4⟩ := attrs_head has ha (ws ++ (str "/>" ++ post))
    have g1 := s_enter (is := is) (fs := fs) (n := n) (o := o) (hits_open_attrs hu hl (post := r1) hm h2 h3 h4) (exp_open_attrs m (name_ne hm)) (by simp)
    rw [← h1] at g1
    obtain ⟨n2, o2, g2⟩ := go_attrs (fs := (l, is ++ [.tok (str "<") .delimiter, .tok m .tagName]) :: fs) hu (ws ++ (str "/>" ++ post)) as ha [] 1 true
    obtain ⟨o3, g3⟩ := go_ws (is := [] ++ as.flatMap Attr.view) (fs := (l, is ++ [.tok (str "<") .delimiter, .tok m .tagName]) :: fs) (n := n2) (o := o2)
      (post := str "/>" ++ post) hu hw (by show ∀ c, (47 :: 62 :: post).head? = some c → _; exact not_space hu (by decide) (by decide))
    have hp : PBest (.cat (chr "/") (.cat (spaces u) (chr ">"))) [47, 62] post :=
      PBest.cat (v := [47]) (pbest_chr "/" _) (PBest.cat (v := []) (w := [62]) (pbest_spaces hu (by intro c hc; cases hc)
        (not_space hu (by decide) (by decide))) (pbest_chr ">" post))
    have g4 := s_leave (vs := [.tok (str "/>") .delimiter]) (is := [] ++ as.flatMap Attr.view) (fs := fs) (l0 := l) (is0 := is ++ [.tok (str "<") .delimiter, .tok m .tagName]) (n := n2) (o := o3)
      (hits hu (l := .attrs) (c := 47) (w := [62]) (post := post) 4 [] (r := rule (.cat (chr "/") (.cat (spaces u) (chr ">"))) .delimiter (some ⟨1, []⟩)) rfl rfl (by decide) (by decide +kernel) (by simp)
        (PC.of hp)) rfl (by simp)
    have := ((g1.trans g2).trans g3).trans g4
    simpa [tagEnd, has, mk, str] using this

/-! ### Processing instructions -/

theorem pbest_look {a : Pat Nat} {v post : List Nat} (h : PBest a v post) : PBest (.look false a) [] (v ++ post) := by
  intro t p ht c
  obtain ⟨r, hr⟩ := h t p (by simpa using ht) c
  exact ⟨[], by simp [Pat.run, hr]⟩

theorem hits_piAttr (hu : u.Ascii) {a : Attr} (h : a.ok u) (post : List Nat) :
    Hits u .pi (a.name ++ (a.left ++ str "=")) (a.right ++ ([a.quote] ++ post)) .attrGroups none
      [(2, a.name.length + a.left.length, a.name.length + a.left.length + 1), (1, 0, a.name.length)] := by
  obtain ⟨_, _, h2, h3, h4, _⟩ := h
  refine hits_first (r := rule (piAttrPat u) .attrGroups) (by simp [name_ne h2]) rfl rfl ?_
  have hq : ∀ x, x = a.quote → (x == 34 || x == 39) = true := by
    rintro x rfl
    unfold Attr.quote; split <;> rfl
  have k1 : PBest (.cat (spacesLazy u) (.set fun c => c == 34 || c == 39)) (a.right ++ [a.quote]) post := by
    refine (pc_lazy (PC.of (CssL.pbest_set (hq _ rfl))) a.right (fun c hc => isWs_space hu (h4 c hc)) ?_).best
    intro i hi
    rw [List.drop_eq_getElem_cons hi]
    refine CssL.pfail_set ?_
    intro d hd
    obtain rfl : a.right[i] = d := Option.some.inj hd
    have := h4 _ (List.getElem_mem hi)
    unfold IsWs at this
    simp only [Bool.or_eq_false_iff, beq_eq_false_iff_ne, ne_eq]
    omega
  have k2 := pbest_look k1
  have k3 : PC (.cat (.grp 2 (chr "=")) (.look false (.cat (spacesLazy u) (.set fun c => c == 34 || c == 39)))) [61] (a.right ++ [a.quote] ++ post) [(2, 0, 1)] := by
    refine (PC.cat (v := [61]) (w := []) (PC.grp 2 (pbest_chr "=" _)) (PC.of k2)).eq rfl rfl
  have k4 := pc_lazy (f := u.space) k3 a.left (fun c hc => isWs_space hu (h3 c hc)) (by
    intro i hi
    rw [List.drop_eq_getElem_cons hi]
    refine CssL.pfail_cat (pfail_grp (CssL.pfail_chr (w := []) ?_))
    intro he
    have he' : a.left[i] = 61 := Option.some.inj he
    have := h3 _ (List.getElem_mem hi)
    unfold IsWs at this
    omega)
  have k5 := PC.cat (v := a.name) (PC.grp 1 (pbest_name (ci := false) (post := a.left ++ [61] ++ (a.right ++ [a.quote] ++ post)) h2 (by
    rw [List.append_assoc]
    exact head_ws h3 (fun c hc => Or.inl hc) (fun c hc => by obtain rfl : 61 = c := Option.some.inj hc; right; omega)))) k4
  have := k5.eq (w' := a.name ++ (a.left ++ str "=")) rfl (g' := [(2, a.name.length + a.left.length, a.name.length + a.left.length + 1), (1, 0, a.name.length)])
    (by simp [shift]; omega)
  simpa [piAttrPat, rule, spacesLazy] using this

theorem exp_piAttr (m ws : List Nat) (hm : m ≠ []) :
    expV .attrGroups (m ++ (ws ++ str "=")) [(2, m.length + ws.length, m.length + ws.length + 1), (1, 0, m.length)] =
      [.tok m .attribute, .tok (str "=") .operator] := by
  have e1 : slice (m ++ (ws ++ str "=")) 0 m.length = m := by
    have := slice_mid [] m (ws ++ str "=") (s := 0) (e := m.length) rfl (by simp)
    simpa using this
  have e2 : slice (m ++ (ws ++ str "=")) (m.length + ws.length) (m.length + ws.length + 1) = str "=" := by
    have := slice_mid (m ++ ws) (str "=") [] (s := m.length + ws.length) (e := m.length + ws.length + 1) (by simp) (by simp [str])
    simpa using this
  have e5 : str "=" ≠ [] := by decide
  simp [expV, groups, groupOf, e1, e2, hm, e5]

/-- No rule starts with this character. -/
def noneAt (l : XL) (c : Nat) : Bool := (leads (rules uni0 l) (some c)).all (!·)

theorem misses_ascii (hu : u.Ascii) {l : XL} {c : Nat} (hc : c < 128) (h : noneAt l c = true) (rest : List Nat) : Misses u l (c :: rest) := by
  refine misses_of (fun r hr => ?_)
  unfold noneAt at h
  rw [← leads_ascii hu hc, List.all_eq_true] at h
  have := h (r.pat.can (some c)) (List.mem_map.2 ⟨r, hr, rfl⟩)
  simpa using this

theorem go_piws (hu : u.Ascii) {w post : List Nat} (hw : Ws w) (hb : Begins u .pi post) :
    ∃ n' o', Go u ⟨w ++ post, (.pi, is) :: fs, n, o⟩ ⟨post, (.pi, is ++ spaceView w) :: fs, n', o'⟩ := by
  by_cases h : w = []
  · subst h; exact ⟨n, o, by simpa [spaceView] using Go.refl _⟩
  · refine ⟨0, true, ?_⟩
    have := s_text (u := u) (l := .pi) (f := fun _ => .ppText) (w := w) (is := is) (fs := fs) (n := n) (o := o) rfl rfl (by decide) h (by
      intro i hi
      rw [List.drop_eq_getElem_cons hi]
      have hc := hw _ (List.getElem_mem hi)
      refine misses_ascii hu (isWs_lt hc) ?_ _
      generalize w[i] = c at hc
      rcases hc with rfl | rfl | rfl | rfl <;> decide +kernel) (Or.inr hb)
    simpa [spaceView, h] using this

theorem go_pattr (hu : u.Ascii) {a : Attr} (h : a.ok u) (post : List Nat) :
    Go u ⟨a.text ++ post, (.pi, is) :: fs, n, o⟩ ⟨post, (.pi, is ++ a.piView) :: fs, 0, true⟩ := by
  have hh := h
  obtain ⟨_, h1, h2, h3, h4, h5⟩ := h
  let r := partsText a.value ++ ([a.quote] ++ post)
  have k := hits_piAttr hu hh r
  obtain ⟨n1, o1, g1⟩ := go_piws (is := is) (fs := fs) (n := n) (o := o) hu h1 k.begins
  have g2 := s_toks (is := is ++ spaceView a.before) (fs := fs) (n := n1) (o := o1) k (exp_piAttr _ _ (name_ne h2)) (by simp)
  obtain ⟨n3, o3, g3⟩ := go_piws (is := is ++ spaceView a.before ++ [.tok a.name .attribute, .tok (str "=") .operator]) (fs := fs) (n := 0) (o := true) hu h4
    (hits_start hu (Or.inr rfl) a.double r).begins
  have g4 := go_value (is := is ++ spaceView a.before ++ [.tok a.name .attribute, .tok (str "=") .operator] ++ spaceView a.right) (fs := fs) (n := n3) (o := o3)
    hu (Or.inr rfl) a h5 post
  have g4' : Go u ⟨[quoteOf a.double] ++ r, (.pi, is ++ spaceView a.before ++ [.tok a.name .attribute, .tok (str "=") .operator] ++ spaceView a.right) :: fs, n3, o3⟩
      ⟨post, (.pi, is ++ spaceView a.before ++ [.tok a.name .attribute, .tok (str "=") .operator] ++ spaceView a.right ++ a.valueView) :: fs, 0, true⟩ := by
    simpa [r, ← show a.quote = quoteOf a.double from rfl] using g4
  have := ((g1.trans g2).trans g3).trans g4'
  simpa [r, Attr.text, Attr.piView] using this

theorem go_pattrs (hu : u.Ascii) (post : List Nat) : ∀ (as : List Attr), (∀ a ∈ as, a.ok u) → ∀ (is : List V) (n : Nat) (o : Bool),
    ∃ n' o', Go u ⟨attrsText as ++ post, (.pi, is) :: fs, n, o⟩ ⟨post, (.pi, is ++ as.flatMap Attr.piView) :: fs, n', o'⟩ := by
  intro as
  induction as with
  | nil => intro _ is n o; exact ⟨n, o, by simpa [attrsText] using Go.refl _⟩
  | cons a as ih =>
    intro h is n o
    obtain ⟨n', o', g⟩ := ih (fun b hb => h b (by simp [hb])) (is ++ a.piView) 0 true
    refine ⟨n', o', ?_⟩
    have := (go_pattr (is := is) (fs := fs) (n := n) (o := o) hu (h a (by simp)) (attrsText as ++ post)).trans g
    simpa [attrsText] using this

theorem exp_pi (m : List Nat) (hm : m ≠ []) :
    expV .ppGroups (str "<?" ++ m) [(2, 2, 2 + m.length), (1, 0, 2)] = [.tok (str "<?") .ppStart, .tok m .ppName] := by
  have e1 : slice (str "<?" ++ m) 2 (2 + m.length) = m := by
    have := slice_mid (str "<?") m [] (s := 2) (e := 2 + m.length) rfl rfl
    simpa using this
  have e4 : slice (str "<?" ++ m) 0 2 = str "<?" := by
    have := slice_mid [] (str "<?") m (s := 0) (e := 2) rfl rfl
    simpa using this
  have e6 : str "<?" ≠ [] := by decide
  simp [expV, groups, groupOf, e1, e4, hm, e6]

theorem pi_term (as : List Attr) (h : ∀ a ∈ as, a.ok u) {ws : List Nat} (hw : Ws ws) (post : List Nat) :
    ∀ c, (attrsText as ++ (ws ++ (str "?>" ++ post))).head? = some c → Term c := by
  by_cases has : as = []
  · subst has
    exact head_ws hw (fun c hc => Or.inl hc) (fun c hc => by obtain rfl : 63 = c := Option.some.inj hc; right; omega)
  · obtain ⟨w1, n1, r1, h1, h2, h3, h4⟩ := attrs_head has h (ws ++ (str "?>" ++ post))
    rw [h1]
    intro c hc
    cases w1 with
    | nil => exact absurd rfl h2
    | cons x w => obtain rfl : x = c := Option.some.inj hc; exact Or.inl (h3 x (by simp))

theorem go_pi (hu : u.Ascii) {l : XL} (hl : Cont l ci) {m ws : List Nat} {as : List Attr} (hm : Name u m) (ha : ∀ a ∈ as, a.ok u) (hw : Ws ws) (post : List Nat) :
    Go u ⟨str "<?" ++ m ++ attrsText as ++ ws ++ str "?>" ++ post, (l, is) :: fs, n, o⟩
      ⟨post, (l, is ++ [.tok (str "<?") .ppStart, .tok m .ppName, .ctx .pi (as.flatMap Attr.piView ++ spaceView ws ++ [.tok (str "?>") .ppEnd])]) :: fs, 0, true⟩ := by
  have g1 := s_enter (is := is) (fs := fs) (n := n) (o := o) (hits_pi hu hl hm (pi_term as ha hw post)) (exp_pi m (name_ne hm)) (by simp)
  obtain ⟨n2, o2, g2⟩ := go_pattrs (fs := (l, is ++ [.tok (str "<?") .ppStart, .tok m .ppName]) :: fs) hu (ws ++ (str "?>" ++ post)) as ha [] 1 true
  have k : Hits u .pi (str "?>") post .ppEnd (some ⟨1, []⟩) [] :=
    hits hu (l := .pi) (c := 63) (w := [62]) (post := post) 4 [] (r := rule (chr "?>") .ppEnd (some ⟨1, []⟩)) rfl rfl (by decide) (by decide +kernel) (by simp)
      (PC.of (pbest_chr "?>" post))
  obtain ⟨n3, o3, g3⟩ := go_piws (is := [] ++ as.flatMap Attr.piView) (fs := (l, is ++ [.tok (str "<?") .ppStart, .tok m .ppName]) :: fs) (n := n2) (o := o2) hu hw k.begins
  have g4 := s_leave (vs := [.tok (str "?>") .ppEnd]) (is := [] ++ as.flatMap Attr.piView ++ spaceView ws) (fs := fs) (l0 := l)
    (is0 := is ++ [.tok (str "<?") .ppStart, .tok m .ppName]) (n := n3) (o := o3) k rfl (by simp)
  have := ((g1.trans g2).trans g3).trans g4
  simpa [mk] using this

/-! ### Character data -/

theorem go_cdata (hu : u.Ascii) {l : XL} (hl : Cont l ci) {w : List Nat} (h : ¬ Within "]]>" (w ++ str "]]")) (post : List Nat) :
    Go u ⟨str "<![CDATA[" ++ w ++ str "]]>" ++ post, (l, is) :: fs, n, o⟩
      ⟨post, (l, is ++ [.tok (str "<![") .delimiter, .tok (str "CDATA") .dataDef, .tok (str "[") .delimiter,
        .ctx .cdata ((if w = [] then [] else [.tok w .data]) ++ [.tok (str "]]>") .delimiter])]) :: fs, 0, true⟩ := by
  have g1 := s_enter (is := is) (fs := fs) (n := n) (o := o) (vs := [.tok (str "<![") .delimiter, .tok (str "CDATA") .dataDef, .tok (str "[") .delimiter])
    (hits_cdata hu hl (w ++ (str "]]>" ++ post))) rfl (by simp)
  have k : Hits u .cdata (str "]]>") post .delimiter (some ⟨1, []⟩) [] :=
    hits_first (r := rule (chr "]]>") .delimiter (some ⟨1, []⟩)) (by decide) rfl rfl (PC.of (pbest_chr "]]>" post))
  have g2 : ∃ n' o', Go u ⟨w ++ (str "]]>" ++ post), (.cdata, []) :: (l, is ++ [.tok (str "<![") .delimiter, .tok (str "CDATA") .dataDef, .tok (str "[") .delimiter]) :: fs, 1, true⟩
      ⟨str "]]>" ++ post, (.cdata, if w = [] then [] else [.tok w .data]) :: (l, is ++ [.tok (str "<![") .delimiter, .tok (str "CDATA") .dataDef, .tok (str "[") .delimiter]) :: fs, n', o'⟩ := by
    by_cases hw : w = []
    · subst hw; exact ⟨1, true, by simpa using Go.refl _⟩
    · refine ⟨0, true, ?_⟩
      have := s_text (u := u) (l := .cdata) (f := fun _ => .data) (w := w) (is := []) (fs := (l, is ++ [.tok (str "<![") .delimiter, .tok (str "CDATA") .dataDef, .tok (str "[") .delimiter]) :: fs)
        (n := 1) (o := true) rfl rfl (by decide) hw (by
          intro i hi t p ht hst
          obtain ⟨a, ha, q, hq⟩ := hst
          simp only [pats, rules, rule, List.map_cons, List.map_nil, List.mem_singleton] at ha
          subst ha
          obtain ⟨_, post', h2⟩ := str_mat _ hq
          rw [ht] at h2
          refine h (within_of (i := i) (post := str ">" ++ post) (post' := post') ?_ (by simp [str]; omega))
          rw [List.drop_append_of_le_length (by omega), List.append_assoc]
          exact h2) (Or.inr k.begins)
      simpa [hw] using this
  obtain ⟨n2, o2, g2⟩ := g2
  have g3 := s_leave (vs := [.tok (str "]]>") .delimiter]) (fs := fs) (l0 := l) (n := n2) (o := o2) (is := if w = [] then [] else [.tok w .data])
    (is0 := is ++ [.tok (str "<![") .delimiter, .tok (str "CDATA") .dataDef, .tok (str "[") .delimiter]) k rfl (by simp)
  have := (g1.trans g2).trans g3
  simpa [mk] using this

end Parce.Xml

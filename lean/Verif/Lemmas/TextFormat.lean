import Verif.Spec.TextFormat

/-! Lemmas about reading and writing text formats. -/

namespace Parce.TF

variable {N C : Type}

/-! ## What reading gives -/

/-- What is in an attribute is one of the words. -/
def OneOf (ws : List String) (o : Option String) : Prop := ∀ s, o = some s → s ∈ ws

/-- What is in an attribute is one of the words, or a number. -/
def OneOfN (ws : List String) (o : Option (WN N)) : Prop := ∀ s, o = some (.word s) → s ∈ ws

/-- What holds for all formats that were read. -/
structure Known (f : Fmt N C) : Prop where
  decoLine : ∀ l, f.decoLine = some l → ∀ s ∈ l, s ∈ decoWords
  decoStyle : OneOf decoStyles f.decoStyle
  family : ∀ l, f.family = some l → ∀ s ∈ l, s ≠ ""
  kerning : OneOf kernings f.kerning
  size : OneOfN sizes f.size
  sizeNum : ∀ n, f.size = some (.num n) → f.sizeUnit.isSome
  sizeUnit : f.sizeUnit.isSome → f.size.isSome
  stretch : OneOfN stretches f.stretch
  style : OneOf ["normal", "italic", "oblique"] f.style
  angle : f.angle.isSome ↔ f.angleUnit.isSome
  caps : OneOf capsWords f.caps
  position : OneOf positions f.position
  weight : OneOfN weights f.weight

theorem isIn_iff {v : Val N C} {ws : List String} : v.isIn ws = true ↔ ∃ s, v.text = some s ∧ s ∈ ws := by
  unfold Val.isIn
  cases h : v.text with
  | none => simp
  | some s => simp

theorem oneOf_firstWord {ws : List String} {old : Option String} (h : OneOf ws old) :
    ∀ (vs : List (Val N C)), OneOf ws (firstWord ws old vs)
  | [] => h
  | v :: vs => by
    unfold firstWord
    split
    · rename_i hv
      obtain ⟨s, hs, hm⟩ := isIn_iff.1 hv
      intro t ht; rw [hs] at ht; cases ht; exact hm
    · exact oneOf_firstWord h vs

theorem decos_mem : ∀ (vs : List (Val N C)) (acc : List String), (∀ s ∈ acc, s ∈ decoWords) →
    ∀ s ∈ decos acc vs, s ∈ decoWords
  | [], acc, h => h
  | v :: vs, acc, h => by
    unfold decos
    split
    · rename_i hv
      obtain ⟨t, ht, hm⟩ := isIn_iff.1 hv
      refine decos_mem vs _ ?_
      intro s hs
      rcases List.mem_append.1 hs with hs | hs
      · exact h s hs
      · rw [ht] at hs; simp at hs; rw [hs]; exact hm
    · split
      · exact decos_mem vs _ (by simp)
      · exact decos_mem vs _ h

theorem fams_mem : ∀ (vs : List (Val N C)), ∀ s ∈ fams vs, s ≠ ""
  | [], s, h => by cases h
  | v :: vs, s, h => by
    unfold fams at h
    split at h
    · split at h
      · rename_i hc
        rcases List.mem_cons.1 h with rfl | h
        · exact hc.1
        · exact fams_mem vs s h
      · exact fams_mem vs s h
    · exact fams_mem vs s h

theorem oneOfN_isIn {v : Val N C} {ws : List String} (h : v.isIn ws = true) :
    OneOfN (N := N) ws (v.text.map .word) ∧ ∃ s, v.text = some s := by
  obtain ⟨s, hs, hm⟩ := isIn_iff.1 h
  refine ⟨?_, s, hs⟩
  intro t ht; rw [hs] at ht; cases ht; exact hm

theorem known_size : ∀ (vs : List (Val N C)) (f : Fmt N C), Known f → Known (readSize f vs)
  | [], f, h => h
  | v :: vs, f, h => by
    unfold readSize
    split
    · rename_i hv
      obtain ⟨h1, s, hs⟩ := oneOfN_isIn hv
      exact { h with
        size := h1
        sizeNum := by intro n hn; simp [hs] at hn
        sizeUnit := by intro _; simp [hs] }
    · split
      · exact { h with
          size := by intro s hs; cases hs
          sizeNum := fun _ _ => rfl
          sizeUnit := fun _ => rfl }
      · exact known_size vs f h

theorem known_stretch : ∀ (vs : List (Val N C)) (f : Fmt N C), Known f → Known (readStretch f vs)
  | [], f, h => h
  | v :: vs, f, h => by
    unfold readStretch
    split
    · rename_i hv
      exact known_stretch vs _ { h with stretch := (oneOfN_isIn hv).1 }
    · split
      · split
        · exact known_stretch vs _ { h with stretch := by intro s hs; cases hs }
        · exact known_stretch vs f h
      · exact known_stretch vs f h

theorem known_weight : ∀ (vs : List (Val N C)) (f : Fmt N C), Known f → Known (readWeight f vs)
  | [], f, h => h
  | v :: vs, f, h => by
    unfold readWeight
    split
    · rename_i hv
      exact { h with weight := (oneOfN_isIn hv).1 }
    · split
      · exact { h with weight := by intro s hs; cases hs }
      · exact known_weight vs f h

theorem known_style : ∀ (vs : List (Val N C)) (f : Fmt N C), Known f → Known (styleLoop f vs)
  | [], f, h => h
  | v :: vs, f, h => by
    unfold styleLoop
    split
    · rename_i hv
      obtain ⟨s, hs, hm⟩ := isIn_iff.1 hv
      exact { h with
        style := by
          intro t ht
          simp only [hs] at ht
          cases ht
          simp only [List.mem_cons, List.not_mem_nil, or_false] at hm ⊢
          rcases hm with h | h <;> simp [h] }
    · split
      · rename_i hv
        obtain ⟨s, hs, hm⟩ := isIn_iff.1 hv
        have ho : OneOf ["normal", "italic", "oblique"] v.text := by
          intro t ht; rw [hs] at ht; cases ht
          simp only [List.mem_cons, List.not_mem_nil, or_false] at hm ⊢
          simp [hm]
        split
        · exact { h with style := ho }
        · split
          · exact { h with style := ho, angle := by simp }
          · exact known_style _ _ { h with style := ho }
      · exact known_style vs f h

theorem weights_sub {s : String} (h : s ∈ ["bold", "lighter", "bolder"]) : s ∈ weights := by
  simp only [List.mem_cons, List.not_mem_nil, or_false] at h
  rcases h with h | h | h <;> simp [h, weights]

theorem caps_sub {s : String} (h : s ∈ ["normal", "small-caps"]) : s ∈ capsWords := by
  simp only [List.mem_cons, List.not_mem_nil, or_false] at h
  rcases h with h | h <;> simp [h, capsWords]

theorem system_ne {s : String} (h : s ∈ systemFonts) : s ≠ "" := by
  rintro rfl; revert h; decide

theorem known_font : ∀ (vs : List (Val N C)) (f : Fmt N C) (nums : List (N × Option String)), Known f →
    Known (fontLoop f nums vs).1
  | [], f, nums, h => h
  | v :: vs, f, nums, h => by
    unfold fontLoop
    split
    · rename_i hv
      obtain ⟨s, hs, hm⟩ := isIn_iff.1 hv
      exact { h with
        family := by
          intro l hl
          simp only [hs] at hl
          cases hl
          intro t ht
          simp at ht; rw [ht]; exact system_ne hm }
    · split
      · rename_i hv
        obtain ⟨s, hs, hm⟩ := isIn_iff.1 hv
        have hc : OneOf capsWords v.text := by
          intro t ht; rw [hs] at ht; cases ht; exact caps_sub hm
        exact known_font vs _ _ { h with caps := hc }
      · split
        · rename_i hv
          exact known_font vs _ _ { h with stretch := (oneOfN_isIn hv).1 }
        · split
          · rename_i hv
            obtain ⟨s, hs, hm⟩ := isIn_iff.1 hv
            have hw : OneOfN (N := N) weights (v.text.map .word) := by
              intro t ht; rw [hs] at ht; cases ht; exact weights_sub hm
            exact known_font vs _ _ { h with weight := hw }
          · split
            · exact known_font vs _ _ h
            · exact known_font vs _ _ h

theorem known_readFont (vs : List (Val N C)) (f g : Fmt N C) (h : Known f)
    (hg : readFont f vs = some g) : Known g := by
  unfold readFont at hg
  split at hg
  · cases hg
  · rename_i f1 hf1
    have h1 : Known f1 := by
      unfold readStyle at hf1
      split at hf1
      · cases hf1
      · cases hf1; exact known_style _ _ h
    have h2 := known_font vs f1 [] h1
    split at hg
    · rename_i f2 _ heq
      rw [heq] at h2; cases hg; exact h2
    · rename_i f2 nums heq
      rw [heq] at h2
      have h3 : Known { f2 with family := some (fams vs) } :=
        { h2 with family := by intro l hl; cases hl; exact fams_mem vs }
      have h4 : ∀ (f : Fmt N C) (n : N) (u : Option String), Known f →
          Known { f with size := some (.num n), sizeUnit := some u } := fun f n u h =>
        { h with
          size := by intro s hs; cases hs
          sizeNum := fun _ _ => rfl
          sizeUnit := fun _ => rfl }
      split at hg
      · cases hg; exact h3
      · cases hg; exact h4 _ _ _ h3
      · cases hg
        refine h4 _ _ _ ?_
        split
        · exact { h3 with weight := by intro s hs; cases hs }
        · exact h3

theorem known_prop (p : String) (vs : List (Val N C)) (f g : Fmt N C) (h : Known f)
    (hg : readProp f p vs = some g) : Known g := by
  unfold readProp at hg
  by_cases hp : p = "color"
  · rw [if_pos hp] at hg
    cases hg; exact { h with }
  rw [if_neg hp] at hg
  clear hp
  by_cases hp : p = "background-color" ∨ p = "background"
  · rw [if_pos hp] at hg
    cases hg; exact { h with }
  rw [if_neg hp] at hg
  clear hp
  by_cases hp : p = "caret-color"
  · rw [if_pos hp] at hg
    cases hg; exact { h with }
  rw [if_neg hp] at hg
  clear hp
  by_cases hp : p = "text-decoration-color"
  · rw [if_pos hp] at hg
    cases hg; exact { h with }
  rw [if_neg hp] at hg
  clear hp
  by_cases hp : p = "text-decoration-line"
  · rw [if_pos hp] at hg
    cases hg; exact { h with decoLine := by intro l hl; cases hl; exact decos_mem vs [] (by simp) }
  rw [if_neg hp] at hg
  clear hp
  by_cases hp : p = "text-decoration-style"
  · rw [if_pos hp] at hg
    cases hg; exact { h with decoStyle := oneOf_firstWord h.decoStyle vs }
  rw [if_neg hp] at hg
  clear hp
  by_cases hp : p = "text-decoration"
  · rw [if_pos hp] at hg
    cases hg
    exact { h with
      decoLine := by intro l hl; cases hl; exact decos_mem vs [] (by simp)
      decoStyle := oneOf_firstWord h.decoStyle vs }
  rw [if_neg hp] at hg
  clear hp
  by_cases hp : p = "font-family"
  · rw [if_pos hp] at hg
    cases hg; exact { h with family := by intro l hl; cases hl; exact fams_mem vs }
  rw [if_neg hp] at hg
  clear hp
  by_cases hp : p = "font-kerning"
  · rw [if_pos hp] at hg
    cases hg; exact { h with kerning := oneOf_firstWord h.kerning vs }
  rw [if_neg hp] at hg
  clear hp
  by_cases hp : p = "font-size"
  · rw [if_pos hp] at hg
    cases hg; exact known_size vs f h
  rw [if_neg hp] at hg
  clear hp
  by_cases hp : p = "font-stretch"
  · rw [if_pos hp] at hg
    cases hg; exact known_stretch vs f h
  rw [if_neg hp] at hg
  clear hp
  by_cases hp : p = "font-style"
  · rw [if_pos hp] at hg
    unfold readStyle at hg
    split at hg
    · cases hg
    · cases hg; exact known_style _ _ h
  rw [if_neg hp] at hg
  clear hp
  by_cases hp : p = "font-variant-caps"
  · rw [if_pos hp] at hg
    cases hg; exact { h with caps := oneOf_firstWord h.caps vs }
  rw [if_neg hp] at hg
  clear hp
  by_cases hp : p = "font-variant-position"
  · rw [if_pos hp] at hg
    cases hg; exact { h with position := oneOf_firstWord h.position vs }
  rw [if_neg hp] at hg
  clear hp
  by_cases hp : p = "font-weight"
  · rw [if_pos hp] at hg
    cases hg; exact known_weight vs f h
  rw [if_neg hp] at hg
  clear hp
  by_cases hp : p = "font"
  · rw [if_pos hp] at hg
    exact known_readFont vs f g h hg
  · rw [if_neg hp] at hg; cases hg; exact h

theorem known_all : ∀ (ps : List (String × List (Val N C))) (f g : Fmt N C), Known f →
    readAll f ps = some g → Known g
  | [], f, g, h, hg => by cases hg; exact h
  | (p, vs) :: ps, f, g, h, hg => by
    unfold readAll at hg
    split at hg
    · cases hg
    · rename_i f1 hf1
      exact known_all ps f1 g (known_prop p vs f f1 h hf1) hg

theorem known_empty : Known ({} : Fmt N C) where
  decoLine := by intro l hl; cases hl
  decoStyle := by intro l hl; cases hl
  family := by intro l hl; cases hl
  kerning := by intro l hl; cases hl
  size := by intro l hl; cases hl
  sizeNum := by intro l hl; cases hl
  sizeUnit := by intro h; cases h
  stretch := by intro l hl; cases hl
  style := by intro l hl; cases hl
  angle := by simp
  caps := by intro l hl; cases hl
  position := by intro l hl; cases hl
  weight := by intro l hl; cases hl

/-- What was read is known. -/
theorem known_read {ps : List (String × List (Val N C))} {f : Fmt N C} (h : read ps = some f) : Known f :=
  known_all ps {} f known_empty h

/-! ## Reading what was written -/

theorem readAll_append : ∀ (ps qs : List (String × List (Val N C))) (f : Fmt N C),
    readAll f (ps ++ qs) = (readAll f ps).bind (fun g => readAll g qs)
  | [], qs, f => rfl
  | (p, vs) :: ps, qs, f => by
    simp only [List.cons_append, readAll]
    cases readProp f p vs with
    | none => rfl
    | some g => exact readAll_append ps qs g

theorem reread_append (color : C → C) (a b : List (String × List (W N C))) :
    reread color (a ++ b) = reread color a ++ reread color b := by
  simp [reread]

theorem isIn_word (s : String) (ws : List String) :
    (({ text := some s } : Val N C).isIn ws) = ws.contains s := rfl

theorem isIn_word_true {s : String} {ws : List String} (h : s ∈ ws) :
    (({ text := some s } : Val N C).isIn ws) = true := by
  rw [isIn_word]; simpa using h

theorem seg_color (color : C → C) (f g : Fmt N C) (h1 : g.color = none) (h2 : g.background = none)
    (h3 : g.caret = none) :
    readAll g (reread color (writeColor f)) =
      some { g with color := f.color.map color, background := f.background.map color,
                    caret := f.caret.map color } := by
  obtain ⟨⟩ := g
  simp only at h1 h2 h3
  subst h1 h2 h3
  obtain ⟨c1, c2, c3, -⟩ := f
  cases c1 <;> cases c2 <;> cases c3 <;>
    simp [writeColor, reread, readAll, readProp, W.read, firstColor]

theorem deco_disj {s : String} (h : s ∈ decoStyles) : s ∉ decoWords ∧ s ≠ "none" := by
  simp only [decoStyles, List.mem_cons, List.not_mem_nil, or_false] at h
  rcases h with h | h | h | h | h <;> subst h <;> decide

theorem deco_disj' {s : String} (h : s ∈ decoWords) : s ∉ decoStyles := fun h' => (deco_disj h').1 h

/-- The values of the text decoration when they are read. -/
def decoVals (color : C → C) (l : List String) (s : Option String) (c : Option C) : List (Val N C) :=
  l.map (fun s => { text := some s }) ++ s.toList.map (fun s => { text := some s }) ++
    c.toList.map (fun c => { color := some (color c) })

theorem decos_vals (color : C → C) (s : Option String) (c : Option C) (hs : OneOf decoStyles s) :
    ∀ (l acc : List String), (∀ x ∈ l, x ∈ decoWords) →
      decos acc (decoVals (N := N) color l s c) = acc ++ l
  | [], acc, _ => by
    cases s with
    | none => cases c <;> simp [decoVals, decos, Val.isIn]
    | some s =>
      have h := deco_disj (hs s rfl)
      have h1 := h.1
      have h2 := h.2
      cases c <;> simp [decoVals, decos, Val.isIn, h1, h2]
  | x :: l, acc, hl => by
    have hx := hl x (by simp)
    have ih := decos_vals color s c hs l (acc ++ [x]) (fun y hy => hl y (by simp [hy]))
    simp only [decoVals, List.map_cons, List.cons_append, decos] at ih ⊢
    rw [if_pos (isIn_word_true hx)]
    rw [show acc ++ x :: l = acc ++ [x] ++ l by simp, ← ih]
    rfl

theorem style_vals (color : C → C) (s : Option String) (c : Option C) (hs : OneOf decoStyles s) :
    ∀ (l : List String), (∀ x ∈ l, x ∈ decoWords) →
      firstWord decoStyles none (decoVals (N := N) color l s c) = s
  | [], _ => by
    cases s with
    | none => cases c <;> simp [decoVals, firstWord, Val.isIn]
    | some s =>
      have h := hs s rfl
      cases c <;> simp [decoVals, firstWord, Val.isIn, h]
  | x :: l, hl => by
    have hx := deco_disj' (hl x (by simp))
    have ih := style_vals color s c hs l (fun y hy => hl y (by simp [hy]))
    simp only [decoVals, List.map_cons, List.cons_append, firstWord] at ih ⊢
    rw [if_neg (by rw [isIn_word]; simpa using hx)]
    exact ih

theorem color_vals (color : C → C) (s : Option String) (c : Option C) :
    ∀ (l : List String), firstColor none (decoVals (N := N) color l s c) = c.map color
  | [] => by cases s <;> cases c <;> simp [decoVals, firstColor]
  | x :: l => by
    have ih := color_vals color s c l
    simp only [decoVals, List.map_cons, List.cons_append, firstColor] at ih ⊢
    exact ih

/-- The lines of text decoration that are read again. -/
def backLine (f : Fmt N C) : Option (List String) :=
  if f.decoLine.getD [] ≠ [] ∨ f.decoStyle.isSome ∨ f.decoColor.isSome then some (f.decoLine.getD []) else none

theorem seg_deco (color : C → C) (f g : Fmt N C) (k : Known f) (h1 : g.decoLine = none)
    (h2 : g.decoStyle = none) (h3 : g.decoColor = none) :
    readAll g (reread color (writeDeco f)) =
      some { g with decoLine := backLine f, decoStyle := f.decoStyle, decoColor := f.decoColor.map color } := by
  have hl : ∀ x ∈ f.decoLine.getD [], x ∈ decoWords := by
    intro x hx
    cases h : f.decoLine with
    | none => rw [h] at hx; cases hx
    | some l => rw [h] at hx; exact k.decoLine l h x hx
  by_cases he : f.decoLine.getD [] ≠ [] ∨ f.decoStyle.isSome ∨ f.decoColor.isSome
  · have hw : reread color (writeDeco f) =
        [("text-decoration", decoVals (N := N) color (f.decoLine.getD []) f.decoStyle f.decoColor)] := by
      have : ∃ a l, (f.decoLine.getD []).map (W.word (N := N) (C := C)) ++ f.decoStyle.toList.map W.word ++
          f.decoColor.toList.map W.hex = a :: l := by
        rcases he with h | h | h
        · cases hd : f.decoLine.getD [] with
          | nil => exact absurd hd h
          | cons a l => simp
        · obtain ⟨s, hs⟩ := Option.isSome_iff_exists.1 h
          rw [hs]; cases f.decoLine.getD [] <;> simp
        · obtain ⟨s, hs⟩ := Option.isSome_iff_exists.1 h
          rw [hs]; cases f.decoLine.getD [] <;> cases f.decoStyle <;> simp
      obtain ⟨a, l, hal⟩ := this
      have hw : writeDeco f = [("text-decoration", a :: l)] := by
        unfold writeDeco; rw [hal]
      rw [hw, ← hal]
      simp [reread, decoVals, W.read, Function.comp_def]
    rw [hw]
    simp only [readAll]
    rw [show readProp g "text-decoration" (decoVals (N := N) color (f.decoLine.getD []) f.decoStyle f.decoColor) =
      some { g with
        decoColor := firstColor g.decoColor (decoVals color (f.decoLine.getD []) f.decoStyle f.decoColor)
        decoLine := some (decos [] (decoVals color (f.decoLine.getD []) f.decoStyle f.decoColor))
        decoStyle := firstWord decoStyles g.decoStyle (decoVals color (f.decoLine.getD []) f.decoStyle f.decoColor) }
      from rfl]
    rw [h2, h3, color_vals, decos_vals color _ _ k.decoStyle _ _ hl, style_vals color _ _ k.decoStyle _ hl]
    simp [backLine, he]
  · have he' := he
    simp only [ne_eq, not_or, Classical.not_not] at he
    have hs : f.decoStyle = none := by
      cases h : f.decoStyle with
      | none => rfl
      | some s => rw [h] at he; simp at he
    have hc : f.decoColor = none := by
      cases h : f.decoColor with
      | none => rfl
      | some s => rw [h] at he; simp at he
    have hw : writeDeco f = [] := by simp [writeDeco, he.1, hs, hc]
    rw [hw, backLine, if_neg he', hs, hc]
    obtain ⟨⟩ := g
    simp only at h1 h2 h3
    subst h1 h2 h3
    rfl

/-- The families that are read again. -/
def backFamily (plain : String → Bool) (f : Fmt N C) : Option (List String) :=
  match f.family.getD [] with
  | [] => none
  | fs => some (fs.filter (fun s => !plain s || families.contains s))

theorem fams_read (plain : String → Bool) (color : C → C) : ∀ (fs : List String), (∀ s ∈ fs, s ≠ "") →
    fams (fs.map (fun s => W.read (N := N) color (if plain s then .word s else .quoted s))) =
      fs.filter (fun s => !plain s || families.contains s)
  | [], _ => rfl
  | s :: fs, h => by
    have ih := fams_read plain color fs (fun t ht => h t (by simp [ht]))
    have hs := h s (by simp)
    simp only [List.map_cons, List.filter_cons]
    rw [← ih]
    generalize fs.map (fun s => W.read (N := N) color (if plain s then .word s else .quoted s)) = r
    cases hp : plain s
    · simp [fams, W.read, hs]
    · by_cases hf : s ∈ families <;> simp [fams, W.read, hs, hf]

theorem seg_family (plain : String → Bool) (color : C → C) (f g : Fmt N C) (k : Known f) (h1 : g.family = none) :
    readAll g (reread color (writeFamily plain f)) = some { g with family := backFamily plain f } := by
  unfold writeFamily backFamily
  cases hf : f.family.getD [] with
  | nil => obtain ⟨⟩ := g; simp only at h1; subst h1; rfl
  | cons a l =>
    have hn : ∀ s ∈ a :: l, s ≠ "" := by
      cases h : f.family with
      | none => rw [h] at hf; cases hf
      | some fs => rw [h] at hf; cases hf; exact k.family _ h
    have := fams_read (N := N) plain color (a :: l) hn
    simp only [reread, List.map_cons, List.map_nil, readAll, List.map_map, Function.comp_def] at this ⊢
    rw [← this]
    rfl

/-- The size and its unit that are read again. -/
def backSize (zero : N → Bool) (f : Fmt N C) : Option (WN N) × Option (Option String) :=
  match f.size with
  | some (.word w) =>
    (if sizes.contains (w ++ (f.sizeUnit.getD none).getD "") then some (.word (w ++ (f.sizeUnit.getD none).getD ""))
      else none, none)
  | some (.num n) => if zero n then (none, none) else (some (.num n), some (f.sizeUnit.getD none))
  | none => (none, none)

theorem seg_size (zero : N → Bool) (color : C → C) (f g : Fmt N C) (h1 : g.size = none) (h2 : g.sizeUnit = none) :
    readAll g (reread color (writeWN zero "font-size" f.size (f.sizeUnit.getD none))) =
      some { g with size := (backSize zero f).1, sizeUnit := (backSize zero f).2 } := by
  obtain ⟨⟩ := g
  simp only at h1 h2
  subst h1 h2
  unfold writeWN backSize
  cases f.size with
  | none => rfl
  | some x =>
    cases x with
    | word w =>
      simp only [reread, List.map_cons, List.map_nil, readAll, W.read]
      generalize w ++ (f.sizeUnit.getD none).getD "" = s
      rw [show ∀ (g : Fmt N C) (vs), readProp g "font-size" vs = some (readSize g vs) from fun _ _ => rfl]
      simp only [readSize, isIn_word]
      by_cases hc : sizes.contains s = true
      · simp only [hc, if_true]; rfl
      · simp only [hc]; rfl
    | num n =>
      cases hz : zero n
      · simp only [hz]; rfl
      · simp only [hz]; rfl

/-- The stretch that is read again. -/
def backStretch (f : Fmt N C) : Option (WN N) :=
  match f.stretch with
  | some (.word w) => some (.word w)
  | _ => none

theorem seg_stretch (zero : N → Bool) (color : C → C) (f g : Fmt N C) (k : Known f) (h1 : g.stretch = none) :
    readAll g (reread color (writeWN zero "font-stretch" f.stretch none)) =
      some { g with stretch := backStretch f } := by
  obtain ⟨⟩ := g
  simp only at h1
  subst h1
  unfold writeWN backStretch
  cases hs : f.stretch with
  | none => rfl
  | some x =>
    cases x with
    | word w =>
      have := k.stretch w hs
      simp only [reread, List.map_cons, List.map_nil, readAll, W.read, Option.getD_none, String.append_empty]
      rw [show ∀ (g : Fmt N C) (vs), readProp g "font-stretch" vs = some (readStretch g vs) from fun _ _ => rfl]
      simp only [readStretch, isIn_word_true this, if_true]
      rfl
    | num n =>
      cases hz : zero n
      · simp only [hz]; rfl
      · simp only [hz]; rfl

/-- The weight that is read again. -/
def backWeight (zero : N → Bool) (f : Fmt N C) : Option (WN N) :=
  match f.weight with
  | some (.word w) => some (.word w)
  | some (.num n) => if zero n then none else some (.num n)
  | none => none

theorem seg_weight (zero : N → Bool) (color : C → C) (f g : Fmt N C) (k : Known f) (h1 : g.weight = none) :
    readAll g (reread color (writeWN zero "font-weight" f.weight none)) =
      some { g with weight := backWeight zero f } := by
  obtain ⟨⟩ := g
  simp only at h1
  subst h1
  unfold writeWN backWeight
  cases hs : f.weight with
  | none => rfl
  | some x =>
    cases x with
    | word w =>
      have := k.weight w hs
      simp only [reread, List.map_cons, List.map_nil, readAll, W.read, Option.getD_none, String.append_empty]
      rw [show ∀ (g : Fmt N C) (vs), readProp g "font-weight" vs = some (readWeight g vs) from fun _ _ => rfl]
      simp only [readWeight, isIn_word_true this, if_true]
      rfl
    | num n =>
      cases hz : zero n
      · simp only [hz]; rfl
      · simp only [hz]; rfl

/-- The angle of the style that is read again. -/
def backAngle (zero : N → Bool) (f : Fmt N C) : Option N × Option (Option String) :=
  match f.style, f.angle with
  | some s, some a =>
    if s = "oblique" ∧ zero a = false then (some a, some (f.angleUnit.getD none)) else (none, none)
  | _, _ => (none, none)

theorem seg_style (zero : N → Bool) (color : C → C) (f g : Fmt N C) (k : Known f) (h1 : g.style = none)
    (h2 : g.angle = none) (h3 : g.angleUnit = none) :
    readAll g (reread color (writeStyle zero f)) =
      some { g with style := f.style, angle := (backAngle zero f).1, angleUnit := (backAngle zero f).2 } := by
  obtain ⟨⟩ := g
  simp only at h1 h2 h3
  subst h1 h2 h3
  unfold writeStyle backAngle
  cases hs : f.style with
  | none => rfl
  | some s =>
    have := k.style s hs
    simp only [List.mem_cons, List.not_mem_nil, or_false] at this
    rcases this with rfl | rfl | rfl
    · cases f.angle <;> rfl
    · cases f.angle <;> rfl
    · cases f.angle with
      | none => rfl
      | some a =>
        cases hz : zero a
        · simp [hz, reread, W.read, readAll, readProp, readStyle, styleLoop, Val.isIn]
        · simp [hz, reread, W.read, readAll, readProp, readStyle, styleLoop, Val.isIn]

theorem seg_word (color : C → C) (p : String) (o : Option String) (ws : List String) (g g' : Fmt N C)
    (h : OneOf ws o) (h0 : o = none → g = g')
    (hp : ∀ vs, firstWord ws none vs = o → readProp g p vs = some g') :
    readAll g (reread color (writeWord p o)) = some g' := by
  cases o with
  | none => rw [h0 rfl]; rfl
  | some s =>
    have hs := h s rfl
    simp only [writeWord, Option.toList_some, List.map_cons, List.map_nil, reread, readAll, W.read]
    rw [hp _ (by simp [firstWord, isIn_word_true hs])]

/-- The format that is read again. -/
def back (plain : String → Bool) (zero : N → Bool) (color : C → C) (f : Fmt N C) : Fmt N C where
  color := f.color.map color
  background := f.background.map color
  caret := f.caret.map color
  decoLine := backLine f
  decoStyle := f.decoStyle
  decoColor := f.decoColor.map color
  family := backFamily plain f
  size := (backSize zero f).1
  sizeUnit := (backSize zero f).2
  style := f.style
  angle := (backAngle zero f).1
  angleUnit := (backAngle zero f).2
  stretch := backStretch f
  kerning := f.kerning
  caps := f.caps
  position := f.position
  weight := backWeight zero f

theorem read_write (plain : String → Bool) (zero : N → Bool) (color : C → C) (f : Fmt N C) (k : Known f) :
    read (reread color (write plain zero f)) = some (back plain zero color f) := by
  unfold read write
  simp only [reread_append, readAll_append]
  rw [seg_color color f {} rfl rfl rfl, Option.bind_some, seg_deco color f _ k rfl rfl rfl, Option.bind_some,
    seg_family plain color f _ k rfl, Option.bind_some, seg_size zero color f _ rfl rfl, Option.bind_some,
    seg_style zero color f _ k rfl rfl rfl, Option.bind_some, seg_stretch zero color f _ k rfl, Option.bind_some]
  rw [seg_word color "font-kerning" f.kerning kernings _ { back plain zero color f with caps := none, position := none, weight := none } k.kerning
    (by intro h; simp [back, h]) (by intro vs h; simp [readProp, h, back])]
  rw [Option.bind_some]
  rw [seg_word color "font-variant-caps" f.caps capsWords _ { back plain zero color f with position := none, weight := none } k.caps
    (by intro h; simp [back, h]) (by intro vs h; simp [readProp, h, back])]
  rw [Option.bind_some]
  rw [seg_word color "font-variant-position" f.position positions _ { back plain zero color f with weight := none } k.position
    (by intro h; simp [back, h]) (by intro vs h; simp [readProp, h, back])]
  rw [Option.bind_some, seg_weight zero color f _ k rfl]
  rfl

attribute [ext] Fmt

theorem map_self (color : C → C) (o : Option C) : o.map color = o ↔ ∀ c, o = some c → color c = c := by
  cases o <;> simp

theorem backLine_eq (f : Fmt N C) : backLine f = f.decoLine ↔
    (f.decoLine.isSome ↔ f.decoLine.getD [] ≠ [] ∨ f.decoStyle.isSome ∨ f.decoColor.isSome) := by
  unfold backLine
  split
  · rename_i h
    cases hl : f.decoLine <;> simp_all
  · rename_i h
    cases hl : f.decoLine <;> simp_all

theorem backFamily_eq (plain : String → Bool) (f : Fmt N C) : backFamily plain f = f.family ↔
    ∀ fs, f.family = some fs → fs ≠ [] ∧ ∀ s ∈ fs, plain s = true → s ∈ families := by
  unfold backFamily
  cases hf : f.family with
  | none => simp
  | some fs =>
    cases fs with
    | nil => simp
    | cons a l =>
      simp only [Option.getD_some, Option.some.injEq, List.filter_eq_self]
      constructor
      · rintro h fs rfl
        refine ⟨by simp, fun s hs hp => ?_⟩
        have := h s hs
        simpa [hp] using this
      · intro h s hs
        have := (h _ rfl).2 s hs
        cases hp : plain s
        · rfl
        · simpa using this hp

theorem backSize_eq (zero : N → Bool) (f : Fmt N C) (k : Known f) :
    ((backSize zero f).1 = f.size ∧ (backSize zero f).2 = f.sizeUnit) ↔
      ((∀ n, f.size = some (.num n) → zero n = false) ∧ ∀ w, f.size = some (.word w) → f.sizeUnit = none) := by
  unfold backSize
  cases hs : f.size with
  | none =>
    have : f.sizeUnit = none := by
      cases hu : f.sizeUnit with
      | none => rfl
      | some u => have := k.sizeUnit (by simp [hu]); simp [hs] at this
    simp [this]
  | some x =>
    cases x with
    | word w =>
      constructor
      · rintro ⟨-, h⟩
        exact ⟨(fun n hn => by cases hn), (fun w _ => h.symm)⟩
      · rintro ⟨-, h⟩
        have := k.size w hs
        simp [h w rfl, this]
    | num n =>
      obtain ⟨u, hu⟩ := Option.isSome_iff_exists.1 (k.sizeNum n hs)
      cases hz : zero n <;> simp [hz, hu]

theorem backStretch_eq (f : Fmt N C) : backStretch f = f.stretch ↔ ∀ n, f.stretch ≠ some (.num n) := by
  unfold backStretch
  cases f.stretch with
  | none => simp
  | some x => cases x <;> simp

theorem backWeight_eq (zero : N → Bool) (f : Fmt N C) : backWeight zero f = f.weight ↔
    ∀ n, f.weight = some (.num n) → zero n = false := by
  unfold backWeight
  cases f.weight with
  | none => simp
  | some x =>
    cases x with
    | word w => simp
    | num n => cases hz : zero n <;> simp [hz]

theorem backAngle_eq (zero : N → Bool) (f : Fmt N C) (k : Known f) :
    ((backAngle zero f).1 = f.angle ∧ (backAngle zero f).2 = f.angleUnit) ↔
      ∀ a, f.angle = some a → f.style = some "oblique" ∧ zero a = false := by
  unfold backAngle
  have hk := k.angle
  cases ha : f.angle with
  | none =>
    have hu : f.angleUnit = none := by
      cases hu : f.angleUnit with
      | none => rfl
      | some u => rw [ha, hu] at hk; simp at hk
    cases f.style <;> simp [hu]
  | some a =>
    obtain ⟨u, hu⟩ : ∃ u, f.angleUnit = some u := by
      rw [ha] at hk; exact Option.isSome_iff_exists.1 (hk.1 rfl)
    cases hs : f.style with
    | none => simp
    | some s =>
      by_cases hc : s = "oblique" ∧ zero a = false
      · simp [hc, hu]
      · simp only [hc, if_false]
        simp only [Option.some.injEq]
        constructor
        · rintro ⟨h, -⟩; cases h
        · intro h; exact absurd (h a rfl) hc

/-- The format is the same exactly when all of it is written. -/
theorem back_eq (plain : String → Bool) (zero : N → Bool) (color : C → C) (f : Fmt N C) (k : Known f) :
    back plain zero color f = f ↔ Written plain zero color f := by
  rw [Fmt.ext_iff]
  simp only [back, map_self, backLine_eq, backFamily_eq, backStretch_eq, backWeight_eq]
  constructor
  · rintro ⟨c1, c2, c3, c4, d1, -, h1, -, s1, s2, t, -, a1, a2, -, -, w⟩
    obtain ⟨s1, s2⟩ := (backSize_eq zero f k).1 ⟨s1, s2⟩
    refine ⟨?_, d1, h1, s1, s2, t, (backAngle_eq zero f k).1 ⟨a1, a2⟩, w⟩
    intro c hc
    simp only [List.mem_cons, List.not_mem_nil, or_false] at hc
    rcases hc with h | h | h | h
    · exact c1 c h.symm
    · exact c2 c h.symm
    · exact c3 c h.symm
    · exact c4 c h.symm
  · intro h
    obtain ⟨s1, s2⟩ := (backSize_eq zero f k).2 ⟨h.size, h.sizeUnit⟩
    obtain ⟨a1, a2⟩ := (backAngle_eq zero f k).2 h.angle
    exact ⟨fun c hc => h.colors c (by simp [hc]), fun c hc => h.colors c (by simp [hc]),
      fun c hc => h.colors c (by simp [hc]), fun c hc => h.colors c (by simp [hc]),
      h.deco, trivial, h.family, trivial, s1, s2, h.stretch, trivial, a1, a2, trivial, trivial, h.weight⟩

end Parce.TF

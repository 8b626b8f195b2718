import Verif.Lemmas.TextFormat

/-! The order in which the written properties are read does not matter. -/

namespace Parce.TF

variable {N C : Type}

/-- The properties that are written. -/
def writtenNames : List String := ["color", "background-color", "caret-color", "text-decoration",
  "font-family", "font-size", "font-style", "font-stretch", "font-kerning", "font-variant-caps",
  "font-variant-position", "font-weight"]

/-- What `readSize` makes of the size and its unit. -/
def rdSize (s : Option (WN N)) (u : Option (Option String)) (vs : List (Val N C)) : Option (WN N) × Option (Option String) :=
  ((readSize ({ size := s, sizeUnit := u } : Fmt N C) vs).size, (readSize ({ size := s, sizeUnit := u } : Fmt N C) vs).sizeUnit)

theorem readSize_eq (f : Fmt N C) : ∀ vs, readSize f vs =
    { f with size := (rdSize f.size f.sizeUnit vs).1, sizeUnit := (rdSize f.size f.sizeUnit vs).2 }
  | [] => rfl
  | v :: vs => by
    have ih := readSize_eq f vs
    simp only [rdSize, readSize] at ih ⊢
    split
    · rfl
    · split
      · rfl
      · exact ih

/-- What `readStretch` makes of the stretch. -/
def rdStretch (s : Option (WN N)) (vs : List (Val N C)) : Option (WN N) :=
  (readStretch ({ stretch := s } : Fmt N C) vs).stretch

theorem readStretch_eq : ∀ (vs : List (Val N C)) (f : Fmt N C), readStretch f vs = { f with stretch := rdStretch f.stretch vs }
  | [], f => rfl
  | v :: vs, f => by
    simp only [rdStretch, readStretch]
    split
    · exact readStretch_eq vs _
    · split
      · split
        · exact readStretch_eq vs _
        · exact readStretch_eq vs f
      · exact readStretch_eq vs f

/-- What `readWeight` makes of the weight. -/
def rdWeight (s : Option (WN N)) (vs : List (Val N C)) : Option (WN N) :=
  (readWeight ({ weight := s } : Fmt N C) vs).weight

theorem readWeight_eq (f : Fmt N C) : ∀ vs, readWeight f vs = { f with weight := rdWeight f.weight vs }
  | [] => rfl
  | v :: vs => by
    have ih := readWeight_eq f vs
    simp only [rdWeight, readWeight] at ih ⊢
    split
    · rfl
    · split
      · rfl
      · exact ih

/-- What `styleLoop` makes of the style, the angle and its unit. -/
def rdStyle (s : Option String) (a : Option N) (u : Option (Option String)) (vs : List (Val N C)) : Fmt N C :=
  styleLoop { style := s, angle := a, angleUnit := u } vs

theorem styleLoop_eq : ∀ (vs : List (Val N C)) (f : Fmt N C), styleLoop f vs =
    { f with
      style := (rdStyle f.style f.angle f.angleUnit vs).style
      angle := (rdStyle f.style f.angle f.angleUnit vs).angle
      angleUnit := (rdStyle f.style f.angle f.angleUnit vs).angleUnit }
  | [], f => rfl
  | v :: vs, f => by
    unfold rdStyle styleLoop
    by_cases h1 : v.isIn ["normal", "italic"] = true
    · simp only [h1, if_true]
    · by_cases h2 : v.isIn ["oblique"] = true
      · simp only [h1, h2, if_true]
        cases vs with
        | nil => rfl
        | cons n vs =>
          cases hn : n.number with
          | some x => simp [hn]
          | none =>
            simp only [hn]
            exact styleLoop_eq (n :: vs) { f with style := v.text }
      · simp only [h1, h2]
        exact styleLoop_eq vs f

/-- The attributes that a written property sets, as a function on formats. -/
def upd (p : String) (vs : List (Val N C)) (f : Fmt N C) : Fmt N C :=
  if p = "color" then { f with color := firstColor f.color vs }
  else if p = "background-color" then { f with background := firstColor f.background vs }
  else if p = "caret-color" then { f with caret := firstColor f.caret vs }
  else if p = "text-decoration" then
    { f with decoColor := firstColor f.decoColor vs, decoLine := some (decos [] vs),
             decoStyle := firstWord decoStyles f.decoStyle vs }
  else if p = "font-family" then { f with family := some (fams vs) }
  else if p = "font-size" then
    { f with size := (rdSize f.size f.sizeUnit vs).1, sizeUnit := (rdSize f.size f.sizeUnit vs).2 }
  else if p = "font-style" then
    { f with
      style := (rdStyle f.style f.angle f.angleUnit vs).style
      angle := (rdStyle f.style f.angle f.angleUnit vs).angle
      angleUnit := (rdStyle f.style f.angle f.angleUnit vs).angleUnit }
  else if p = "font-stretch" then { f with stretch := rdStretch f.stretch vs }
  else if p = "font-kerning" then { f with kerning := firstWord kernings f.kerning vs }
  else if p = "font-variant-caps" then { f with caps := firstWord capsWords f.caps vs }
  else if p = "font-variant-position" then { f with position := firstWord positions f.position vs }
  else { f with weight := rdWeight f.weight vs }

theorem readProp_upd (f : Fmt N C) (p : String) (hp : p ∈ writtenNames) (vs : List (Val N C)) (hv : vs ≠ []) :
    readProp f p vs = some (upd p vs f) := by
  simp only [writtenNames, List.mem_cons, List.not_mem_nil, or_false] at hp
  rcases hp with rfl | rfl | rfl | rfl | rfl | rfl | rfl | rfl | rfl | rfl | rfl | rfl
  · rfl
  · rfl
  · rfl
  · rfl
  · rfl
  · show some (readSize f vs) = _; rw [readSize_eq]; rfl
  · cases vs with
    | nil => exact absurd rfl hv
    | cons v vs => show some (styleLoop f (v :: vs)) = _; rw [styleLoop_eq]; rfl
  · show some (readStretch f vs) = _; rw [readStretch_eq]; rfl
  · rfl
  · rfl
  · rfl
  · show some (readWeight f vs) = _; rw [readWeight_eq]; rfl

theorem upd_comm (p q : String) (hp : p ∈ writtenNames) (hq : q ∈ writtenNames) (h : p ≠ q)
    (vs ws : List (Val N C)) (f : Fmt N C) : upd q ws (upd p vs f) = upd p vs (upd q ws f) := by
  simp only [writtenNames, List.mem_cons, List.not_mem_nil, or_false] at hp hq
  rcases hp with rfl | rfl | rfl | rfl | rfl | rfl | rfl | rfl | rfl | rfl | rfl | rfl <;>
    rcases hq with rfl | rfl | rfl | rfl | rfl | rfl | rfl | rfl | rfl | rfl | rfl | rfl <;>
    first
    | exact absurd rfl h
    | rfl

/-- Properties that are written, each once. -/
structure Fine (ps : List (String × List (Val N C))) : Prop where
  names : ∀ p ∈ ps, p.1 ∈ writtenNames ∧ p.2 ≠ []
  once : ps.Pairwise (fun a b => a.1 ≠ b.1)

theorem readAll_fine : ∀ (ps : List (String × List (Val N C))) (f : Fmt N C), (∀ p ∈ ps, p.1 ∈ writtenNames ∧ p.2 ≠ []) →
    readAll f ps = some (ps.foldl (fun f p => upd p.1 p.2 f) f)
  | [], _, _ => rfl
  | (p, vs) :: ps, f, h => by
    have hp := h (p, vs) (by simp)
    simp only [readAll, readProp_upd f p hp.1 vs hp.2, List.foldl_cons]
    exact readAll_fine ps _ (fun q hq => h q (by simp [hq]))

theorem foldl_perm {ps qs : List (String × List (Val N C))} (h : ps.Perm qs) (hf : Fine ps) :
    ∀ f : Fmt N C, ps.foldl (fun f p => upd p.1 p.2 f) f = qs.foldl (fun f p => upd p.1 p.2 f) f := by
  induction h with
  | nil => intro f; rfl
  | cons x h ih =>
    intro f
    exact ih ⟨fun p hp => hf.names p (by simp [hp]), (List.pairwise_cons.1 hf.once).2⟩ _
  | swap x y l =>
    intro f
    simp only [List.foldl_cons]
    have h1 := hf.names y (by simp)
    have h2 := hf.names x (by simp)
    rw [upd_comm y.1 x.1 h1.1 h2.1 ((List.pairwise_cons.1 hf.once).1 x (by simp))]
  | trans h1 h2 ih1 ih2 =>
    intro f
    rw [ih1 hf f]
    refine ih2 ⟨fun p hp => hf.names p (h1.mem_iff.2 hp), ?_⟩ f
    exact h1.pairwise hf.once (fun h => h.symm)

theorem opt_names {X : Type} (o : Option X) (p : String) (f : X → List (W N C)) :
    ((o.toList.map (fun x => (p, f x))).map (·.1)).Sublist [p] := by
  cases o <;> simp

theorem wn_names (zero : N → Bool) (p : String) (o : Option (WN N)) (u : Option String) :
    ((writeWN (C := C) zero p o u).map (·.1)).Sublist [p] := by
  unfold writeWN
  split
  · exact .refl _
  · split
    · simp
    · exact .refl _
  · simp

/-- The names are written in this order. -/
theorem write_names (plain : String → Bool) (zero : N → Bool) (f : Fmt N C) :
    ((write plain zero f).map (·.1)).Sublist writtenNames := by
  have hd : ((writeDeco f).map (·.1)).Sublist ["text-decoration"] := by
    unfold writeDeco; split <;> simp
  have hf : ((writeFamily plain f).map (·.1)).Sublist ["font-family"] := by
    unfold writeFamily; split <;> simp
  have hs : ((writeStyle zero f).map (·.1)).Sublist ["font-style"] := by
    unfold writeStyle
    split
    · simp
    · split
      · split <;> simp
      · simp
  have := ((opt_names f.color "color" (fun c => [W.hex (N := N) c])).append
    (opt_names f.background "background-color" (fun c => [W.hex (N := N) c]))).append
    (opt_names f.caret "caret-color" (fun c => [W.hex (N := N) c]))
  have := this.append hd |>.append hf |>.append (wn_names (C := C) zero "font-size" f.size (f.sizeUnit.getD none)) |>.append hs
    |>.append (wn_names (C := C) zero "font-stretch" f.stretch none)
    |>.append (opt_names f.kerning "font-kerning" (fun s => [W.word (N := N) (C := C) s]))
    |>.append (opt_names f.caps "font-variant-caps" (fun s => [W.word (N := N) (C := C) s]))
    |>.append (opt_names f.position "font-variant-position" (fun s => [W.word (N := N) (C := C) s]))
    |>.append (wn_names (C := C) zero "font-weight" f.weight none)
  simp only [write, writeColor, writeWord, List.map_append]
  exact this

theorem write_ne (plain : String → Bool) (zero : N → Bool) (f : Fmt N C) : ∀ p ∈ write plain zero f, p.2 ≠ [] := by
  have ho : ∀ {X : Type} (o : Option X) (p : String) (g : X → W N C), ∀ q ∈ o.toList.map (fun x => (p, [g x])), q.2 ≠ [] := by
    intro X o p g q hq
    cases o <;> simp at hq
    rw [hq]; simp
  have hw : ∀ (p : String) (o : Option (WN N)) (u : Option String), ∀ q ∈ writeWN (C := C) zero p o u, q.2 ≠ [] := by
    intro p o u q hq
    unfold writeWN at hq
    split at hq
    · simp at hq; rw [hq]; simp
    · split at hq
      · cases hq
      · simp at hq; rw [hq]; simp
    · cases hq
  intro p hp
  simp only [write, writeColor, writeWord, List.mem_append] at hp
  rcases hp with (((((((((((h | h) | h) | h) | h) | h) | h) | h) | h) | h) | h)) | h
  · exact ho _ _ _ p h
  · exact ho _ _ _ p h
  · exact ho _ _ _ p h
  · unfold writeDeco at h
    split at h
    · cases h
    · rename_i hne
      rw [List.mem_singleton] at h; rw [h]; exact fun hc => hne hc
  · unfold writeFamily at h
    split at h
    · cases h
    · rename_i hne
      simp at h; rw [h]; simpa using fun hc => hne hc
  · exact hw _ _ _ p h
  · unfold writeStyle at h
    split at h
    · cases h
    · split at h
      · split at h <;> simp at h <;> rw [h] <;> simp
      · simp at h; rw [h]; simp
  · exact hw _ _ _ p h
  · exact ho _ _ _ p h
  · exact ho _ _ _ p h
  · exact ho _ _ _ p h
  · exact hw _ _ _ p h

theorem write_fine (plain : String → Bool) (zero : N → Bool) (color : C → C) (f : Fmt N C) :
    Fine (reread color (write plain zero f)) := by
  have hn := write_names plain zero f
  refine ⟨?_, ?_⟩
  · intro p hp
    simp only [reread, List.mem_map] at hp
    obtain ⟨q, hq, rfl⟩ := hp
    refine ⟨hn.subset (List.mem_map_of_mem hq), ?_⟩
    simpa using write_ne plain zero f q hq
  · have h1 : ((write plain zero f).map (·.1)).Nodup := hn.nodup (by decide)
    rw [List.Nodup, List.pairwise_map] at h1
    rw [reread, List.pairwise_map]
    exact h1

/-- Reading the written properties in another order gives the same. -/
theorem read_perm (plain : String → Bool) (zero : N → Bool) (color : C → C) (f : Fmt N C)
    (qs : List (String × List (W N C))) (h : qs.Perm (write plain zero f)) :
    read (reread color qs) = read (reread color (write plain zero f)) := by
  have hf := write_fine plain zero color f
  have hp : (reread color (write plain zero f)).Perm (reread color qs) := (h.map _).symm
  unfold read
  rw [readAll_fine _ _ hf.names, readAll_fine _ _ (fun p hp' => hf.names p (hp.mem_iff.2 hp')), foldl_perm hp hf]

end Parce.TF

import Verif.Lemmas.NumbersCompound
/-!
# Texts with compound number words
-/
namespace Parce.Num
variable {u : Uni} {t : List Char} {C : Comp} {X : Lexis} {J : Pat Char}

/-- A word for hundred, thousand or million. -/
def IsBig (k : Kind) : Prop := k = .hundred ∨ k = .thousand ∨ k = .million

/-- After a word that stands alone comes a big one. -/
def Alone : List Kind → Prop
  | a :: b :: ks => ((∃ v, a = .teen v) → IsBig b) ∧ Alone (b :: ks)
  | _ => True

theorem Alone.tail {a : Kind} {ks : List Kind} (h : Alone (a :: ks)) : Alone ks := by
  cases ks with
  | nil => trivial
  | cons b ks => exact h.2

theorem Alone.append {ks ls : List Kind} (h1 : Alone ks) (h2 : Alone ls)
    (h : ∀ b ∈ ls.head?, IsBig b) : Alone (ks ++ ls) := by
  induction ks with
  | nil => exact h2
  | cons a ks ih =>
    cases ks with
    | nil =>
      cases ls with
      | nil => trivial
      | cons b ls => exact ⟨fun _ => h b (by simp), h2⟩
    | cons b ks => exact ⟨h1.1, ih h1.2⟩

theorem alone_with {S : List Kind → Nat → Prop} {h : Kind} {f : Nat} (hS : ∀ ks a, S ks a → Alone ks) (hh : IsBig h)
    {ks : List Kind} {a : Nat} (hw : With S h f ks a) : Alone ks := by
  have hcons : ∀ {ls : List Kind}, Alone ls → Alone (h :: ls) := by
    intro ls hl
    cases ls with
    | nil => trivial
    | cons b ls =>
      refine ⟨?_, hl⟩
      rintro ⟨v, rfl⟩
      rcases hh with h | h | h <;> cases h
  have hhead : ∀ {ls : List Kind}, ∀ b ∈ (h :: ls).head?, IsBig b := by
    intro ls b hb
    simp only [List.head?_cons, Option.mem_def, Option.some.injEq] at hb
    exact hb ▸ hh
  cases hw with
  | plain h1 => exact hS _ _ h1
  | bare => trivial
  | times h1 => exact (hS _ _ h1).append (ls := [h]) trivial hhead
  | bareAnd h1 => exact hcons (hS _ _ h1)
  | timesAnd h1 h2 => exact (hS _ _ h1).append (hcons (hS _ _ h2)) hhead

theorem alone_phrase {ks : List Kind} {n : Nat} (h : Phrase ks n) : Alone ks := by
  refine alone_with (fun _ _ => alone_with (fun _ _ => alone_with (fun ks a h => ?_) (Or.inl rfl)) (Or.inr (Or.inl rfl))) (Or.inr (Or.inr rfl)) h
  cases h with
  | unit v => trivial
  | teen v => trivial
  | tens v => trivial
  | both v w => exact ⟨fun ⟨x, hx⟩ => (by cases hx), trivial⟩

/-- The words begin with a letter. -/
theorem has_letter (ok : C.OK X) {w : Word} {k : Kind} (h : X.Has w k) : ∃ c r, w = c :: r ∧ isLetter c = true := by
  have hgen : ∀ {w x : Word}, w ∈ C.all ++ C.tens ++ C.bigs ++ C.joins → ∃ c r, w ++ x = c :: r ∧ isLetter c = true := by
    intro w x hw
    obtain ⟨h1, h2⟩ := ok.letter hw
    obtain ⟨c, r, rfl⟩ := List.exists_cons_of_ne_nil h1
    exact ⟨c, r ++ x, rfl, h2 c (List.mem_cons_self ..)⟩
  have hg0 : ∀ {w : Word}, w ∈ C.all ++ C.tens ++ C.bigs ++ C.joins → ∃ c r, w = c :: r ∧ isLetter c = true := by
    intro w hw
    have := hgen (x := []) hw
    simpa using this
  have hmem : ∀ {x : String} {n : Nat} {l : List (String × Nat)} {ws : List Word}, (x, n) ∈ l →
      l.all (fun x => ws.contains x.1.toList && look C.values x.1.toList == some x.2) = true → x.toList ∈ ws := by
    intro x n l ws hx hc
    have := List.all_eq_true.1 hc _ hx
    simp only [Bool.and_eq_true, List.contains_iff_mem] at this
    exact this.1
  cases h with
  | teen hx => exact hg0 (by simp only [List.mem_append, mem_all_n]; exact Or.inl (Or.inl (Or.inl (Or.inl (hmem hx ok.teens)))))
  | unit hx => exact hg0 (by simp only [List.mem_append, mem_all_n]; exact Or.inl (Or.inl (Or.inl (Or.inr (Or.inl (hmem hx ok.units))))))
  | small hx =>
    have := List.all_eq_true.1 ok.small _ hx
    simp only [Bool.and_eq_true, List.contains_iff_mem] at this
    exact hg0 (by simp only [List.mem_append, mem_all_n]; exact Or.inl (Or.inl (Or.inl (Or.inr (Or.inr this.1.1.2)))))
  | both hx _ _ => exact hgen (by simp only [List.mem_append, mem_all_n]; exact Or.inl (Or.inl (Or.inl (Or.inr (Or.inl (hmem hx ok.units))))))
  | hundred => rw [ok.big.1]; exact hg0 (by simp [Comp.bigs])
  | thousand => rw [ok.big.2.1]; exact hg0 (by simp [Comp.bigs])
  | million => rw [ok.big.2.2]; exact hg0 (by simp [Comp.bigs])

/-- After the words: the end, or another character. -/
def CEnds (u : Uni) (r : List Char) : Prop := ∀ c ∈ r.head?, Strange u c

theorem cnoskip_written (ok : C.OK X) (hsep : SepOK u) {ks : List Kind} {s r : List Char} (h : X.Written u ks s) (hr : CEnds u r) :
    ∀ c ∈ (s ++ r).head?, isSkip u c = false := by
  cases h with
  | nil =>
    intro c hc
    have := (hr c hc).1
    rw [sep_skip] at this
    simpa using this
  | @word k ks w v s t hw hv hs ht =>
    intro c hc
    obtain ⟨x, xs, rfl, hx⟩ := has_letter ok hw
    cases v with
    | nil => exact absurd hv.1 (by simp)
    | cons c' v' =>
      simp only [List.cons_append, List.head?_cons, Option.mem_def, Option.some.injEq] at hc
      subst hc
      have := hv.1
      simp only [List.map_cons, List.cons.injEq] at this
      exact letter_noskip hsep (this.1 ▸ hx)

/-- What comes after a word that stands alone. -/
theorem after_written (ok : C.OK X) {k : Kind} {ks : List Kind} {s t' r : List Char} (hal : Alone (k :: ks)) (hk : ∃ n, k = .teen n)
    (hs : ∀ c ∈ s, Sep u c) (h : X.Written u ks t') (hr : CEnds u r) : After u C (s ++ (t' ++ r)) := by
  refine ⟨s, t' ++ r, rfl, hs, ?_⟩
  cases h with
  | nil => exact Or.inl hr
  | @word k' ks' w v s' t'' hw hv _ _ =>
    have hb : IsBig k' := hal.1 hk
    refine Or.inr ⟨w, ?_, ?_⟩
    · cases hw with
      | hundred => rw [ok.big.1]; simp [Comp.bigs]
      | thousand => rw [ok.big.2.1]; simp [Comp.bigs]
      | million => rw [ok.big.2.2]; simp [Comp.bigs]
      | _ => rcases hb with h | h | h <;> cases h
    · rw [List.append_assoc, List.append_assoc, List.map_append, hv.1]
      exact List.prefix_append _ _

/-- The words are read. -/
theorem gm_compounds (ok : C.OK X) (hJ : JoinOK u C J) (hsep : SepOK u) {ks : List Kind} {s : List Char} (h : X.Written u ks s) :
    ∀ {p : Nat} {r : List Char} {m : M}, t.drop p = s ++ r → CEnds u r → Wf m.fs → Alone ks →
    ∃ m', GM u (C.tongue u J) t p m (Before p) (p + s.length) m' (Before (p + s.length)) ∧ Wf m'.fs ∧ Eqv m' (feeds m ks) := by
  induction h with
  | nil => intro p r m _ _ hw _; exact ⟨m, .refl (fun _ h => h), hw, rfl, fun _ => rfl⟩
  | @word k ks w v s t' hw hv hs hwr ih =>
    intro p r m ht hr hwf hal
    have ht1 : t.drop p = v ++ (s ++ (t' ++ r)) := by rw [ht]; simp
    have hreads := creads ok hJ hsep ht1 hw hv (fun hk => after_written ok hal hk hs hwr hr)
    have h1 := (gm_word hreads hwf (fun _ _ _ => trivial)).mono (Q' := Before (p + v.length)) (fun _ h => h) (by
      rintro c rfl e he
      cases he)
    have hwf1 := wf_feed hwf k
    have ht2 : t.drop (p + v.length) = s ++ (t' ++ r) := by rw [← List.drop_drop, ht1, List.drop_left]
    have hlen : p + (v ++ s ++ t').length = p + v.length + s.length + t'.length := by simp; omega
    rw [hlen]
    by_cases hse : s = []
    · subst hse
      obtain ⟨m', h2, h3, h4⟩ := ih (m := feed m k) ht2 hr hwf1 hal.tail
      exact ⟨m', h1.trans h2, h3, h4⟩
    · have hbl : BlankAt u t (p + v.length) s := ⟨hse, ⟨_, ht2, cnoskip_written ok hsep hwr hr⟩, fun c hc => sep_skip.1 (hs c hc)⟩
      have h5 := gm_blank (g := C.tongue u J) hbl hwf1
      have ht3 : t.drop (p + v.length + s.length) = t' ++ r := by rw [← List.drop_drop, ht2, List.drop_left]
      obtain ⟨m', h2, h3, h4⟩ := ih (m := rest (feed m k)) ht3 hr (wf_rest hwf1) hal.tail
      exact ⟨m', h1.trans (h5.trans h2), h3, h4.trans ((Eqv.rest (feed m k)).feeds ks)⟩

/-- Nothing is found where no letter is. -/
theorem none_miss (ok : C.OK X) {p : Nat} (hp : p ≤ t.length) (hsk : Fails t (.plus (.set (isSkip u))) p)
    (h : ∀ c ∈ (folded u t p).head?, isLetter c = false) (l : NL) : rxMatch ((rules u (C.tongue u J) l).map (·.pat)) t p = none := by
  have key : ∀ x ∈ C.all ++ C.tens ++ C.bigs ++ C.joins, ¬ x <+: folded u t p := by
    intro x hx hxp
    obtain ⟨h1, h2⟩ := ok.letter hx
    obtain ⟨x0, xs, rfl⟩ := List.exists_cons_of_ne_nil h1
    obtain ⟨r, hr⟩ := hxp
    have := h x0 (by rw [← hr]; simp)
    rw [h2 x0 (List.mem_cons_self ..)] at this
    cases this
  by_cases hl : l = .n99
  · subst hl
    exact n99_miss hp hsk (fun x hx => key x (by simp only [List.mem_append]; exact Or.inl (Or.inl (Or.inl hx))))
  · refine other_miss hp hsk hl (fun x h2 h3 h6 hor => key x ?_)
    rcases hor with h | h | h
    · rw [h2 h]; simp [Comp.bigs]
    · rw [h3 h]; simp [Comp.bigs]
    · rw [h6 h]; simp [Comp.bigs]

theorem cjunk (ok : C.OK X) {p : Nat} {c : Char} {r : List Char} (ht : t.drop p = c :: r) (hc : Strange u c) : JunkAt u (C.tongue u J) t p := by
  have hlt : p < t.length := by
    have := congrArg List.length ht
    simp at this
    omega
  have hget : t[p]? = some c := drop_get ht
  refine ⟨hlt, fun l hl => none_miss ok (Nat.le_of_lt hlt) (skip_fails hget ?_) ?_ l⟩
  · have := hc.1
    rw [sep_skip] at this
    simpa using this
  · intro x hx
    rw [folded, ht] at hx
    simp only [List.map_cons, List.head?_cons, Option.mem_def, Option.some.injEq] at hx
    exact hx ▸ hc.2

theorem cno_more (ok : C.OK X) (l : NL) : rxMatch ((rules u (C.tongue u J) l).map (·.pat)) t t.length = none := by
  have hget : t[t.length]? = none := by simp
  refine none_miss ok (Nat.le_refl _) ?_ ?_ l
  · rintro q ⟨r, ⟨_, y, h1, _⟩, _⟩
    rw [hget] at h1
    cases h1
  · intro x hx
    simp [folded] at hx

theorem gm_ctexts (ok : C.OK X) (hJ : JoinOK u C J) (hsep : SepOK u) {ns : List Nat} {s : List Char} (h : X.Texts u ns s) :
    ∀ {p : Nat} {m : M} {d : List Nat}, p ≤ t.length → t.drop p = s → Wf m.fs → Eqv m ⟨d, []⟩ →
    ∃ m' P, GM u (C.tongue u J) t p m (Before p) t.length m' P ∧ Wf m'.fs ∧ m'.close = d ++ ns := by
  have hnil : ∀ {s r : List Char}, (∀ c ∈ s, Sep u c) → CEnds u r → ∀ {p : Nat} {m : M} {d : List Nat}, t.drop p = s ++ r → Wf m.fs → Eqv m ⟨d, []⟩ →
      ∃ m', GM u (C.tongue u J) t p m (Before p) (p + s.length) m' (Before (p + s.length)) ∧ Wf m'.fs ∧ m'.close = d := by
    intro s r hs hr p m d ht hw he
    obtain ⟨m1, h1, h2, h3, h4⟩ := gm_seps (g := C.tongue u J) ht hs (by simpa using cnoskip_written ok hsep (.nil : X.Written u [] []) hr) hw
    exact ⟨m1, h1, h2, by rw [h3.1, he.1]; simp [M.close, closeL]⟩
  have hseg : ∀ {n : Nat} {ks : List Kind} {s t' r : List Char}, (∀ c ∈ s, Sep u c) → Phrase ks n → X.Written u ks t' → CEnds u r →
      ∀ {p : Nat} {m : M} {d : List Nat}, t.drop p = s ++ (t' ++ r) → Wf m.fs → Eqv m ⟨d, []⟩ →
      ∃ m', GM u (C.tongue u J) t p m (Before p) (p + s.length + t'.length) m' (Before (p + s.length + t'.length)) ∧ Wf m'.fs ∧ m'.close = d ++ [n] := by
    intro n ks s t' r hs hn hwr hr p m d ht hw he
    obtain ⟨m1, h1, h2, h3, h4⟩ := gm_seps (g := C.tongue u J) ht hs (cnoskip_written ok hsep hwr hr) hw
    have ht2 : t.drop (p + s.length) = t' ++ r := by rw [← List.drop_drop, ht, List.drop_left]
    obtain ⟨m', h5, h6, h7⟩ := gm_compounds ok hJ hsep hwr (m := m1) ht2 hr h2 (alone_phrase hn)
    refine ⟨m', h1.trans h5, h6, ?_⟩
    rw [h7.1, ((h3.trans he).feeds ks).1]
    have := feeds_numbers (R := Apart) (fun a b h => h) (Numbers.cons hn .nil (by simp)) d
    rwa [List.append_nil] at this
  have hstrange : ∀ {c : Char} {r : List Char}, Strange u c → CEnds u (c :: r) := by
    intro c r hc x hx
    simp only [List.head?_cons, Option.mem_def, Option.some.injEq] at hx
    exact hx ▸ hc
  have hgo : ∀ {ms : List Nat} {c : Char} {r : List Char} {q : Nat} {m' : M}, Strange u c → t.drop q = c :: r → Wf m'.fs →
      (∀ {p : Nat} {m : M} {d : List Nat}, p ≤ t.length → t.drop p = r → Wf m.fs → Eqv m ⟨d, []⟩ →
        ∃ m' P, GM u (C.tongue u J) t p m (Before p) t.length m' P ∧ Wf m'.fs ∧ m'.close = d ++ ms) →
      ∃ m'' P, GM u (C.tongue u J) t q m' (Before q) t.length m'' P ∧ Wf m''.fs ∧ m''.close = m'.close ++ ms := by
    intro ms c r q m' hc ht2 h2 ih
    have hj := cjunk (J := J) ok ht2 hc
    have h4 := gm_junk (g := C.tongue u J) hj h2
    have ht3 : t.drop (q + 1) = r := by rw [← List.drop_drop, ht2]; rfl
    obtain ⟨m'', P, h5, h6, h7⟩ := ih (m := ⟨m'.close, fullFs⟩) (d := m'.close) (Nat.succ_le_of_lt hj.lt) ht3 wf_full
      (Eqv.rest ⟨m'.close, []⟩)
    exact ⟨m'', P, h4.trans (h5.mono (by rintro c rfl e he; cases he) (fun _ h => h)), h6, h7⟩
  induction h with
  | @none s hs =>
    intro p m d hp ht hw he
    obtain ⟨m', h1, h2, h3⟩ := hnil (r := []) hs (fun c hc => by cases hc) (p := p) (m := m) (by rw [ht]; simp) hw he
    have : p + s.length = t.length := by
      have := congrArg List.length ht
      simp at this
      omega
    rw [this] at h1
    exact ⟨m', _, h1, h2, by rw [h3, List.append_nil]⟩
  | @last n ks s t' hs hn hwr =>
    intro p m d hp ht hw he
    obtain ⟨m', h1, h2, h3⟩ := hseg (r := []) hs hn hwr (fun c hc => by cases hc) (p := p) (m := m) (by rw [ht]; simp) hw he
    have : p + s.length + t'.length = t.length := by
      have := congrArg List.length ht
      simp at this
      omega
    rw [this] at h1
    exact ⟨m', _, h1, h2, h3⟩
  | @skip ms s r c hs hc _ ih =>
    intro p m d hp ht hw he
    obtain ⟨m', h1, h2, h3⟩ := hnil (r := c :: r) hs (hstrange hc) (p := p) (m := m) ht hw he
    have ht2 : t.drop (p + s.length) = c :: r := by rw [← List.drop_drop, ht, List.drop_left]
    obtain ⟨m'', P, h5, h6, h7⟩ := hgo hc ht2 h2 ih
    exact ⟨m'', P, h1.trans h5, h6, by rw [h7, h3]⟩
  | @more n ms ks s t' r c hs hn hwr hc _ ih =>
    intro p m d hp ht hw he
    have ht1 : t.drop p = s ++ (t' ++ (c :: r)) := by rw [ht]; simp
    obtain ⟨m', h1, h2, h3⟩ := hseg (r := c :: r) hs hn hwr (hstrange hc) (p := p) (m := m) ht1 hw he
    have ht2 : t.drop (p + s.length + t'.length) = c :: r := by rw [← List.drop_drop, ← List.drop_drop, ht1, List.drop_left, List.drop_left]
    obtain ⟨m'', P, h5, h6, h7⟩ := hgo hc ht2 h2 ih
    exact ⟨m'', P, h1.trans h5, h6, by rw [h7, h3, List.append_assoc]; rfl⟩

end Parce.Num

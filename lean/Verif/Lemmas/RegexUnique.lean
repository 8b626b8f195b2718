import Verif.Lemmas.RegexBuild
/-!
# Lemmas for regular expressions: the text determines its meaning
-/
namespace Parce.Rx

/-! ## Character classes -/

/-- A character or a range in a class. -/
inductive IsElem : Word → (Char → Prop) → Prop
  | char (s : Word) (c : Char) : IsClassChar s c → IsElem s (fun d => d = c)
  | range (s t : Word) (a b : Char) : IsClassChar s a → IsClassChar t b →
      IsElem (s ++ '-' :: t) (fun d => a.toNat ≤ d.toNat ∧ d.toNat ≤ b.toNat)

/-- A class as a list of elements. -/
inductive IsElems : Word → (Char → Prop) → Prop
  | nil : IsElems [] (fun _ => False)
  | cons (s t : Word) (P Q : Char → Prop) : IsElem s P → IsElems t Q → IsElems (s ++ t) (fun d => P d ∨ Q d)

theorem setExt {P Q : Char → Prop} (h : ∀ c, P c ↔ Q c) : P = Q := funext (fun c => propext (h c))

theorem isElems_append {s t : Word} {P Q : Char → Prop} (h : IsElems s P) (h2 : IsElems t Q) :
    IsElems (s ++ t) (fun d => P d ∨ Q d) := by
  induction h with
  | nil => rw [List.nil_append, show (fun d => False ∨ Q d) = Q from setExt (fun c => by simp)]; exact h2
  | cons s u P R hs hu ih =>
    rw [List.append_assoc]
    have := IsElems.cons _ _ _ _ hs ih
    rwa [show (fun d => (P d ∨ R d) ∨ Q d) = (fun d => P d ∨ R d ∨ Q d) from setExt (fun c => or_assoc)]

theorem isElems_one {s : Word} {P : Char → Prop} (h : IsElem s P) : IsElems s P := by
  have := IsElems.cons _ _ _ _ h .nil
  rwa [List.append_nil, show (fun d => P d ∨ False) = P from setExt (fun c => by simp)] at this

theorem isClass_elems {s : Word} {P : Char → Prop} (h : IsClass s P) : IsElems s P := by
  induction h with
  | nil => exact .nil
  | char s c h => exact isElems_one (.char s c h)
  | range s t a b h1 h2 _ => exact isElems_one (.range s t a b h1 h2)
  | append s t P Q _ _ ih1 ih2 => exact isElems_append ih1 ih2

theorem classChar_det {s t x y : Word} {a b : Char} (h1 : IsClassChar s a) (h2 : IsClassChar t b)
    (h : s ++ x = t ++ y) : s = t ∧ a = b ∧ x = y := by
  cases h1 with
  | lit c hc =>
    cases h2 with
    | lit d hd => simp at h; obtain ⟨rfl, rfl⟩ := h; simp
    | esc d hd => simp at h; rw [h.1] at hc; exact absurd (by decide) hc
  | esc c hc =>
    cases h2 with
    | lit d hd => simp at h; rw [← h.1] at hd; exact absurd (by decide) hd
    | esc d hd => simp at h; obtain ⟨rfl, rfl⟩ := h; simp

/-- Does not start with one of these. -/
def NoHead (cs : List Char) (x : Word) : Prop := ∀ c y, x = c :: y → c ∉ cs

theorem classChar_head {s : Word} {a : Char} (h : IsClassChar s a) (x : Word) : NoHead ['-', ']'] (s ++ x) := by
  intro c y hc
  cases h with
  | lit d hd =>
    simp at hc
    rw [← hc.1]
    intro h
    apply hd
    revert h
    simp only [List.mem_cons, List.not_mem_nil, or_false]
    rintro (h | h) <;> rw [h] <;> decide
  | esc d hd =>
    simp at hc
    rw [← hc.1]
    decide

theorem elem_head {s : Word} {P : Char → Prop} (h : IsElem s P) (x : Word) : NoHead ['-', ']'] (s ++ x) := by
  cases h with
  | char s c h => exact classChar_head h x
  | range s t a b h1 h2 => rw [List.append_assoc]; exact classChar_head h1 _

theorem elem_det {s t x y : Word} {P Q : Char → Prop} (h1 : IsElem s P) (h2 : IsElem t Q)
    (hx : NoHead ['-'] x) (hy : NoHead ['-'] y) (h : s ++ x = t ++ y) : s = t ∧ P = Q ∧ x = y := by
  cases h1 with
  | char s c h1 =>
    cases h2 with
    | char t d h2 => obtain ⟨rfl, rfl, rfl⟩ := classChar_det h1 h2 h; simp
    | range t u a b h2 h3 =>
      rw [List.append_assoc] at h
      obtain ⟨rfl, rfl, rfl⟩ := classChar_det h1 h2 h
      exact absurd (by simp) (hx '-' (u ++ y) rfl)
  | range s u a b h1 h3 =>
    cases h2 with
    | char t d h2 =>
      rw [List.append_assoc] at h
      obtain ⟨rfl, rfl, rfl⟩ := classChar_det h1 h2 h
      exact absurd (by simp) (hy '-' (u ++ x) rfl)
    | range t v a' b' h2 h4 =>
      rw [List.append_assoc, List.append_assoc] at h
      obtain ⟨rfl, rfl, he⟩ := classChar_det h1 h2 h
      simp only [List.cons_append, List.cons.injEq, true_and] at he
      obtain ⟨rfl, rfl, rfl⟩ := classChar_det h3 h4 he
      simp

theorem elems_head {s : Word} {P : Char → Prop} (h : IsElems s P) (x : Word) : NoHead ['-'] (s ++ ']' :: x) := by
  intro c y hc
  cases h with
  | nil => simp at hc; rw [← hc.1]; decide
  | cons s t P Q hs ht =>
    rw [List.append_assoc] at hc
    have := elem_head hs _ c y hc
    simp at this ⊢
    exact this.1

theorem elems_det {s : Word} {P : Char → Prop} (h1 : IsElems s P) : ∀ {t x y : Word} {Q : Char → Prop},
    IsElems t Q → s ++ ']' :: x = t ++ ']' :: y → s = t ∧ P = Q ∧ x = y := by
  induction h1 with
  | nil =>
    intro t x y Q h2 h
    cases h2 with
    | nil => simp at h; simp [h]
    | cons s u P Q hs hu =>
      rw [List.append_assoc] at h
      exact absurd (by simp) (elem_head hs _ ']' x h.symm)
  | cons s u P R hs hu ih =>
    intro t x y Q h2 h
    cases h2 with
    | nil =>
      rw [List.append_assoc] at h
      exact absurd (by simp) (elem_head hs _ ']' y h)
    | cons s' u' P' R' hs' hu' =>
      rw [List.append_assoc, List.append_assoc] at h
      obtain ⟨rfl, rfl, he⟩ := elem_det hs hs' (elems_head hu _) (elems_head hu' _) h
      obtain ⟨rfl, rfl, rfl⟩ := ih hu' he
      simp

/-! ## Numbers -/

theorem num_det {ds es x y : Word} {m n : Nat} (h1 : IsNum ds m) (h2 : IsNum es n) {a b : Char}
    (ha : ¬ a.isDigit) (hb : ¬ b.isDigit) (h : ds ++ a :: x = es ++ b :: y) : ds = es ∧ m = n ∧ a :: x = b :: y := by
  have key : ∀ (ds es : Word), (∀ d ∈ ds, d.isDigit) → (∀ d ∈ es, d.isDigit) → ds ++ a :: x = es ++ b :: y →
      ds = es ∧ a :: x = b :: y := by
    intro ds
    induction ds with
    | nil =>
      intro es _ he h
      cases es with
      | nil => exact ⟨rfl, h⟩
      | cons e es =>
        simp at h
        exact absurd (he e List.mem_cons_self) (h.1 ▸ ha)
    | cons d ds ih =>
      intro es hd he h
      cases es with
      | nil =>
        simp at h
        exact absurd (hd d List.mem_cons_self) (h.1 ▸ hb)
      | cons e es =>
        simp only [List.cons_append, List.cons.injEq] at h
        obtain ⟨h1, h2⟩ := ih es (fun d h => hd d (List.mem_cons_of_mem _ h)) (fun d h => he d (List.mem_cons_of_mem _ h)) h.2
        exact ⟨by rw [h.1, h1], h2⟩
  obtain ⟨h3, h4⟩ := key ds es h1.2.1 h2.2.1 h
  exact ⟨h3, by rw [← h1.2.2, ← h2.2.2, h3], h4⟩

theorem num_head {ds x : Word} {n : Nat} (h : IsNum ds n) : ∃ d ds', ds ++ x = d :: ds' ∧ d.isDigit := by
  obtain ⟨h1, h2, _⟩ := h
  cases ds with
  | nil => exact absurd rfl h1
  | cons d ds => exact ⟨d, ds ++ x, rfl, h2 d List.mem_cons_self⟩

/-! ## Expressions -/

/-- The text does not start with something that belongs to what comes before. -/
def Follow : Syn → Word → Prop
  | .atom, _ => True
  | .piece, x => NoHead ['?', '{'] x
  | .seq, x => x = [] ∨ ∃ c y, x = c :: y ∧ c ∈ [')', '|']
  | .alt, x => x = [] ∨ ∃ y, x = ')' :: y

theorem den_head {k : Syn} {s : Word} {L : Lang} (h : Den k s L) : (k = .atom ∨ k = .piece) →
    ∃ c t, s = c :: t ∧ c ∉ ['?', '{', ')', '|'] := by
  induction h with
  | lit c hc =>
    refine fun _ => ⟨c, [], rfl, fun h => hc ?_⟩
    revert h
    simp only [List.mem_cons, List.not_mem_nil, or_false]
    rintro (h | h | h | h) <;> rw [h] <;> decide
  | esc c _ => exact fun _ => ⟨'\\', _, rfl, by decide⟩
  | cls s P _ _ => exact fun _ => ⟨'[', _, rfl, by decide⟩
  | group s L _ _ => exact fun _ => ⟨'(', _, rfl, by decide⟩
  | once s L _ ih => exact fun _ => ih (Or.inl rfl)
  | opt s L _ ih => obtain ⟨c, t, rfl, hc⟩ := ih (Or.inl rfl); exact fun _ => ⟨c, _, rfl, hc⟩
  | exact s ds n L _ _ ih => obtain ⟨c, t, rfl, hc⟩ := ih (Or.inl rfl); exact fun _ => ⟨c, _, rfl, hc⟩
  | between s ds es m n L _ _ _ _ ih => obtain ⟨c, t, rfl, hc⟩ := ih (Or.inl rfl); exact fun _ => ⟨c, _, rfl, hc⟩
  | upto s es n L _ _ ih => obtain ⟨c, t, rfl, hc⟩ := ih (Or.inl rfl); exact fun _ => ⟨c, _, rfl, hc⟩
  | nil => rintro (h | h) <;> cases h
  | cons => rintro (h | h) <;> cases h
  | single => rintro (h | h) <;> cases h
  | or => rintro (h | h) <;> cases h

theorem seq_follow {s : Word} {L : Lang} (h : Den .seq s L) {x : Word} (hx : Follow .seq x) : Follow .piece (s ++ x) := by
  intro c y hc
  cases h with
  | nil =>
    rcases hx with rfl | ⟨d, z, rfl, hd⟩
    · simp at hc
    · simp only [List.nil_append, List.cons.injEq] at hc
      rw [← hc.1]
      revert hd
      simp only [List.mem_cons, List.not_mem_nil, or_false]
      rintro (h | h) <;> rw [h] <;> decide
  | cons s t L M h1 h2 =>
    obtain ⟨d, z, rfl, hd⟩ := den_head h1 (Or.inr rfl)
    simp only [List.cons_append, List.cons.injEq] at hc
    rw [← hc.1]
    intro h
    apply hd
    simp only [List.mem_cons, List.not_mem_nil, or_false] at h ⊢
    rcases h with h | h
    · exact Or.inl h
    · exact Or.inr (Or.inl h)

theorem close_seq {x : Word} (h : Follow .alt x) : Follow .seq x := by
  rcases h with h | ⟨y, rfl⟩
  · exact Or.inl h
  · exact Or.inr ⟨')', y, rfl, by decide⟩

theorem den_det {k : Syn} {s : Word} {L : Lang} (h1 : Den k s L) : ∀ {t x y : Word} {M : Lang}, Den k t M →
    Follow k x → Follow k y → s ++ x = t ++ y → s = t ∧ L = M ∧ x = y := by
  induction h1 with
  | lit c hc =>
    intro t x y M h2 _ _ h
    cases h2 with
    | lit d hd => simp at h; obtain ⟨rfl, rfl⟩ := h; simp
    | esc d hd => simp at h; rw [h.1] at hc; exact absurd (by decide) hc
    | cls u P _ _ => simp at h; rw [h.1] at hc; exact absurd (by decide) hc
    | group u L _ => simp at h; rw [h.1] at hc; exact absurd (by decide) hc
  | esc c hc =>
    intro t x y M h2 _ _ h
    cases h2 with
    | lit d hd => simp at h; rw [← h.1] at hd; exact absurd (by decide) hd
    | esc d hd => simp at h; obtain ⟨rfl, rfl⟩ := h; simp
    | cls u P _ _ => simp at h
    | group u L _ => simp at h
  | cls s P hP hne =>
    intro t x y M h2 _ _ h
    cases h2 with
    | lit d hd => simp at h; rw [← h.1] at hd; exact absurd (by decide) hd
    | esc d hd => simp at h
    | cls u Q hQ _ =>
      simp only [List.cons_append, List.append_assoc, List.cons.injEq, true_and, List.nil_append] at h
      obtain ⟨rfl, rfl, rfl⟩ := elems_det (isClass_elems hP) (isClass_elems hQ) h
      simp
    | group u L _ => simp at h
  | group s L hs ih =>
    intro t x y M h2 _ _ h
    cases h2 with
    | lit d hd => simp at h; rw [← h.1] at hd; exact absurd (by decide) hd
    | esc d hd => simp at h
    | cls u Q hQ _ => simp at h
    | group u M hu =>
      simp only [List.cons_append, List.append_assoc, List.cons.injEq, true_and, List.nil_append] at h
      obtain ⟨rfl, rfl, he⟩ := ih hu (Or.inr ⟨x, rfl⟩) (Or.inr ⟨y, rfl⟩) h
      simp at he
      simp [he]
  | once s L hs ih =>
    intro t x y M h2 hx hy h
    cases h2 with
    | once t M ht => exact ih ht trivial trivial h
    | opt t M ht =>
      rw [List.append_assoc t] at h
      obtain ⟨_, _, rfl⟩ := ih ht trivial trivial h
      exact absurd (by simp) (hx '?' _ rfl)
    | exact t ds n M ht _ =>
      rw [List.append_assoc t] at h
      obtain ⟨_, _, rfl⟩ := ih ht trivial trivial h
      exact absurd (by simp) (hx '{' _ rfl)
    | between t ds es m n M ht _ _ _ =>
      rw [List.append_assoc t] at h
      obtain ⟨_, _, rfl⟩ := ih ht trivial trivial h
      exact absurd (by simp) (hx '{' _ rfl)
    | upto t es n M ht _ =>
      rw [List.append_assoc t] at h
      obtain ⟨_, _, rfl⟩ := ih ht trivial trivial h
      exact absurd (by simp) (hx '{' _ rfl)
  | opt s L hs ih =>
    intro t x y M h2 hx hy h
    rw [List.append_assoc] at h
    cases h2 with
    | once t M ht =>
      obtain ⟨_, _, rfl⟩ := ih ht trivial trivial h
      exact absurd (by simp) (hy '?' _ rfl)
    | opt t M ht =>
      rw [List.append_assoc t] at h
      obtain ⟨rfl, rfl, he⟩ := ih ht trivial trivial h
      simp at he
      simp [he]
    | exact t ds n M ht _ =>
      rw [List.append_assoc t] at h
      obtain ⟨_, _, he⟩ := ih ht trivial trivial h
      simp at he
    | between t ds es m n M ht _ _ _ =>
      rw [List.append_assoc t] at h
      obtain ⟨_, _, he⟩ := ih ht trivial trivial h
      simp at he
    | upto t es n M ht _ =>
      rw [List.append_assoc t] at h
      obtain ⟨_, _, he⟩ := ih ht trivial trivial h
      simp at he
  | exact s ds n L hs hn ih =>
    intro t x y M h2 hx hy h
    rw [List.append_assoc] at h
    cases h2 with
    | once t M ht =>
      obtain ⟨_, _, rfl⟩ := ih ht trivial trivial h
      exact absurd (by simp) (hy '{' _ rfl)
    | opt t M ht =>
      rw [List.append_assoc t] at h
      obtain ⟨_, _, he⟩ := ih ht trivial trivial h
      simp at he
    | exact t es m M ht hm =>
      rw [List.append_assoc t] at h
      obtain ⟨rfl, rfl, he⟩ := ih ht trivial trivial h
      simp only [List.cons_append, List.append_assoc, List.cons.injEq, true_and, List.nil_append] at he
      obtain ⟨rfl, rfl, he⟩ := num_det hn hm (by decide) (by decide) he
      simp at he
      simp [he]
    | between t es fs m m' M ht hm _ _ =>
      rw [List.append_assoc t] at h
      obtain ⟨_, _, he⟩ := ih ht trivial trivial h
      simp only [List.cons_append, List.append_assoc, List.cons.injEq, true_and, List.nil_append] at he
      obtain ⟨_, _, he⟩ := num_det hn hm (by decide) (by decide) he
      simp at he
    | upto t es m M ht hm =>
      rw [List.append_assoc t] at h
      obtain ⟨_, _, he⟩ := ih ht trivial trivial h
      simp only [List.cons_append, List.append_assoc, List.cons.injEq, true_and, List.nil_append] at he
      obtain ⟨d, ds', hd, hdig⟩ := num_head (x := '}' :: x) hn
      rw [hd] at he
      simp only [List.cons.injEq] at he
      rw [he.1] at hdig
      exact absurd hdig (by decide)
  | between s ds es m n L hs hm hn hle ih =>
    intro t x y M h2 hx hy h
    rw [List.append_assoc] at h
    cases h2 with
    | once t M ht =>
      obtain ⟨_, _, rfl⟩ := ih ht trivial trivial h
      exact absurd (by simp) (hy '{' _ rfl)
    | opt t M ht =>
      rw [List.append_assoc t] at h
      obtain ⟨_, _, he⟩ := ih ht trivial trivial h
      simp at he
    | exact t fs m' M ht hm' =>
      rw [List.append_assoc t] at h
      obtain ⟨rfl, rfl, he⟩ := ih ht trivial trivial h
      simp only [List.cons_append, List.append_assoc, List.cons.injEq, true_and, List.nil_append] at he
      obtain ⟨_, _, he⟩ := num_det hm hm' (by decide) (by decide) he
      simp at he
    | between t fs gs m' n' M ht hm' hn' _ =>
      rw [List.append_assoc t] at h
      obtain ⟨rfl, rfl, he⟩ := ih ht trivial trivial h
      simp only [List.cons_append, List.append_assoc, List.cons.injEq, true_and, List.nil_append] at he
      obtain ⟨rfl, rfl, he⟩ := num_det hm hm' (by decide) (by decide) he
      simp only [List.cons.injEq, true_and] at he
      obtain ⟨rfl, rfl, he⟩ := num_det hn hn' (by decide) (by decide) he
      simp at he
      simp [he]
    | upto t fs m' M ht hm' =>
      rw [List.append_assoc t] at h
      obtain ⟨_, _, he⟩ := ih ht trivial trivial h
      simp only [List.cons_append, List.append_assoc, List.cons.injEq, true_and, List.nil_append] at he
      obtain ⟨d, ds', hd, hdig⟩ := num_head (x := ',' :: (es ++ '}' :: x)) hm
      rw [hd] at he
      simp only [List.cons.injEq] at he
      rw [he.1] at hdig
      exact absurd hdig (by decide)
  | upto s es n L hs hn ih =>
    intro t x y M h2 hx hy h
    rw [List.append_assoc] at h
    cases h2 with
    | once t M ht =>
      obtain ⟨_, _, rfl⟩ := ih ht trivial trivial h
      exact absurd (by simp) (hy '{' _ rfl)
    | opt t M ht =>
      rw [List.append_assoc t] at h
      obtain ⟨_, _, he⟩ := ih ht trivial trivial h
      simp at he
    | exact t fs m' M ht hm' =>
      rw [List.append_assoc t] at h
      obtain ⟨_, _, he⟩ := ih ht trivial trivial h
      simp only [List.cons_append, List.append_assoc, List.cons.injEq, true_and, List.nil_append] at he
      obtain ⟨d, ds', hd, hdig⟩ := num_head (x := '}' :: y) hm'
      rw [hd] at he
      simp only [List.cons.injEq] at he
      rw [← he.1] at hdig
      exact absurd hdig (by decide)
    | between t fs gs m' n' M ht hm' hn' _ =>
      rw [List.append_assoc t] at h
      obtain ⟨_, _, he⟩ := ih ht trivial trivial h
      simp only [List.cons_append, List.append_assoc, List.cons.injEq, true_and, List.nil_append] at he
      obtain ⟨d, ds', hd, hdig⟩ := num_head (x := ',' :: (gs ++ '}' :: y)) hm'
      rw [hd] at he
      simp only [List.cons.injEq] at he
      rw [← he.1] at hdig
      exact absurd hdig (by decide)
    | upto t fs m' M ht hm' =>
      rw [List.append_assoc t] at h
      obtain ⟨rfl, rfl, he⟩ := ih ht trivial trivial h
      simp only [List.cons_append, List.append_assoc, List.cons.injEq, true_and, List.nil_append] at he
      obtain ⟨rfl, rfl, he⟩ := num_det hn hm' (by decide) (by decide) he
      simp at he
      simp [he]
  | nil =>
    intro t x y M h2 hx hy h
    cases h2 with
    | nil => exact ⟨rfl, rfl, h⟩
    | cons u v L M h1 h2 =>
      obtain ⟨c, z, rfl, hc⟩ := den_head h1 (Or.inr rfl)
      exfalso
      rcases hx with rfl | ⟨d, w, rfl, hd⟩
      · simp at h
      · simp only [List.nil_append, List.cons_append, List.cons.injEq] at h
        rw [← h.1] at hc
        apply hc
        simp only [List.mem_cons, List.not_mem_nil, or_false] at hd ⊢
        exact Or.inr (Or.inr hd)
  | cons s u L M h1 h2 ih1 ih2 =>
    intro t x y N h3 hx hy h
    cases h3 with
    | nil =>
      obtain ⟨c, z, rfl, hc⟩ := den_head h1 (Or.inr rfl)
      exfalso
      rcases hy with rfl | ⟨d, w, rfl, hd⟩
      · simp at h
      · simp only [List.nil_append, List.cons_append, List.cons.injEq] at h
        rw [h.1] at hc
        apply hc
        simp only [List.mem_cons, List.not_mem_nil, or_false] at hd ⊢
        exact Or.inr (Or.inr hd)
    | cons s' u' L' M' h1' h2' =>
      rw [List.append_assoc, List.append_assoc] at h
      obtain ⟨rfl, rfl, he⟩ := ih1 h1' (seq_follow h2 hx) (seq_follow h2' hy) h
      obtain ⟨rfl, rfl, rfl⟩ := ih2 h2' hx hy he
      simp
  | single s L hs ih =>
    intro t x y M h2 hx hy h
    cases h2 with
    | single t M ht => exact ih ht (close_seq hx) (close_seq hy) h
    | or t u M N ht hu =>
      rw [List.append_assoc] at h
      obtain ⟨_, _, rfl⟩ := ih ht (close_seq hx) (Or.inr ⟨'|', _, rfl, by decide⟩) h
      rcases hx with h | ⟨_, h⟩ <;> simp at h
  | or s u L M hs hu ih1 ih2 =>
    intro t x y N h2 hx hy h
    rw [List.append_assoc] at h
    cases h2 with
    | single t M ht =>
      obtain ⟨_, _, rfl⟩ := ih1 ht (Or.inr ⟨'|', _, rfl, by decide⟩) (close_seq hy) h
      rcases hy with h | ⟨_, h⟩ <;> simp at h
    | or s' u' L' M' hs' hu' =>
      rw [List.append_assoc] at h
      obtain ⟨rfl, rfl, he⟩ := ih1 hs' (Or.inr ⟨'|', _, rfl, by decide⟩) (Or.inr ⟨'|', _, rfl, by decide⟩) h
      simp only [List.cons.injEq, true_and] at he
      obtain ⟨rfl, rfl, rfl⟩ := ih2 hu' hx hy he
      simp

end Parce.Rx

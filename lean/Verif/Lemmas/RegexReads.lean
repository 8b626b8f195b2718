import Verif.Lemmas.RegexUnique
import Verif.Lemmas.RegexBuild
import Verif.Spec.Longest
import Verif.Lemmas.ReWay
import Verif.Lemmas.Edit
/-!
# Lemmas for reading the text of an expression
-/
namespace Parce.Rx

theorem reads_head {k : Syn} {s : Word} {L : Pat Char} (h : Reads k s L) : (k = .atom ∨ k = .piece) →
    ∃ c t, s = c :: t ∧ c ∉ ['?', '{', ')', '|'] := by
  induction h with
  | lit c hc =>
    refine fun _ => ⟨c, [], rfl, fun h => hc ?_⟩
    revert h
    simp only [List.mem_cons, List.not_mem_nil, or_false]
    rintro (h | h | h | h) <;> rw [h] <;> decide
  | esc c _ => exact fun _ => ⟨'\\', _, rfl, by decide⟩
  | cls s P f _ _ _ => exact fun _ => ⟨'[', _, rfl, by decide⟩
  | group s L _ _ => exact fun _ => ⟨'(', _, rfl, by decide⟩
  | once s L _ ih => exact fun _ => ih (Or.inl rfl)
  | opt s L _ ih => obtain ⟨c, t, rfl, hc⟩ := ih (Or.inl rfl); exact fun _ => ⟨c, _, rfl, hc⟩
  | exact s ds n L _ _ ih => obtain ⟨c, t, rfl, hc⟩ := ih (Or.inl rfl); exact fun _ => ⟨c, _, rfl, hc⟩
  | between s ds es m n L _ _ _ _ ih => obtain ⟨c, t, rfl, hc⟩ := ih (Or.inl rfl); exact fun _ => ⟨c, _, rfl, hc⟩
  | upto s es n L _ _ ih => obtain ⟨c, t, rfl, hc⟩ := ih (Or.inl rfl); exact fun _ => ⟨c, _, rfl, hc⟩
  | nil => rintro (h | h) <;> cases h
  | cons => rintro (h | h) <;> cases h
  | single => rintro (h | h) <;> cases h
  | or => rintro (h | h) <;> cases h

theorem reads_follow {s : Word} {L : Pat Char} (h : Reads .seq s L) {x : Word} (hx : Follow .seq x) : Follow .piece (s ++ x) := by
  intro c y hc
  cases h with
  | nil =>
    rcases hx with rfl | ⟨d, z, rfl, hd⟩
    · simp at hc
    · simp only [List.nil_append, List.cons.injEq] at hc
      rw [← hc.1]
      revert hd
      simp only [List.mem_cons, List.not_mem_nil, or_false]
      rintro (h | h) <;> rw [h] <;> decide
  | cons s t L M h1 h2 =>
    obtain ⟨d, z, rfl, hd⟩ := reads_head h1 (Or.inr rfl)
    simp only [List.cons_append, List.cons.injEq] at hc
    rw [← hc.1]
    intro h
    apply hd
    simp only [List.mem_cons, List.not_mem_nil, or_false] at h ⊢
    rcases h with h | h
    · exact Or.inl h
    · exact Or.inr (Or.inl h)

theorem reads_det {k : Syn} {s : Word} {L : Pat Char} (h1 : Reads k s L) : ∀ {t x y : Word} {M : Pat Char}, Reads k t M →
    Follow k x → Follow k y → s ++ x = t ++ y → s = t ∧ L = M ∧ x = y := by
  induction h1 with
  | lit c hc =>
    intro t x y M h2 _ _ h
    cases h2 with
    | lit d hd => simp at h; obtain ⟨rfl, rfl⟩ := h; simp
    | esc d hd => simp at h; rw [h.1] at hc; exact absurd (by decide) hc
    | cls u P g _ _ _ => simp at h; rw [h.1] at hc; exact absurd (by decide) hc
    | group u L _ => simp at h; rw [h.1] at hc; exact absurd (by decide) hc
  | esc c hc =>
    intro t x y M h2 _ _ h
    cases h2 with
    | lit d hd => simp at h; rw [← h.1] at hd; exact absurd (by decide) hd
    | esc d hd => simp at h; obtain ⟨rfl, rfl⟩ := h; simp
    | cls u P g _ _ _ => simp at h
    | group u L _ => simp at h
  | cls s P f hP hne hf =>
    intro t x y M h2 _ _ h
    cases h2 with
    | lit d hd => simp at h; rw [← h.1] at hd; exact absurd (by decide) hd
    | esc d hd => simp at h
    | cls u Q g hQ _ hg =>
      simp only [List.cons_append, List.append_assoc, List.cons.injEq, true_and, List.nil_append] at h
      obtain ⟨rfl, rfl, rfl⟩ := elems_det (isClass_elems hP) (isClass_elems hQ) h
      have : f = g := funext (fun c => Bool.eq_iff_iff.2 (by rw [hf, hg]))
      simp [this]
    | group u L _ => simp at h
  | group s L hs ih =>
    intro t x y M h2 _ _ h
    cases h2 with
    | lit d hd => simp at h; rw [← h.1] at hd; exact absurd (by decide) hd
    | esc d hd => simp at h
    | cls u Q g hQ _ _ => simp at h
    | group u M hu =>
      simp only [List.cons_append, List.append_assoc, List.cons.injEq, true_and, List.nil_append] at h
      obtain ⟨rfl, rfl, he⟩ := ih hu (Or.inr ⟨x, rfl⟩) (Or.inr ⟨y, rfl⟩) h
      simp at he
      simp [he]
  | once s L hs ih =>
    intro t x y M h2 hx hy h
    cases h2 with
    | once t M ht => exact ih ht trivial trivial h
    | opt t M ht =>
      rw [List.append_assoc t] at h
      obtain ⟨_, _, rfl⟩ := ih ht trivial trivial h
      exact absurd (by simp) (hx '?' _ rfl)
    | exact t ds n M ht _ =>
      rw [List.append_assoc t] at h
      obtain ⟨_, _, rfl⟩ := ih ht trivial trivial h
      exact absurd (by simp) (hx '{' _ rfl)
    | between t ds es m n M ht _ _ _ =>
      rw [List.append_assoc t] at h
      obtain ⟨_, _, rfl⟩ := ih ht trivial trivial h
      exact absurd (by simp) (hx '{' _ rfl)
    | upto t es n M ht _ =>
      rw [List.append_assoc t] at h
      obtain ⟨_, _, rfl⟩ := ih ht trivial trivial h
      exact absurd (by simp) (hx '{' _ rfl)
  | opt s L hs ih =>
    intro t x y M h2 hx hy h
    rw [List.append_assoc] at h
    cases h2 with
    | once t M ht =>
      obtain ⟨_, _, rfl⟩ := ih ht trivial trivial h
      exact absurd (by simp) (hy '?' _ rfl)
    | opt t M ht =>
      rw [List.append_assoc t] at h
      obtain ⟨rfl, rfl, he⟩ := ih ht trivial trivial h
      simp at he
      simp [he]
    | exact t ds n M ht _ =>
      rw [List.append_assoc t] at h
      obtain ⟨_, _, he⟩ := ih ht trivial trivial h
      simp at he
    | between t ds es m n M ht _ _ _ =>
      rw [List.append_assoc t] at h
      obtain ⟨_, _, he⟩ := ih ht trivial trivial h
      simp at he
    | upto t es n M ht _ =>
      rw [List.append_assoc t] at h
      obtain ⟨_, _, he⟩ := ih ht trivial trivial h
      simp at he
  | exact s ds n L hs hn ih =>
    intro t x y M h2 hx hy h
    rw [List.append_assoc] at h
    cases h2 with
    | once t M ht =>
      obtain ⟨_, _, rfl⟩ := ih ht trivial trivial h
      exact absurd (by simp) (hy '{' _ rfl)
    | opt t M ht =>
      rw [List.append_assoc t] at h
      obtain ⟨_, _, he⟩ := ih ht trivial trivial h
      simp at he
    | exact t es m M ht hm =>
      rw [List.append_assoc t] at h
      obtain ⟨rfl, rfl, he⟩ := ih ht trivial trivial h
      simp only [List.cons_append, List.append_assoc, List.cons.injEq, true_and, List.nil_append] at he
      obtain ⟨rfl, rfl, he⟩ := num_det hn hm (by decide) (by decide) he
      simp at he
      simp [he]
    | between t es fs m m' M ht hm _ _ =>
      rw [List.append_assoc t] at h
      obtain ⟨_, _, he⟩ := ih ht trivial trivial h
      simp only [List.cons_append, List.append_assoc, List.cons.injEq, true_and, List.nil_append] at he
      obtain ⟨_, _, he⟩ := num_det hn hm (by decide) (by decide) he
      simp at he
    | upto t es m M ht hm =>
      rw [List.append_assoc t] at h
      obtain ⟨_, _, he⟩ := ih ht trivial trivial h
      simp only [List.cons_append, List.append_assoc, List.cons.injEq, true_and, List.nil_append] at he
      obtain ⟨d, ds', hd, hdig⟩ := num_head (x := '}' :: x) hn
      rw [hd] at he
      simp only [List.cons.injEq] at he
      rw [he.1] at hdig
      exact absurd hdig (by decide)
  | between s ds es m n L hs hm hn hle ih =>
    intro t x y M h2 hx hy h
    rw [List.append_assoc] at h
    cases h2 with
    | once t M ht =>
      obtain ⟨_, _, rfl⟩ := ih ht trivial trivial h
      exact absurd (by simp) (hy '{' _ rfl)
    | opt t M ht =>
      rw [List.append_assoc t] at h
      obtain ⟨_, _, he⟩ := ih ht trivial trivial h
      simp at he
    | exact t fs m' M ht hm' =>
      rw [List.append_assoc t] at h
      obtain ⟨rfl, rfl, he⟩ := ih ht trivial trivial h
      simp only [List.cons_append, List.append_assoc, List.cons.injEq, true_and, List.nil_append] at he
      obtain ⟨_, _, he⟩ := num_det hm hm' (by decide) (by decide) he
      simp at he
    | between t fs gs m' n' M ht hm' hn' _ =>
      rw [List.append_assoc t] at h
      obtain ⟨rfl, rfl, he⟩ := ih ht trivial trivial h
      simp only [List.cons_append, List.append_assoc, List.cons.injEq, true_and, List.nil_append] at he
      obtain ⟨rfl, rfl, he⟩ := num_det hm hm' (by decide) (by decide) he
      simp only [List.cons.injEq, true_and] at he
      obtain ⟨rfl, rfl, he⟩ := num_det hn hn' (by decide) (by decide) he
      simp at he
      simp [he]
    | upto t fs m' M ht hm' =>
      rw [List.append_assoc t] at h
      obtain ⟨_, _, he⟩ := ih ht trivial trivial h
      simp only [List.cons_append, List.append_assoc, List.cons.injEq, true_and, List.nil_append] at he
      obtain ⟨d, ds', hd, hdig⟩ := num_head (x := ',' :: (es ++ '}' :: x)) hm
      rw [hd] at he
      simp only [List.cons.injEq] at he
      rw [he.1] at hdig
      exact absurd hdig (by decide)
  | upto s es n L hs hn ih =>
    intro t x y M h2 hx hy h
    rw [List.append_assoc] at h
    cases h2 with
    | once t M ht =>
      obtain ⟨_, _, rfl⟩ := ih ht trivial trivial h
      exact absurd (by simp) (hy '{' _ rfl)
    | opt t M ht =>
      rw [List.append_assoc t] at h
      obtain ⟨_, _, he⟩ := ih ht trivial trivial h
      simp at he
    | exact t fs m' M ht hm' =>
      rw [List.append_assoc t] at h
      obtain ⟨_, _, he⟩ := ih ht trivial trivial h
      simp only [List.cons_append, List.append_assoc, List.cons.injEq, true_and, List.nil_append] at he
      obtain ⟨d, ds', hd, hdig⟩ := num_head (x := '}' :: y) hm'
      rw [hd] at he
      simp only [List.cons.injEq] at he
      rw [← he.1] at hdig
      exact absurd hdig (by decide)
    | between t fs gs m' n' M ht hm' hn' _ =>
      rw [List.append_assoc t] at h
      obtain ⟨_, _, he⟩ := ih ht trivial trivial h
      simp only [List.cons_append, List.append_assoc, List.cons.injEq, true_and, List.nil_append] at he
      obtain ⟨d, ds', hd, hdig⟩ := num_head (x := ',' :: (gs ++ '}' :: y)) hm'
      rw [hd] at he
      simp only [List.cons.injEq] at he
      rw [← he.1] at hdig
      exact absurd hdig (by decide)
    | upto t fs m' M ht hm' =>
      rw [List.append_assoc t] at h
      obtain ⟨rfl, rfl, he⟩ := ih ht trivial trivial h
      simp only [List.cons_append, List.append_assoc, List.cons.injEq, true_and, List.nil_append] at he
      obtain ⟨rfl, rfl, he⟩ := num_det hn hm' (by decide) (by decide) he
      simp at he
      simp [he]
  | nil =>
    intro t x y M h2 hx hy h
    cases h2 with
    | nil => exact ⟨rfl, rfl, h⟩
    | cons u v L M h1 h2 =>
      obtain ⟨c, z, rfl, hc⟩ := reads_head h1 (Or.inr rfl)
      exfalso
      rcases hx with rfl | ⟨d, w, rfl, hd⟩
      · simp at h
      · simp only [List.nil_append, List.cons_append, List.cons.injEq] at h
        rw [← h.1] at hc
        apply hc
        simp only [List.mem_cons, List.not_mem_nil, or_false] at hd ⊢
        exact Or.inr (Or.inr hd)
  | cons s u L M h1 h2 ih1 ih2 =>
    intro t x y N h3 hx hy h
    cases h3 with
    | nil =>
      obtain ⟨c, z, rfl, hc⟩ := reads_head h1 (Or.inr rfl)
      exfalso
      rcases hy with rfl | ⟨d, w, rfl, hd⟩
      · simp at h
      · simp only [List.nil_append, List.cons_append, List.cons.injEq] at h
        rw [h.1] at hc
        apply hc
        simp only [List.mem_cons, List.not_mem_nil, or_false] at hd ⊢
        exact Or.inr (Or.inr hd)
    | cons s' u' L' M' h1' h2' =>
      rw [List.append_assoc, List.append_assoc] at h
      obtain ⟨rfl, rfl, he⟩ := ih1 h1' (reads_follow h2 hx) (reads_follow h2' hy) h
      obtain ⟨rfl, rfl, rfl⟩ := ih2 h2' hx hy he
      simp
  | single s L hs ih =>
    intro t x y M h2 hx hy h
    cases h2 with
    | single t M ht => exact ih ht (close_seq hx) (close_seq hy) h
    | or t u M N ht hu =>
      rw [List.append_assoc] at h
      obtain ⟨_, _, rfl⟩ := ih ht (close_seq hx) (Or.inr ⟨'|', _, rfl, by decide⟩) h
      rcases hx with h | ⟨_, h⟩ <;> simp at h
  | or s u L M hs hu ih1 ih2 =>
    intro t x y N h2 hx hy h
    rw [List.append_assoc] at h
    cases h2 with
    | single t M ht =>
      obtain ⟨_, _, rfl⟩ := ih1 ht (Or.inr ⟨'|', _, rfl, by decide⟩) (close_seq hy) h
      rcases hy with h | ⟨_, h⟩ <;> simp at h
    | or s' u' L' M' hs' hu' =>
      rw [List.append_assoc] at h
      obtain ⟨rfl, rfl, he⟩ := ih1 hs' (Or.inr ⟨'|', _, rfl, by decide⟩) (Or.inr ⟨'|', _, rfl, by decide⟩) h
      simp only [List.cons.injEq, true_and] at he
      obtain ⟨rfl, rfl, rfl⟩ := ih2 hu' hx hy he
      simp

/-! ## What remains of the text -/

/-- What remains after each of the matches, in their order. -/
def rems : Pat Char → Word → List Word
  | .eps, r => [r]
  | .set _, [] => []
  | .set f, c :: r => if f c then [r] else []
  | .cat a b, r => (rems a r).flatMap (rems b)
  | .alt a b, r => rems a r ++ rems b r
  | _, _ => []

/-- The kinds of expressions that are used. -/
def Plain : Pat Char → Prop
  | .eps => True
  | .set _ => True
  | .cat a b => Plain a ∧ Plain b
  | .alt a b => Plain a ∧ Plain b
  | _ => False

theorem plain_times {a : Pat Char} (h : Plain a) : (n : Nat) → Plain (a.times n)
  | 0 => trivial
  | n + 1 => ⟨h, plain_times h n⟩

theorem plain_upTo {a : Pat Char} (h : Plain a) : (n : Nat) → Plain (a.upTo n)
  | 0 => trivial
  | n + 1 => ⟨⟨h, plain_upTo h n⟩, trivial⟩

theorem reads_plain {k : Syn} {s : Word} {a : Pat Char} (h : Reads k s a) : Plain a := by
  induction h with
  | lit => trivial
  | esc => trivial
  | cls => trivial
  | group _ _ _ ih => exact ih
  | once _ _ _ ih => exact ih
  | opt _ _ _ ih => exact ⟨ih, trivial⟩
  | exact _ _ _ _ _ _ ih => exact plain_times ih _
  | between _ _ _ _ _ _ _ _ _ _ ih => exact ⟨plain_times ih _, plain_upTo ih _⟩
  | upto _ _ _ _ _ _ ih => exact plain_upTo ih _
  | nil => trivial
  | cons _ _ _ _ _ _ ih1 ih2 => exact ⟨ih1, ih2⟩
  | single _ _ _ ih => exact ih
  | or _ _ _ _ _ _ ih1 ih2 => exact ⟨ih1, ih2⟩

theorem rems_suffix {a : Pat Char} : ∀ {r x : Word}, x ∈ rems a r → x <:+ r := by
  induction a with
  | eps => intro r x h; simp only [rems, List.mem_singleton] at h; rw [h]; exact List.suffix_refl _
  | set f =>
    intro r x h
    cases r with
    | nil => simp [rems] at h
    | cons c r =>
      simp only [rems] at h
      split at h
      · rw [List.mem_singleton.1 h]; exact List.suffix_cons _ _
      · simp at h
  | cat a b ih1 ih2 =>
    intro r x h
    simp only [rems, List.mem_flatMap] at h
    obtain ⟨y, hy, hx⟩ := h
    exact (ih2 hx).trans (ih1 hy)
  | alt a b ih1 ih2 =>
    intro r x h
    simp only [rems, List.mem_append] at h
    rcases h with h | h
    · exact ih1 h
    · exact ih2 h
  | test => intro r x h; simp [rems] at h
  | star => intro r x h; simp [rems] at h
  | lazy => intro r x h; simp [rems] at h
  | grp => intro r x h; simp [rems] at h
  | look => intro r x h; simp [rems] at h

theorem drop_len {t x : Word} {i : Nat} (h : x <:+ t.drop i) : t.drop (t.length - x.length) = x := by
  have h2 : x <:+ t := h.trans (List.drop_suffix _ _)
  obtain ⟨u, rfl⟩ := h2
  simp

theorem run_rems (t : Word) (a : Pat Char) : Plain a → ∀ i, i ≤ t.length → ∀ c,
    a.run t i c = (rems a (t.drop i)).map (fun r => (t.length - r.length, c)) := by
  induction a with
  | eps =>
    intro _ i hi c
    have : t.length - (t.length - i) = i := by omega
    simp [Pat.run, rems, this]
  | set f =>
    intro _ i hi c
    simp only [Pat.run]
    by_cases h : i < t.length
    · rw [List.drop_eq_getElem_cons h, List.getElem?_eq_getElem h]
      simp only [rems]
      split
      · have : t.length - (t.length - (i + 1)) = i + 1 := by omega
        simp [this]
      · rfl
    · rw [List.drop_of_length_le (by omega), List.getElem?_eq_none (by omega)]
      rfl
  | cat a b ih1 ih2 =>
    intro h i hi c
    simp only [Pat.run, rems]
    rw [ih1 h.1 i hi c, List.flatMap_map, List.map_flatMap]
    apply flatMap_congr'
    intro x hx
    simp only
    rw [ih2 h.2 _ (by omega) c, drop_len (rems_suffix hx)]
  | alt a b ih1 ih2 =>
    intro h i hi c
    simp only [Pat.run, rems, List.map_append]
    rw [ih1 h.1 i hi c, ih2 h.2 i hi c]
  | test => intro h; exact h.elim
  | star => intro h; exact h.elim
  | lazy => intro h; exact h.elim
  | grp => intro h; exact h.elim
  | look => intro h; exact h.elim

/-! ## Reading and meaning -/

/-- What remains after a word of the set. -/
def Sem (a : Pat Char) (L : Lang) : Prop := ∀ r x, x ∈ rems a r ↔ ∃ w, r = w ++ x ∧ L w

theorem sem_cat {a b : Pat Char} {L M : Lang} (h1 : Sem a L) (h2 : Sem b M) : Sem (.cat a b) (L.cat M) := by
  intro r x
  simp only [rems, List.mem_flatMap]
  constructor
  · rintro ⟨y, hy, hx⟩
    obtain ⟨u, rfl, hu⟩ := (h1 _ _).1 hy
    obtain ⟨v, rfl, hv⟩ := (h2 _ _).1 hx
    exact ⟨u ++ v, by simp, u, v, rfl, hu, hv⟩
  · rintro ⟨w, rfl, u, v, rfl, hu, hv⟩
    exact ⟨v ++ x, (h1 _ _).2 ⟨u, by simp, hu⟩, (h2 _ _).2 ⟨v, rfl, hv⟩⟩

theorem sem_alt {a b : Pat Char} {L M : Lang} (h1 : Sem a L) (h2 : Sem b M) : Sem (.alt a b) (fun w => L w ∨ M w) := by
  intro r x
  simp only [rems, List.mem_append, h1 r x, h2 r x]
  constructor
  · rintro (⟨w, h, hw⟩ | ⟨w, h, hw⟩)
    · exact ⟨w, h, Or.inl hw⟩
    · exact ⟨w, h, Or.inr hw⟩
  · rintro ⟨w, h, hw | hw⟩
    · exact Or.inl ⟨w, h, hw⟩
    · exact Or.inr ⟨w, h, hw⟩

theorem sem_eps : Sem .eps (fun w => w = []) := by
  intro r x
  simp only [rems, List.mem_singleton]
  constructor
  · rintro rfl; exact ⟨[], rfl, rfl⟩
  · rintro ⟨w, h, rfl⟩; exact h.symm

theorem sem_set {f : Char → Bool} {P : Char → Prop} (h : ∀ c, f c = true ↔ P c) : Sem (.set f) (fun w => ∃ c, w = [c] ∧ P c) := by
  intro r x
  cases r with
  | nil => 
    simp only [rems, List.not_mem_nil, false_iff]
    rintro ⟨w, hw, c, rfl, _⟩
    simp at hw
  | cons d r =>
    simp only [rems]
    constructor
    · intro hx
      split at hx
      · next hf =>
        rw [List.mem_singleton.1 hx]
        exact ⟨[d], rfl, d, rfl, (h d).1 hf⟩
      · simp at hx
    · rintro ⟨w, hw, c, rfl, hc⟩
      simp only [List.cons_append, List.nil_append, List.cons.injEq] at hw
      rw [hw.1, hw.2, if_pos ((h c).2 hc)]
      exact List.mem_singleton.2 rfl

theorem sem_congr {a : Pat Char} {L M : Lang} (h : Sem a L) (he : ∀ w, L w ↔ M w) : Sem a M := by
  rw [← Lang.ext he]; exact h

theorem sem_chr (c : Char) : Sem (.chr c) (fun w => w = [c]) :=
  sem_congr (sem_set (P := fun d => d = c) (fun d => by simp)) (fun w => by simp)

theorem sem_times {a : Pat Char} {L : Lang} (h : Sem a L) : (n : Nat) → Sem (a.times n) (L.pow n)
  | 0 => sem_eps
  | n + 1 => sem_cat h (sem_times h n)

theorem pow_rep (L : Lang) (n : Nat) : L.pow n = L.rep n n := by
  apply Lang.ext
  intro w
  constructor
  · exact fun h => ⟨n, Nat.le_refl _, Nat.le_refl _, h⟩
  · rintro ⟨m, h1, h2, h3⟩
    have : m = n := by omega
    rw [← this]; exact h3

theorem rep_succ (L : Lang) (n : Nat) (w : Word) : (L.cat (L.rep 0 n) w ∨ w = []) ↔ L.rep 0 (n + 1) w := by
  constructor
  · rintro (⟨u, v, rfl, hu, m, _, hm, hv⟩ | rfl)
    · exact ⟨m + 1, by omega, by omega, u, v, rfl, hu, hv⟩
    · exact ⟨0, by omega, by omega, rfl⟩
  · rintro ⟨m, _, hm, h⟩
    cases m with
    | zero => exact Or.inr h
    | succ m =>
      obtain ⟨u, v, rfl, hu, hv⟩ := h
      exact Or.inl ⟨u, v, rfl, hu, m, by omega, by omega, hv⟩

theorem sem_upTo {a : Pat Char} {L : Lang} (h : Sem a L) : (n : Nat) → Sem (a.upTo n) (L.rep 0 n)
  | 0 => sem_congr sem_eps (fun w => by
      constructor
      · rintro rfl; exact ⟨0, by omega, by omega, rfl⟩
      · rintro ⟨m, _, hm, h⟩
        obtain rfl : m = 0 := by omega
        exact h)
  | n + 1 => sem_congr (sem_alt (sem_cat h (sem_upTo h n)) sem_eps) (rep_succ L n)

theorem sem_between {a : Pat Char} {L : Lang} (h : Sem a L) {m n : Nat} (hle : m ≤ n) :
    Sem (.cat (a.times m) (a.upTo (n - m))) (L.rep m n) := by
  have h2 := sem_cat (sem_times h m) (sem_upTo h (n - m))
  rw [pow_rep, Lang.rep_cat _ (Nat.le_refl _) (Nat.zero_le _)] at h2
  rwa [Nat.add_zero, Nat.add_sub_cancel' hle] at h2

theorem reads_den {k : Syn} {s : Word} {a : Pat Char} (h : Reads k s a) : ∃ L, Den k s L ∧ Sem a L := by
  induction h with
  | lit c hc => exact ⟨_, .lit c hc, sem_chr c⟩
  | esc c hc => exact ⟨_, .esc c hc, sem_chr c⟩
  | cls s P f hP hne hf => exact ⟨_, .cls s P hP hne, sem_set hf⟩
  | group s a _ ih => obtain ⟨L, h1, h2⟩ := ih; exact ⟨L, .group _ _ h1, h2⟩
  | once s a _ ih => obtain ⟨L, h1, h2⟩ := ih; exact ⟨L, .once _ _ h1, h2⟩
  | opt s a _ ih =>
    obtain ⟨L, h1, h2⟩ := ih
    refine ⟨_, .opt _ _ h1, sem_congr (sem_alt h2 sem_eps) (fun w => ?_)⟩
    rw [Lang.rep_opt]; exact Or.comm
  | exact s ds n a _ hn ih =>
    obtain ⟨L, h1, h2⟩ := ih
    refine ⟨_, .exact _ _ _ _ h1 hn, ?_⟩
    rw [← pow_rep]; exact sem_times h2 n
  | between s ds es m n a _ hm hn hle ih =>
    obtain ⟨L, h1, h2⟩ := ih
    exact ⟨_, .between _ _ _ _ _ _ h1 hm hn hle, sem_between h2 hle⟩
  | upto s es n a _ hn ih => obtain ⟨L, h1, h2⟩ := ih; exact ⟨_, .upto _ _ _ _ h1 hn, sem_upTo h2 n⟩
  | nil => exact ⟨_, .nil, sem_eps⟩
  | cons s t a b _ _ ih1 ih2 =>
    obtain ⟨L, h1, h2⟩ := ih1
    obtain ⟨M, h3, h4⟩ := ih2
    exact ⟨_, .cons _ _ _ _ h1 h3, sem_cat h2 h4⟩
  | single s a _ ih => obtain ⟨L, h1, h2⟩ := ih; exact ⟨L, .single _ _ h1, h2⟩
  | or s t a b _ _ ih1 ih2 =>
    obtain ⟨L, h1, h2⟩ := ih1
    obtain ⟨M, h3, h4⟩ := ih2
    exact ⟨_, .or _ _ _ _ h1 h3, sem_alt h2 h4⟩

theorem den_reads {k : Syn} {s : Word} {L : Lang} (h : Den k s L) : ∃ a, Reads k s a := by
  induction h with
  | lit c hc => exact ⟨_, .lit c hc⟩
  | esc c hc => exact ⟨_, .esc c hc⟩
  | cls s P hP hne =>
    classical
    exact ⟨_, .cls s P (fun c => decide (P c)) hP hne (fun c => by simp)⟩
  | group s a _ ih => obtain ⟨a, h⟩ := ih; exact ⟨a, .group _ _ h⟩
  | once s a _ ih => obtain ⟨a, h⟩ := ih; exact ⟨a, .once _ _ h⟩
  | opt s a _ ih => obtain ⟨a, h⟩ := ih; exact ⟨_, .opt _ _ h⟩
  | exact s ds n a _ hn ih => obtain ⟨a, h⟩ := ih; exact ⟨_, .exact _ _ _ _ h hn⟩
  | between s ds es m n a _ hm hn hle ih => obtain ⟨a, h⟩ := ih; exact ⟨_, .between _ _ _ _ _ _ h hm hn hle⟩
  | upto s es n a _ hn ih => obtain ⟨a, h⟩ := ih; exact ⟨_, .upto _ _ _ _ h hn⟩
  | nil => exact ⟨_, .nil⟩
  | cons s t a b _ _ ih1 ih2 => obtain ⟨a, h⟩ := ih1; obtain ⟨b, h'⟩ := ih2; exact ⟨_, .cons _ _ _ _ h h'⟩
  | single s a _ ih => obtain ⟨a, h⟩ := ih; exact ⟨a, .single _ _ h⟩
  | or s t a b _ _ ih1 ih2 => obtain ⟨a, h⟩ := ih1; obtain ⟨b, h'⟩ := ih2; exact ⟨_, .or _ _ _ _ h h'⟩

theorem follow_nil : (k : Syn) → Follow k []
  | .atom => trivial
  | .piece => fun c y h => by simp at h
  | .seq => Or.inl rfl
  | .alt => Or.inl rfl

/-- A text is read in one way. -/
theorem reads_unique {k : Syn} {s : Word} {a b : Pat Char} (h1 : Reads k s a) (h2 : Reads k s b) : a = b :=
  (reads_det h1 h2 (follow_nil k) (follow_nil k) rfl).2.1

theorem reads_sem {k : Syn} {s : Word} {a : Pat Char} {L : Lang} (h1 : Reads k s a) (h2 : Den k s L) : Sem a L := by
  obtain ⟨M, h3, h4⟩ := reads_den h1
  rwa [(den_det h2 h3 (follow_nil k) (follow_nil k) rfl).2.1]

end Parce.Rx

import Verif.Lemmas.ReBest
/-!
# The first character of what an expression matches
-/
namespace Parce
variable {α L A : Type} {t : List α}

/-- The expression may match the empty text. -/
def Pat.nul : Pat α → Bool
  | .eps => true
  | .set _ => false
  | .test _ => true
  | .cat a b => a.nul && b.nul
  | .alt a b => a.nul || b.nul
  | .star _ => true
  | .lazy _ => true
  | .grp _ a => a.nul
  | .look _ _ => true

/-- The expression may match a text that starts with this character. -/
def Pat.fst : Pat α → α → Bool
  | .eps, _ => false
  | .set f, c => f c
  | .test _, _ => false
  | .cat a b, c => a.fst c || (a.nul && b.fst c)
  | .alt a b, c => a.fst c || b.fst c
  | .star a, c => a.fst c
  | .lazy a, c => a.fst c
  | .grp _ a, c => a.fst c
  | .look _ _, _ => false

/-- The expression may match where this is the next character (none at the end). -/
def Pat.can : Pat α → Option α → Bool
  | .eps, _ => true
  | .set f, c => (c.map f).getD false
  | .test _, _ => true
  | .cat a b, c => a.can c && (!a.nul || (c.map a.fst).getD false || b.can c)
  | .alt a b, c => a.can c || b.can c
  | .star _, _ => true
  | .lazy _, _ => true
  | .grp _ a, c => a.can c
  | .look false a, c => a.can c
  | .look true _, _ => true

theorem rtg_first {R : Nat → Nat → Prop} {P : Nat → Prop} (hb : ∀ p q, R p q → p ≤ q) (h : ∀ p q, R p q → p < q → P p) {p q : Nat}
    (hr : Relation.ReflTransGen R p q) : p < q → P p := by
  induction hr with
  | refl => intro h; omega
  | @tail b c h1 h2 ih =>
    intro hlt
    by_cases hpb : p < b
    · exact ih hpb
    · have : p = b := by
        have : ∀ {x}, Relation.ReflTransGen R p x → p ≤ x := by
          intro x hx
          induction hx with
          | refl => exact Nat.le_refl _
          | tail _ h2 ih => exact Nat.le_trans ih (hb _ _ h2)
        have := this h1
        omega
      subst this
      exact h _ _ h2 hlt

theorem fst_sound (a : Pat α) : ∀ p q, a.mat t p q → (p < q → ∃ c, t[p]? = some c ∧ a.fst c = true) ∧ (p = q → a.nul = true) := by
  induction a with
  | eps => intro p q h; exact ⟨fun h' => by simp only [Pat.mat] at h; omega, fun _ => rfl⟩
  | set f => rintro p q ⟨rfl, x, h1, h2⟩; exact ⟨fun _ => ⟨x, h1, h2⟩, fun h => by omega⟩
  | test f => intro p q h; exact ⟨fun h' => by have := h.1; omega, fun _ => rfl⟩
  | cat a b iha ihb =>
    rintro p q ⟨r, h1, h2⟩
    have b1 := (mat_bounds t a _ _ h1).1
    have b2 := (mat_bounds t b _ _ h2).1
    obtain ⟨i1, i2⟩ := iha _ _ h1
    obtain ⟨j1, j2⟩ := ihb _ _ h2
    refine ⟨fun hlt => ?_, fun he => ?_⟩
    · by_cases hr : p < r
      · obtain ⟨c, hc, hf⟩ := i1 hr
        exact ⟨c, hc, by simp [Pat.fst, hf]⟩
      · have : p = r := by omega
        subst this
        obtain ⟨c, hc, hf⟩ := j1 hlt
        exact ⟨c, hc, by simp [Pat.fst, hf, i2 rfl]⟩
    · have h3 : p = r := by omega
      have h4 : r = q := by omega
      simp [Pat.nul, i2 h3, j2 h4]
  | alt a b iha ihb =>
    rintro p q (h | h)
    · refine ⟨fun hlt => ?_, fun he => ?_⟩
      · obtain ⟨c, hc, hf⟩ := (iha _ _ h).1 hlt
        exact ⟨c, hc, by simp [Pat.fst, hf]⟩
      · simp [Pat.nul, (iha _ _ h).2 he]
    · refine ⟨fun hlt => ?_, fun he => ?_⟩
      · obtain ⟨c, hc, hf⟩ := (ihb _ _ h).1 hlt
        exact ⟨c, hc, by simp [Pat.fst, hf]⟩
      · simp [Pat.nul, (ihb _ _ h).2 he]
  | star a ih =>
    intro p q h
    exact ⟨rtg_first (P := fun p => ∃ c, t[p]? = some c ∧ a.fst c = true) (fun p q h => (mat_bounds t a p q h).1) (fun p q h hlt => (ih p q h).1 hlt) h,
      fun _ => rfl⟩
  | lazy a ih =>
    intro p q h
    exact ⟨rtg_first (P := fun p => ∃ c, t[p]? = some c ∧ a.fst c = true) (fun p q h => (mat_bounds t a p q h).1) (fun p q h hlt => (ih p q h).1 hlt) h,
      fun _ => rfl⟩
  | grp i a ih => intro p q h; exact ih p q h
  | look neg a ih => intro p q h; exact ⟨fun h' => by cases neg <;> (have := h.1; omega), fun _ => rfl⟩

theorem can_sound (a : Pat α) : ∀ p q, a.mat t p q → a.can t[p]? = true := by
  induction a with
  | eps => intro p q _; rfl
  | set f => rintro p q ⟨rfl, x, h1, h2⟩; simp [Pat.can, h1, h2]
  | test f => intro p q _; rfl
  | cat a b iha ihb =>
    rintro p q ⟨r, h1, h2⟩
    have h3 := iha _ _ h1
    have b1 := (mat_bounds t a _ _ h1).1
    by_cases hr : p < r
    · obtain ⟨c, hc, hf⟩ := (fst_sound a _ _ h1).1 hr
      rw [hc] at h3
      simp [Pat.can, h3, hc, hf]
    · have : p = r := by omega
      subst this
      have := ihb _ _ h2
      simp [Pat.can, h3, this]
  | alt a b iha ihb =>
    rintro p q (h | h)
    · simp [Pat.can, iha _ _ h]
    · simp [Pat.can, ihb _ _ h]
  | star a ih => intro p q _; rfl
  | lazy a ih => intro p q _; rfl
  | grp i a ih => intro p q h; exact ih p q h
  | look neg a ih =>
    intro p q h
    cases neg with
    | false => obtain ⟨_, r, hr⟩ := h; exact ih _ _ hr
    | true => rfl

theorem can_fails {a : Pat α} {p : Nat} (h : a.can t[p]? = false) : Fails t a p := fun q hq => by
  rw [can_sound a p q hq] at h; cases h

/-- For each rule whether it may match where this is the next character. -/
def leads (rs : List (PRule α L A)) (c : Option α) : List Bool := rs.map fun r => r.pat.can c

/-- The match of a rule, when the rules before it fail. -/
theorem match_rule {rs : List (PRule α L A)} {i p q : Nat} {r : PRule α L A} {g : Caps} (hr : rs[i]? = some r)
    (hf : ∀ b ∈ rs.take i, Fails t b.pat p) (hb : ∀ c, ∃ x, r.pat.run t p c = (q, g ++ c) :: x) (hp : p ≤ t.length) :
    rxMatch (rs.map (·.pat)) t p = some ⟨p, q, ⟨i, Caps.rel p g⟩⟩ := by
  unfold rxMatch
  rw [if_pos hp]
  suffices h' : ∀ j, (allAt t p j (rs.map (·.pat))).head? = some ⟨p, q, ⟨j + i, Caps.rel p g⟩⟩ by
    have := h' 0; rwa [Nat.zero_add] at this
  induction rs generalizing i with
  | nil => cases hr
  | cons b rs ih =>
    intro j
    cases i with
    | zero =>
      simp only [List.getElem?_cons_zero, Option.some.injEq] at hr
      subst hr
      obtain ⟨x, hx⟩ := hb []
      simp only [List.map_cons, allAt, hx, List.cons_append, List.head?_cons, List.append_nil, Nat.add_zero]
    | succ i =>
      have hb' := (hf b (by simp)).run []
      simp only [List.map_cons, allAt, hb', List.map_nil, List.nil_append]
      rw [ih (i := i) (by simpa using hr) (fun c hc => hf c (by simp [hc]))]
      congr 3
      omega

/-- The rules fail that cannot start with the character. -/
theorem leads_fail {rs : List (PRule α L A)} {i p : Nat} (h : ((leads rs t[p]?).take i).all (!·) = true) :
    ∀ b ∈ rs.take i, Fails t b.pat p := by
  intro b hb
  apply can_fails
  rw [List.all_eq_true] at h
  have : b.pat.can t[p]? ∈ (leads rs t[p]?).take i := by
    unfold leads
    rw [← List.map_take]
    exact List.mem_map.2 ⟨b, hb, rfl⟩
  simpa using h _ this

/-- The rules fail that cannot start with the character, and some others. -/
theorem leads_fail' (ex : List Nat) {rs : List (PRule α L A)} {i p : Nat}
    (h : ((leads rs t[p]?).take i).zipIdx.all (fun x => !x.1 || ex.contains x.2) = true)
    (hx : ∀ j ∈ ex, ∀ r, rs[j]? = some r → Fails t r.pat p) : ∀ b ∈ rs.take i, Fails t b.pat p := by
  intro b hb
  obtain ⟨j, hj⟩ := List.mem_iff_getElem?.1 hb
  rw [List.getElem?_take] at hj
  split at hj
  · next hji =>
    rw [List.all_eq_true] at h
    have h1 : (b.pat.can t[p]?, j) ∈ ((leads rs t[p]?).take i).zipIdx := by
      rw [List.mk_mem_zipIdx_iff_getElem?, List.getElem?_take, if_pos hji, leads, List.getElem?_map, hj]
      rfl
    have := h _ h1
    simp only [Bool.or_eq_true, Bool.not_eq_eq_eq_not, Bool.not_true, List.contains_iff_mem] at this
    rcases this with h2 | h2
    · exact can_fails h2
    · exact hx j h2 b hj
  · cases hj

theorem leads_none {rs : List (PRule α L A)} {p : Nat} (h : (leads rs t[p]?).all (!·) = true) : ¬ Starts (rs.map (·.pat)) t p := by
  rintro ⟨a, ha, q, hq⟩
  obtain ⟨r, hr, rfl⟩ := List.mem_map.1 ha
  have := leads_fail (t := t) (rs := rs) (i := rs.length) (p := p) (by rw [List.take_of_length_le (by simp [leads])]; exact h) r (by simpa using hr)
  exact this q hq

end Parce

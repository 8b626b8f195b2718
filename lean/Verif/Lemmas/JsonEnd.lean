import Verif.Lemmas.JsonAll
import Verif.Lemmas.RebuildLex
import Verif.Lemmas.ReShift
import Verif.Lemmas.ReAhead
import Verif.Props.Re
import Verif.Props.Transform
/-!
# The whole JSON text, and its lexicons
-/
namespace Parce
variable {α L A ρ : Type}

theorem leave_close (b : BState α L A) : b.leave.close = b.close := by
  obtain ⟨c, up⟩ := b
  cases up with
  | nil => rfl
  | cons f fs => rfl

theorem leaves_close (n : Nat) : ∀ b : BState α L A, (b.leaves n).close = b.close := by
  induction n with
  | zero => intro b; rfl
  | succ n ih => intro b; rw [BState.leaves, ih, leave_close]

theorem enters_up (ls : List L) : ∀ b : BState α L A, (ls.foldl BState.enter b).up = [] → ls = [] := by
  induction ls with
  | nil => intro b _; rfl
  | cons l ls ih =>
    intro b h
    simp only [List.foldl_cons] at h
    have := ih _ h
    subst this
    simp [BState.enter] at h

/-- When only the root is open after the pending target, the target does not matter. -/
theorem target_close {b : BState α L A} {tg : Option (Target L)} (h : (b.target tg).up = []) : b.close = (b.target tg).close := by
  cases tg with
  | none => rfl
  | some tg =>
    simp only [BState.target] at h ⊢
    have := enters_up _ _ h
    rw [this]
    exact (leaves_close _ _).symm

/-- A lexer that comes to the end. -/
theorem goes_finish [DecidableEq α] {lang : Lang α L A ρ} {t : List α} {root : L} {p : Nat} {ns : List (Node α L A)} {o : Bool}
    (h : Goes lang t ⟨0, ⟨⟨root, []⟩, []⟩, true⟩ ⟨p, ⟨⟨root, ns⟩, []⟩, o⟩)
    (he : ∀ s b, At lang t ⟨p, ⟨⟨root, ns⟩, []⟩, o⟩ s b → lexStep lang t s = none) :
    (∃ n, RB.Finished lang root t n) ∧ ∀ n, RB.Finished lang root t n → buildTree lang root t 0 n = .ctx root ns := by
  obtain ⟨k, s', h1, h2⟩ := h (LState.start [root] 0) ⟨⟨root, []⟩, []⟩ ⟨rfl, rfl, fun c hc => by simp [LState.start] at hc, rfl⟩
  have h3 : RB.Ends lang t (k + 1) (LState.start [root] 0) (lexRun lang t k (LState.start [root] 0)).1 := by
    unfold RB.Ends
    rw [lexRun_add lang t k 1 _ s' h1]
    simp [lexRun, he s' _ h2]
  refine ⟨⟨k + 1, by unfold RB.Finished; rw [h3]; rfl⟩, fun n hn => ?_⟩
  have h4 : RB.Ends lang t n (LState.start [root] 0) (lexRun lang t n (LState.start [root] 0)).1 := by
    unfold RB.Ends
    unfold RB.Finished at hn
    rw [Option.isNone_iff_eq_none] at hn
    rw [← hn]
  have h5 := h4.unique h3
  unfold buildTree buildEvents
  rw [h5]
  rw [target_close (tg := s'.fac.get.1) (by rw [h2.tree]), h2.tree]
  rfl

end Parce

namespace Parce.Json
variable {u : Uni} {t : List Nat} {F : Type}

theorem text_tree (hu : u.Ascii) (f : Floats F) {v : JV} (h : Text false v t) :
    ∃ ns, vals f ns = [v.py f] ∧ (∃ n, RB.Finished (lang u) .root t n) ∧
      ∀ n, RB.Finished (lang u) .root t n → buildTree (lang u) .root t 0 n = .ctx .root ns := by
  obtain ⟨a, w, b, rfl, ha, hv, hb⟩ := h
  obtain ⟨ns, h1, h2⟩ := val_goes (u := u) (t := a ++ w ++ b) hu f hv .root [] [] 0 a b true (Or.inl rfl) ha (by simp [List.append_assoc])
    (fun h => absurd rfl h) (by
      have : Right (b ++ []) := right_ws hb (by intro c hc; cases hc)
      simpa using this)
  refine ⟨ns, h1, goes_finish h2 (fun s b' hat => ?_)⟩
  refine at_end hat rfl (fun i hi1 hi2 => ?_) (by simp [rules, values])
  have hd : (a ++ w ++ b).drop (0 + a.length + w.length) = b := by
    rw [Nat.zero_add, ← List.length_append, List.drop_left]
  by_cases hi : i < 0 + a.length + w.length + b.length
  · exact ws_none hu (by simp) hb (rest := []) (by simpa using hd) i hi1 hi
  · refine no_start (fun c hc => ?_)
    rw [List.getElem?_eq_none (by simp only [List.length_append]; omega)] at hc
    cases hc

theorem env_meth (f : Floats F) (l : JL) : (env f).meth l ≠ none := by simp [TrEnv.meth, env]

theorem no_raw (f : Floats F) : NoRaw (env f) := Or.inr (env_meth f)

/-! ### Rebuilding -/

theorem digits_known (u : Uni) (k : Nat) (hk : 1 ≤ k) : (Pat.plus (.set u.digit)).Known k := Or.inl ⟨hk, rfl, hk, hk⟩

theorem number_known : (number u).Known 9 := by
  refine Or.inr ⟨⟨str_fixed _ _ (by decide), trivial⟩, 1, 8, rfl, by decide, Or.inl ⟨digits_known u 8 (by decide), rfl, Or.inl ⟨⟨?_, trivial⟩, rfl, ⟨?_, trivial⟩⟩⟩⟩
  · exact Or.inr ⟨str_fixed _ _ (by decide), 1, 1, rfl, by decide, digits_known u 1 (by decide)⟩
  · exact Or.inr ⟨by show 1 ≤ 8; decide, 1, 5, rfl, by decide, Or.inr ⟨⟨by show 1 ≤ 5; decide, trivial⟩, 1, 1, rfl, by decide, digits_known u 1 (by decide)⟩⟩

theorem constants_len {a : Pat Nat} (ha : a ∈ [chr "true", chr "false", chr "null"]) : ∃ w : List Nat, a = Pat.str w ∧ w.length ≤ 5 := by
  simp only [List.mem_cons, List.not_mem_nil, or_false] at ha
  rcases ha with rfl | rfl | rfl <;> exact ⟨_, rfl, by decide⟩

theorem constant_known : (constant u).Known 9 := by
  refine Or.inr ⟨bound_fixed _ (by decide), 0, 9, rfl, by decide, Or.inr ?_⟩
  obtain ⟨m, h1, h2⟩ := alts_maxLen (n := 5) (l := [chr "true", chr "false", chr "null"]) (by decide) (by
    intro a ha
    obtain ⟨w, rfl, hw⟩ := constants_len ha
    exact ⟨_, str_maxLen _, hw⟩)
  refine ⟨alts_fixed (by decide) (fun a ha => ?_), m, 9 - m, h1, by omega, bound_known _ (by omega)⟩
  obtain ⟨w, rfl, hw⟩ := constants_len ha
  exact str_fixed _ _ (by omega)

theorem escape_known : escape.Known 9 := by
  refine Or.inr ⟨str_fixed _ _ (by decide), 1, 8, rfl, by decide, by show 1 ≤ 8; decide, Or.inr ⟨str_fixed _ _ (by decide), 1, 7, rfl, by decide, ?_⟩⟩
  refine Or.inr ⟨?_, 1, 6, rfl, by decide, Or.inr ⟨?_, 1, 5, rfl, by decide, Or.inr ⟨?_, 1, 4, rfl, by decide, Or.inr ⟨?_, 1, 3, rfl, by decide, trivial⟩⟩⟩⟩ <;> simp [Pat.Fixed]

theorem number_behind : (number u).Behind 1 :=
  ⟨⟨str_behind _ _, trivial⟩, ⟨trivial, trivial⟩, ⟨⟨str_behind _ _, trivial, trivial⟩, trivial⟩, ⟨trivial, ⟨trivial, trivial⟩, trivial, trivial⟩, trivial⟩

theorem constant_behind : (constant u).Behind 1 := by
  refine ⟨bound_behind _, alts_behind (fun a ha => ?_), bound_behind _⟩
  obtain ⟨w, rfl, _⟩ := constants_len ha
  exact str_behind _ _

theorem escape_behind : escape.Behind 1 := ⟨str_behind _ _, trivial, str_behind _ _, times_behind (a := .set isHex) trivial 4⟩

theorem chr_text {s : String} {w : List Nat} (h : (chr s).text w) : w = str s := by
  obtain ⟨t, p, q, h, rfl⟩ := h
  obtain ⟨rfl, post, h2⟩ := str_mat _ h
  unfold slice
  rw [List.drop_take, h2, Nat.add_sub_cancel_left, List.take_left]

theorem all_rules {P : Pat Nat → Prop} (hc : ∀ s, (str s).length ≤ 9 → P (chr s)) (hn : P (number u)) (hk : P (constant u)) (hs : P (.plus (.set u.space)))
    (he : P escape) (l : JL) : ∀ r ∈ rules u l, P r.pat := by
  have hv : ∀ r ∈ values u, P r.pat := by
    intro r hr
    simp only [values, List.mem_cons, List.not_mem_nil, or_false] at hr
    rcases hr with rfl | rfl | rfl | rfl | rfl
    · exact hc _ (by decide)
    · exact hc _ (by decide)
    · exact hc _ (by decide)
    · exact hn
    · exact hk
  intro r hr
  cases l <;> simp only [rules, List.mem_append, List.mem_cons, List.not_mem_nil, or_false] at hr
  · exact hv r hr
  · rcases hr with rfl | rfl
    · exact hc _ (by decide)
    · exact hs
  · rcases hr with rfl | rfl <;> exact hc _ (by decide)
  · rcases hr with hr | rfl | rfl
    · exact hv r hr
    · exact hc _ (by decide)
    · exact hc _ (by decide)
  · rcases hr with hr | rfl | rfl
    · exact hv r hr
    · exact hc _ (by decide)
    · exact hc _ (by decide)
  · rcases hr with rfl | rfl
    · exact hc _ (by decide)
    · exact he

/-- The target of a token with this text and action. -/
def tgtOf (l : JL) (w : List Nat) : JA → Option (Target JL)
  | .start => some ⟨0, [.string]⟩
  | .stop => some ⟨1, []⟩
  | .delimiter =>
    if w = str "{" then some ⟨0, [.object]⟩
    else if w = str "[" then some ⟨0, [.array]⟩
    else if w = str "}" then some ⟨if l = .value then 2 else 1, []⟩
    else if w = str ":" then some ⟨1, [.value]⟩
    else if w = str "]" then some ⟨1, []⟩
    else if l = .value then some ⟨1, []⟩ else none
  | _ => none

theorem tgt_of {l : JL} {r : PRule Nat JL JA} (hr : r ∈ rules u l) {w : List Nat} (gs : List (Nat × List Nat)) (h : r.pat.text w) :
    (r.out w gs).2 = tgtOf l w (r.out w gs).1 := by
  have hv : ∀ r ∈ values u, r.pat.text w → (r.out w gs).2 = tgtOf l w (r.out w gs).1 := by
    intro r hr h
    simp only [values, List.mem_cons, List.not_mem_nil, or_false] at hr
    rcases hr with rfl | rfl | rfl | rfl | rfl
    · rw [chr_text h]; rfl
    · rw [chr_text h]; rfl
    · rfl
    · rfl
    · rfl
  cases l <;> simp only [rules, List.mem_append, List.mem_cons, List.not_mem_nil, or_false] at hr
  · exact hv r hr h
  · rcases hr with rfl | rfl
    · rw [chr_text h]; rfl
    · rfl
  · rcases hr with rfl | rfl
    · rfl
    · rw [chr_text h]; rfl
  · rcases hr with hr | rfl | rfl
    · exact hv r hr h
    · rw [chr_text h]; rfl
    · rw [chr_text h]; rfl
  · rcases hr with hr | rfl | rfl
    · exact hv r hr h
    · rw [chr_text h]; rfl
    · rw [chr_text h]; rfl
  · rcases hr with rfl | rfl
    · rfl
    · rfl

theorem same_looks (l : JL) : SameLooks (rules u l) (dflt l) := by
  intro r hr w gs _ h
  refine ⟨fun r' hr' gs' h' ha => ?_, fun f hf ha => ?_⟩
  · rw [tgt_of hr gs h, tgt_of hr' gs' h', ha]
  · rw [tgt_of hr gs h, ha]
    cases l <;> simp only [dflt] at hf <;> cases hf
    rfl

theorem restartable : RB.Restartable1 9 (lang u) := by
  refine C70_restartable1 _ _ _ _ _ ?_ ?_ same_looks
  · exact all_rules (fun s _ => str_behind _ _) number_behind constant_behind ⟨trivial, trivial⟩ escape_behind
  · exact all_rules (fun s h => str_known _ _ h) number_known constant_known (Or.inl ⟨by show 1 ≤ 9; decide, rfl, by show 1 ≤ 9; decide, by decide⟩) escape_known

/-! ### Ending -/

theorem cat_consumes_left {α : Type} {a b : Pat α} (h : a.Consumes) : (Pat.cat a b).Consumes := by
  rintro t p q ⟨r, h1, h2⟩
  have := h t p r h1
  have := (mat_bounds t b r q h2).1
  omega

theorem cat_consumes_right {α : Type} {a b : Pat α} (h : b.Consumes) : (Pat.cat a b).Consumes := by
  rintro t p q ⟨r, h1, h2⟩
  have := h t r q h2
  have := (mat_bounds t a p r h1).1
  omega

theorem set_consumes {α : Type} (f : α → Bool) : (Pat.set f).Consumes := by
  rintro t p q ⟨rfl, _⟩
  omega

theorem str_consumes {w : List Nat} (h : w ≠ []) : (Pat.str w).Consumes := by
  intro t p q hm
  have := (str_mat _ hm).1
  have := List.length_pos_iff.2 h
  omega

theorem alts_consumes {l : List (Pat Nat)} (h : ∀ a ∈ l, a.Consumes) : (Pat.alts l).Consumes := by
  induction l with
  | nil => rintro t p q ⟨rfl, _⟩; omega
  | cons a l ih =>
    cases l with
    | nil => exact h a (by simp)
    | cons b l =>
      rintro t p q (h1 | h1)
      · exact h a (by simp) t p q h1
      · exact ih (fun x hx => h x (by simp [hx])) t p q h1

theorem finishes (t : List Nat) : ∃ n, RB.Finished (lang u) .root t n := by
  refine C70_terminates _ _ _ _ _ (fun l r hr => ?_) _ (fun s => if s.head? = some .object then 1 else 0) ?_ t
  · have hv : ∀ r ∈ values u, r.pat.Consumes := by
      intro r hr
      simp only [values, List.mem_cons, List.not_mem_nil, or_false] at hr
      rcases hr with rfl | rfl | rfl | rfl | rfl
      · exact str_consumes (by decide)
      · exact str_consumes (by decide)
      · exact str_consumes (by decide)
      · exact cat_consumes_right (cat_consumes_left (cat_consumes_left (set_consumes _)))
      · refine cat_consumes_right (cat_consumes_left (alts_consumes ?_))
        intro a ha
        simp only [List.mem_cons, List.not_mem_nil, or_false] at ha
        rcases ha with rfl | rfl | rfl <;> exact str_consumes (by decide)
    cases l <;> simp only [rules, List.mem_append, List.mem_cons, List.not_mem_nil, or_false] at hr
    · exact hv r hr
    · rcases hr with rfl | rfl
      · exact str_consumes (by decide)
      · exact cat_consumes_left (set_consumes _)
    · rcases hr with rfl | rfl <;> exact str_consumes (by decide)
    · rcases hr with hr | rfl | rfl
      · exact hv r hr
      · exact str_consumes (by decide)
      · exact str_consumes (by decide)
    · rcases hr with hr | rfl | rfl
      · exact hv r hr
      · exact str_consumes (by decide)
      · exact str_consumes (by decide)
    · rcases hr with rfl | rfl
      · exact str_consumes (by decide)
      · exact cat_consumes_left (str_consumes (by decide))
  · intro top rest tg _ h
    cases top <;> simp only [dflt] at h <;> cases h
    simp [clampPop, Target.apply]

end Parce.Json

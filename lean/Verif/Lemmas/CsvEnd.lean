import Verif.Lemmas.Csv
import Verif.Props.Lexer
/-!
# Lexing CSV ends
-/
namespace Parce.Csv
variable {sp : Nat → Bool} {t : List Nat}

theorem grp_consumes {α : Type} {a : Pat α} (i : Nat) (h : a.Consumes) : (Pat.grp i a).Consumes := h

theorem name_consumes : namePat.Consumes := Json.cat_consumes_left (Json.cat_consumes_left (Json.set_consumes _))

theorem open_consumes : (openPat sp).Consumes :=
  Json.cat_consumes_right (Json.cat_consumes_right (grp_consumes 2 (Json.set_consumes _)))

theorem close_consumes : (closePat sp).Consumes := Json.cat_consumes_left (grp_consumes 1 (Json.set_consumes _))

/-- Before the end of the text, the match of a rule is not empty. -/
theorem record_match {p : Nat} {m : Mtch RM} (h : rxMatch ((rules sp .record).map (·.pat)) t p = some m) (hp : p < t.length) :
    m.start < m.stop := by
  obtain ⟨c, hc⟩ : ∃ c, t[p]? = some c := ⟨t[p], List.getElem?_eq_getElem hp⟩
  by_cases h10 : c = 10
  · subst h10
    have hb : Best t eolPat p (p + 1) := (best_dollar (fun c h => by rw [hc] at h; cases h; rfl)).cat (Best.opt (best_chr hc))
    have hm := rxMatch_best (ps := []) (qs := [namePat, openPat sp, Pat.str [44]]) (by simp) hb (by omega)
    have : some m = some ⟨p, p + 1, ⟨0, []⟩⟩ := by rw [← h]; exact hm
    cases this
    exact Nat.lt_succ_self p
  · have hst := (rxMatch_some h).1
    obtain ⟨a, cs, h1, ⟨_, x, h2, _⟩, _⟩ := match_wins h
    have hmat := (C70_way a t _ _).1 ⟨x, cs, h2⟩
    have ha := List.mem_of_getElem? h1
    simp only [rules, rule, List.map_cons, List.map_nil, List.mem_cons, List.not_mem_nil, or_false] at ha
    rcases ha with rfl | rfl | rfl | rfl
    · rw [hst] at hmat
      exact absurd hmat (eol_fails hc h10 _)
    · exact name_consumes _ _ _ hmat
    · exact open_consumes _ _ _ hmat
    · exact Json.str_consumes (by simp) _ _ _ hmat

/-- A measure that decreases with a target that is followed without consuming text. -/
def measure (t : List Nat) (p : Nat) (s : List CL) : Nat :=
  if p < t.length then (if s.head? = some .root then 1 else 0) else s.length

theorem empty_slice {p q : Nat} (h : slice t p q = []) (h1 : p ≤ q) (h2 : q ≤ t.length) : p = q := by
  have : (slice t p q).length = q - p := slice_self_length h1 h2
  rw [h] at this
  simp at this
  omega

theorem finishes (sp : Nat → Bool) (t : List Nat) : ∃ n, RB.Finished (lang sp) .root t n := by
  suffices h : ∃ n, (lexRun (lang sp) t n (LState.start [.root] 0)).2 = none by
    obtain ⟨n, hn⟩ := h
    exact ⟨n, by unfold RB.Finished; rw [hn]; rfl⟩
  refine C23_terminates_partial (lang sp) t (fun l => compile_ok _ _ _) (fun l => ?_) [.root] .root rfl measure ?_ 0 (Nat.zero_le _)
  · cases l <;> trivial
  · intro t top rest ps ps' tok tg hr hps h1 h2 h3
    cases top with
    | root =>
      have hld : (lang sp).ld .root = .empty (dflt .root) := rfl
      rw [hld] at h1 hps
      cases ps with
      | stop => simp [parseNext] at h1
      | pend m => simp [parseNext] at h1
      | pendLit i => simp [parseNext] at h1
      | «at» p b =>
        simp only [parseNext, tailTok, dflt] at h1
        split at h1
        · next hp =>
          simp only [Option.some.injEq, Prod.mk.injEq] at h1
          obtain ⟨rfl, _⟩ := h1
          simp only [Option.some.injEq] at h3
          subst h3
          simp [measure, hp, clampPop, Target.apply]
        · cases h1
    | record =>
      have hld : (lang sp).ld .record = .regex (rxSearch ((rules sp .record).map (·.pat))) (rxMatch ((rules sp .record).map (·.pat)))
        (ruleOut .none (rules sp .record)) .skip := rfl
      rw [hld] at h1 hps
      cases ps with
      | stop => simp [parseNext] at h1
      | pend m =>
        obtain ⟨_, _, s, ma, r, f, h4, _⟩ := hps
        injection h4 with _ _ _ h4
        cases h4
      | pendLit i => simp [parseNext] at h1
      | «at» p b =>
        simp only [parseNext] at h1
        split at h1
        · next m hm =>
          obtain ⟨g1, g2, g3, g4, g5, _⟩ := rxSearch_some hm
          simp only [matchTok, Option.some.injEq, Prod.mk.injEq] at h1
          obtain ⟨rfl, _⟩ := h1
          simp only at h2 h3 ⊢
          have he := empty_slice h2 g2 g3
          have hlen : ¬ m.start < t.length := by
            intro hlt
            rcases g5 with ⟨g5, g6⟩ | g5
            · have := g4 g5; omega
            · have := record_match g5 hlt; omega
          -- the target
          have htg : tg = ⟨1, []⟩ := by
            have : Wins ((rules sp .record).map (·.pat)) t m := by
              rcases g5 with ⟨g5, g6⟩ | g5
              · have := g4 g5; omega
              · exact match_wins g5
            obtain ⟨a, cs, h4, ⟨_, x, h5, _⟩, _⟩ := this
            have hmat := (C70_way a t _ _).1 ⟨x, cs, h5⟩
            simp only [ruleOut] at h3
            match hi : m.rest.index with
            | 0 =>
              rw [hi] at h3
              simp [rules, rule] at h3
              exact h3.symm
            | 1 =>
              rw [hi] at h4
              simp [rules, rule] at h4
              subst h4
              have := name_consumes _ _ _ hmat
              omega
            | 2 =>
              rw [hi] at h4
              simp [rules, rule] at h4
              subst h4
              have := open_consumes _ _ _ hmat
              omega
            | 3 =>
              rw [hi] at h4
              simp [rules, rule] at h4
              subst h4
              have := Json.str_consumes (by simp) _ _ _ hmat
              omega
            | n + 4 =>
              rw [hi] at h4
              simp [rules, rule] at h4
          subst htg
          simp only [measure, if_neg hlen]
          cases rest with
          | nil => simp at hr
          | cons x rest => simp [clampPop, Target.apply]
        · cases h1
    | string =>
      have hc : EmptyTgts (fun _ : Target CL => False) ((lang sp).ld .string) := by
        show EmptyTgts _ (.regex (rxSearch ((rules sp .string).map (·.pat))) (rxMatch ((rules sp .string).map (·.pat)))
          (ruleOut .none (rules sp .string)) (.action fun _ => .string))
        refine ⟨fun tg h => (by cases h), fun t m tg hf he _ => ?_⟩
        have hm : m.start < m.stop := finds_consumes (fun a ha => by
          simp only [rules, rule, List.map_cons, List.map_nil, List.mem_cons, List.not_mem_nil, or_false] at ha
          rcases ha with rfl | rfl
          · exact Json.str_consumes (by simp)
          · exact close_consumes) hf
        have h5 : m.stop ≤ t.length := by
          rcases hf with ⟨p, h⟩ | ⟨p, b, h⟩
          · exact (rxMatch_some h).2.2
          · exact (rxSearch_some h).2.2.1
        have := empty_slice he (by omega) h5
        omega
      have := parseNext_emptyTgts (ld := (lang sp).ld .string) (compile_ok CA.none (rules sp .string) (dflt .string)) hc hps h1 h2 h3
      exact this.elim

end Parce.Csv

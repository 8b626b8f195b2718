import Verif.Spec.SwitchTransformer
import Verif.Props.Transform
/-!
# Lemmas about a worker whose transformer is replaced
-/
namespace Parce.Sw
variable {α L A R G N I T : Type} [DecidableEq G] [DecidableEq I] [DecidableEq T]

/-- What holds in a fair history. -/
structure Inv (env : T → TrEnv α L A R G N) (old now : List T) (s : State α L A R I T) : Prop where
  dist : Distinct s.ident (.ctx s.lex s.kids)
  cur : s.cur ∈ now
  ok : ∀ t ∈ now, CacheOK (env t) s.ident (s.cache t) (.ctx s.lex s.kids)
  new : ∀ t, t ∉ now → t ∉ old → ∀ i, s.cache t i = none
  res : s.result s.cur = some ((env s.cur).value (.ctx s.lex s.kids))

theorem runT_spec (env : T → TrEnv α L A R G N) (s : State α L A R I T) (hd : Distinct s.ident (.ctx s.lex s.kids))
    (hc : CacheOK (env s.cur) s.ident (s.cache s.cur) (.ctx s.lex s.kids)) :
    (runT env s).result s.cur = some ((env s.cur).value (.ctx s.lex s.kids)) ∧
    CacheOK (env s.cur) s.ident ((runT env s).cache s.cur) (.ctx s.lex s.kids) ∧
    (∀ t, t ≠ s.cur → (runT env s).cache t = s.cache t) := by
  have h1 := (C48_fresh (env s.cur) s.ident (s.cache s.cur) s.lex s.kids hd hc).1
  have h2 := (C48_cached (env s.cur) s.ident (fun _ => false) (s.cache s.cur) s.lex s.kids hd hc).1
  have hp : trProcess (env s.cur) s.ident (fun _ => false) false (s.cache s.cur) s.lex s.kids =
      (some ((env s.cur).value (.ctx s.lex s.kids)), (transformTree (env s.cur) s.ident (fun _ => false) (s.cache s.cur) s.lex s.kids).2) := by
    unfold trProcess
    revert h1
    rcases transformTree (env s.cur) s.ident (fun _ => false) (s.cache s.cur) s.lex s.kids with ⟨o, c⟩
    intro h1
    simp only at h1
    subst h1
    rfl
  refine ⟨?_, ?_, fun t ht => ?_⟩
  · simp only [runT, hp, upd, if_true]
  · simp only [runT, hp, upd, if_true]
    exact h2
  · simp only [runT, upd, if_neg ht]

theorem Fair.inv (env : T → TrEnv α L A R G N) {old now : List T} {s : State α L A R I T} (h : Fair env old now s) : Inv env old now s := by
  induction h with
  | start l cs ident t hd =>
    obtain ⟨h1, h2, h3⟩ := runT_spec env (⟨l, cs, ident, t, fun _ _ => none, fun _ => none⟩ : State α L A R I T) hd
      (fun _ _ _ _ _ _ h => by cases h)
    refine ⟨hd, List.mem_singleton.2 rfl, fun u hu => ?_, fun u hu _ i => ?_, h1⟩
    · rw [List.mem_singleton] at hu
      subst hu
      exact h2
    · rw [List.mem_singleton] at hu
      exact congrFun (h3 u hu) i
  | setT old now s t _ ha ih =>
    unfold Sw.setT
    split
    · next h =>
      subst h
      exact ⟨ih.dist, List.mem_cons_self .., fun u hu => ih.ok u (by
          rcases List.mem_cons.1 hu with h | h
          · exact h ▸ ih.cur
          · exact h), fun u hu ho i => ih.new u (fun h => hu (List.mem_cons_of_mem _ h)) ho i, ih.res⟩
    · next hne =>
      have hc : CacheOK (env t) s.ident (s.cache t) (.ctx s.lex s.kids) := by
        by_cases hn : t ∈ now
        · exact ih.ok t hn
        · have ho := ha.resolve_left hn
          intro p l cs r _ _ hr
          rw [ih.new t hn ho] at hr
          cases hr
      obtain ⟨h1, h2, h3⟩ := runT_spec env (⟨s.lex, s.kids, s.ident, t, s.cache, s.result⟩ : State α L A R I T) ih.dist hc
      refine ⟨ih.dist, List.mem_cons_self .., fun u hu => ?_, fun u hu ho i => ?_, h1⟩
      · by_cases hut : u = t
        · subst hut; exact h2
        · have hun : u ∈ now := (List.mem_cons.1 hu).resolve_left hut
          have := ih.ok u hun
          have h3 := h3 u hut
          intro p l cs r hp hat hr
          rw [h3] at hr
          exact this p l cs r hp hat hr
      · have hut : u ≠ t := fun h => hu (h ▸ List.mem_cons_self ..)
        rw [h3 u hut]
        exact ih.new u (fun h => hu (List.mem_cons_of_mem _ h)) ho i
  | edit old now s s' ids kids ident _ hann hs ih =>
    unfold Sw.edit at hs
    simp only at hs
    split at hs
    · next hok =>
      simp only [Option.some.injEq] at hs
      subst hs
      have hc : CacheOK (env s.cur) ident (invalidate ids (s.cache s.cur)).2 (.ctx s.lex kids) := by
        refine C48_invalidate (env s.cur) s.ident ident (s.cache s.cur) ids (.ctx s.lex s.kids) (.ctx s.lex kids) (ih.ok _ ih.cur) ?_ hok
        intro p l cs hp hat
        rcases hann.2 p l cs hp hat with h | h | h
        · exact .inl h
        · exact .inr (.inl (h _))
        · exact .inr (.inr h)
      obtain ⟨h1, h2, h3⟩ := runT_spec env
        (⟨s.lex, kids, ident, s.cur, upd s.cache s.cur (invalidate ids (s.cache s.cur)).2, s.result⟩ : State α L A R I T) hann.1
        (by simp only [upd, if_true]; exact hc)
      refine ⟨hann.1, List.mem_singleton.2 rfl, fun u hu => ?_, fun u hu ho i => ?_, h1⟩
      · rw [List.mem_singleton] at hu
        subst hu
        exact h2
      · rw [List.mem_singleton] at hu
        rw [h3 u hu]
        simp only [upd, if_neg hu]
        rw [List.mem_append] at ho
        exact ih.new u (fun h => ho (.inl h)) (fun h => ho (.inr h)) i
    · cases hs

end Parce.Sw

import Verif.Lemmas.SwitchTransformer
/-!
# Properties of a worker whose transformer is replaced (C115)
-/
namespace Parce.Sw
variable {α L A R G N I T : Type} [DecidableEq G] [DecidableEq I] [DecidableEq T]

/-- C115 (partial: when no transformer comes back after an edit that it missed, see `C115_back_violated`). After every edit and every new
    transformer, the result of the current transformer is its value of the current tree. -/
theorem C115_result_partial (env : T → TrEnv α L A R G N) (old now : List T) (s : State α L A R I T) (h : Fair env old now s) :
    s.result s.cur = some ((env s.cur).value (.ctx s.lex s.kids)) :=
  (Fair.inv env h).res

/-- C115 (partial, the same restriction). Setting a transformer leaves the tree alone, and gives the new transformer a result. -/
theorem C115_set_partial (env : T → TrEnv α L A R G N) (old now : List T) (s : State α L A R I T) (h : Fair env old now s) (t : T)
    (ht : t ∈ now ∨ t ∉ old) :
    (setT env t s).kids = s.kids ∧ (setT env t s).cur = t ∧
    (setT env t s).result t = some ((env t).value (.ctx s.lex s.kids)) := by
  have hcur : (setT env t s).cur = t := by
    unfold setT
    split
    · next h => exact h.symm
    · rfl
  have hk : (setT env t s).kids = s.kids ∧ (setT env t s).lex = s.lex := by
    unfold setT
    split <;> exact ⟨rfl, rfl⟩
  have := C115_result_partial env old (t :: now) _ (.setT old now s t h ht)
  rw [hcur, hk.1, hk.2] at this
  exact ⟨hk.1, hcur, this⟩

/-- Two transformers that count the tokens, in different units. -/
private def exT (t : Nat) : TrEnv Nat Nat Unit Nat Unit Nat where
  language _ := ()
  name l := l
  find _ _ := some ⟨fun il => (il.elems.map (fun x => match x with | .item _ n => n | _ => t)).sum, false⟩

private def tk (p : Nat) : Node Nat Nat Unit := .tok ⟨p, [7], (), none⟩

/-- A context with one token; transformer 1. -/
private def s0 : State Nat Nat Unit Nat (List Nat) Nat := start exT 0 [.ctx 1 [tk 0]] (fun p => p) 1
/-- Transformer 10 is set, then the context (at the path 0) gets another token. -/
private def s1 : Option (State Nat Nat Unit Nat (List Nat) Nat) := edit exT [[0]] [.ctx 1 [tk 0, tk 1]] (fun p => p) (setT exT 10 s0)

private theorem paths : ∀ (root : Node Nat Nat Unit), Distinct (fun p => p) root := fun _ _ _ _ _ _ _ _ _ _ _ h => h

private theorem announced (s : State Nat Nat Unit Nat (List Nat) Nat) (hl : s.lex = 0) :
    Announced s [[0]] [.ctx 1 [tk 0, tk 1]] (fun p => p) := by
  refine ⟨paths _, fun p l cs hp hat => .inl ?_⟩
  rw [hl] at hat
  match p, hp, hat with
  | [0], _, _ => exact List.mem_singleton.2 rfl
  | [i + 1], _, hat => simp [Node.at, Node.kids] at hat
  | 0 :: 0 :: p, _, hat => cases p <;> simp [Node.at, Node.kids, tk] at hat
  | 0 :: 1 :: p, _, hat => cases p <;> simp [Node.at, Node.kids, tk] at hat
  | 0 :: (i + 2) :: p, _, hat => simp [Node.at, Node.kids, tk] at hat
  | (i + 1) :: j :: p, _, hat => simp [Node.at, Node.kids] at hat

/-- C115 is violated by the code: a transformer that was replaced and is set again after an edit uses the values of the contexts it
    transformed before the edit, because only the current transformer is told about changes. Here the result is the one for the old
    text. -/
theorem C115_back_violated : ∃ (env : Nat → TrEnv Nat Nat Unit Nat Unit Nat) (s : State Nat Nat Unit Nat (List Nat) Nat),
    Hist env s ∧ s.cur = 1 ∧ s.result 1 = some (some 1) ∧ (env 1).value (.ctx s.lex s.kids) = some 2 := by
  cases h : s1 with
  | none => exact absurd h (by unfold s1 edit; rw [if_pos (by rfl)]; simp)
  | some s =>
    refine ⟨exT, setT exT 1 s, .setT s 1 (.edit _ s [[0]] _ _ (.setT s0 10 (.start 0 _ _ 1 (paths _))) (announced _ rfl) h), ?_⟩
    have hs : s1.map (fun s => ((setT exT 1 s).cur, (setT exT 1 s).result 1, (exT 1).value (.ctx (setT exT 1 s).lex (setT exT 1 s).kids))) =
        some (1, some (some 1), some 2) := rfl
    rw [h] at hs
    simp only [Option.map_some, Option.some.injEq, Prod.mk.injEq] at hs
    exact hs

/-- Without going back, the results are right: two tokens count 20 for transformer 10, and 200 for another one that is new. -/
example : ∃ s : State Nat Nat Unit Nat (List Nat) Nat, Fair exT [10, 1] [100, 10] s ∧ s.cur = 100 ∧ s.result 100 = some (some 200) ∧ s.result 10 = some (some 20) := by
  cases h : s1 with
  | none => exact absurd h (by unfold s1 edit; rw [if_pos (by rfl)]; simp)
  | some s =>
    have hs : s1.map (fun s => (s.cur, (setT exT 100 s).cur, (setT exT 100 s).result 100, (setT exT 100 s).result 10)) =
        some (10, 100, some (some 200), some (some 20)) := rfl
    rw [h] at hs
    simp only [Option.map_some, Option.some.injEq, Prod.mk.injEq] at hs
    have hf : Fair exT ([10, 1] ++ []) [(setT exT 10 s0).cur] s :=
      .edit [] [10, 1] _ s [[0]] _ _ (.setT [] [1] s0 10 (.start 0 _ _ 1 (paths _)) (.inr (by simp))) (announced _ rfl) h
    exact ⟨setT exT 100 s, .setT [10, 1] [10] s 100 hf (.inr (by decide)), hs.2⟩

end Parce.Sw

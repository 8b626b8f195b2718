import Verif.Model.Theme
/-!
# Lemmas for Theme
-/
namespace Parce.Theme
variable {V : Type} [DecidableEq V]

omit [DecidableEq V] in
theorem copyProps_eq (f : Fmt V) : (props : List Key) → (new : Fmt V) → (k : Key) →
    copyProps f new props k = if k ∈ props then (f k).or (new k) else new k
  | [], new, k => by simp [copyProps]
  | p :: props, new, k => by
    have ih := copyProps_eq f props
    unfold copyProps at ih ⊢
    rw [List.foldl_cons, ih]
    by_cases hk : k = p
    · subst hk
      cases hf : f k with
      | none => by_cases h : k ∈ props <;> simp [h]
      | some v => by_cases h : k ∈ props <;> simp [h, Fmt.set]
    · cases hf : f p with
      | none => simp [hk]
      | some v => simp [hk, Fmt.set]

/-- A group is kept when something in it is different. -/
def differs (f o : Fmt V) (props : List Key) : Bool :=
  props.any (fun k => (f k).isSome) && props.any (fun k => f.get k ≠ o.get k)

theorem sub_fold (f o : Fmt V) : (gs : List (List Key)) → (new : Fmt V) → (∀ k, new k = none ∨ new k = f k) → (k : Key) →
    (gs.foldl (fun new props =>
      if props.any (fun k => (f k).isSome) && props.any (fun k => f.get k ≠ o.get k) then copyProps f new props else new) new) k =
    if gs.any (fun g => decide (k ∈ g) && differs f o g) then f k else new k
  | [], new, _, k => by simp
  | g :: gs, new, hn, k => by
    rw [List.foldl_cons, List.any_cons]
    have hn' : ∀ k, (if (g.any (fun k => (f k).isSome) && g.any (fun k => f.get k ≠ o.get k)) = true then copyProps f new g else new) k = none ∨
        (if (g.any (fun k => (f k).isSome) && g.any (fun k => f.get k ≠ o.get k)) = true then copyProps f new g else new) k = f k := by
      intro k
      split
      · rw [copyProps_eq]
        split
        · cases hf : f k with
          | none => rcases hn k with h | h <;> simp [h, hf]
          | some v => simp
        · exact hn k
      · exact hn k
    rw [sub_fold f o gs _ hn' k]
    by_cases h1 : gs.any (fun g => decide (k ∈ g) && differs f o g) = true
    · simp [h1]
    · rw [if_neg h1]
      by_cases hd : differs f o g = true
      · rw [if_pos (by simpa [differs] using hd), copyProps_eq]
        by_cases hk : k ∈ g
        · simp only [hk, if_true, decide_true, hd, Bool.and_self, Bool.true_or]
          cases hf : f k with
          | none => rcases hn k with h | h <;> simp [h, hf]
          | some v => simp
        · simp [hk, h1]
      · rw [if_neg (by simpa [differs] using hd)]
        simp [hd, h1]

theorem sub_eq (f o : Fmt V) (k : Key) :
    f.sub o k = if groups.any (fun g => decide (k ∈ g) && differs f o g) then f k else none :=
  sub_fold f o groups Fmt.empty (fun _ => Or.inl rfl) k

theorem group_of (k : Key) : ∃ g ∈ groups, k ∈ g := by
  cases k <;> decide

end Parce.Theme

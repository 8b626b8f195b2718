import Verif.Spec.Css

namespace Parce.Css

variable {α : Type}

/-- The current list in the loop: the finished part, and the operator after it. -/
def withOp (seg : List (SItem α)) (o : Option Comb) : List (SItem α) :=
  match o with
  | none => seg
  | some o => seg ++ [.op o]

/-- The cleanup of one list. -/
def clean (l : List (SItem α)) : List (SItem α) := if !l.isEmpty && !endsSel l then l.dropLast else l

theorem endsSel_concat (seg : List (SItem α)) (x : SItem α) : endsSel (seg ++ [x]) = x.isSel := by
  simp [endsSel]

theorem clean_withOp (seg : List (SItem α)) (o : Option Comb) (h : endsSel seg = true) : clean (withOp seg o) = seg := by
  cases o with
  | none => simp [withOp, clean, h]
  | some o => simp [withOp, clean, endsSel_concat, SItem.isSel]

/-- The loop, with a list that ends in a selector and an operator, and with an empty list. -/
theorem preludeLoop_spec : (items : List (PItem α)) →
    (∀ (pre : List (List (SItem α))) (seg : List (SItem α)) (o : Option Comb), endsSel seg = true →
      ∃ s ss, splitComma items = s :: ss ∧
      (((preludeLoop items pre (withOp seg o)).1 ++ [(preludeLoop items pre (withOp seg o)).2]).map clean =
        pre.map clean ++ (seg ++ afterSel o s) :: ss.map segment)) ∧
    ∀ (pre : List (List (SItem α))), ((preludeLoop items pre []).1 ++ [(preludeLoop items pre []).2]).map clean =
        pre.map clean ++ (splitComma items).map segment
  | [] => by
      refine ⟨fun pre seg o h => ⟨[], [], rfl, ?_⟩, fun pre => ?_⟩
      · simp [preludeLoop, afterSel, clean_withOp seg o h]
      · simp [preludeLoop, splitComma, segment, clean]
  | i :: is => by
        obtain ⟨ih1, ih2⟩ := preludeLoop_spec is
        cases i with
        | comma =>
          refine ⟨fun pre seg o h => ⟨[], splitComma is, rfl, ?_⟩, fun pre => ?_⟩
          · rw [preludeLoop, ih2]
            simp [afterSel, clean_withOp seg o h]
          · rw [preludeLoop, ih2]
            simp [splitComma, segment, clean]
        | op o' =>
          refine ⟨fun pre seg o h => ?_, fun pre => ?_⟩
          · obtain ⟨s, ss, h1, h2⟩ := ih1 pre seg (o.or (some o')) h
            refine ⟨.op o' :: s, ss, by rw [splitComma, h1]; simp, ?_⟩
            rw [preludeLoop]
            have : (if endsSel (withOp seg o) = true then withOp seg o ++ [.op o'] else withOp seg o) = withOp seg (o.or (some o')) := by
              cases o with
              | none => simp [withOp, h]
              | some o => simp [withOp, endsSel_concat, SItem.isSel]
            rw [this, h2, afterSel]
          · rw [preludeLoop]
            have : (if endsSel ([] : List (SItem α)) = true then [] ++ [SItem.op o'] else []) = ([] : List (SItem α)) := by simp [endsSel]
            rw [this, ih2]
            obtain ⟨s, ss, h1, _⟩ := ih1 [] [.sel {}] none (by simp [endsSel, SItem.isSel])
            rw [splitComma, h1]
            · simp [segment]
            · simp
        | sel c =>
          refine ⟨fun pre seg o h => ?_, fun pre => ?_⟩
          · obtain ⟨s, ss, h1, h2⟩ := ih1 pre (seg ++ [.op (o.getD .desc), .sel c]) none (by
              rw [show seg ++ [SItem.op (o.getD .desc), .sel c] = (seg ++ [.op (o.getD .desc)]) ++ [.sel c] from by simp, endsSel_concat]; rfl)
            refine ⟨.sel c :: s, ss, by rw [splitComma, h1]; simp, ?_⟩
            rw [preludeLoop]
            have : (if endsSel (withOp seg o) = true then withOp seg o ++ [.op .desc] else withOp seg o) ++ [.sel c] =
                withOp (seg ++ [.op (o.getD .desc), .sel c]) none := by
              cases o with
              | none => simp [withOp, h]
              | some o => simp [withOp, endsSel_concat, SItem.isSel]
            rw [this, h2, afterSel]
            simp
          · rw [preludeLoop]
            obtain ⟨s, ss, h1, h2⟩ := ih1 pre [.sel c] none (by simp [endsSel, SItem.isSel])
            have : (if endsSel ([] : List (SItem α)) = true then [] ++ [SItem.op .desc] else []) ++ [SItem.sel c] = withOp (α := α) [.sel c] none := by
              simp [endsSel, withOp]
            rw [this, h2, splitComma, h1]
            · simp [segment]
            · simp
        | other =>
          refine ⟨fun pre seg o h => ?_, fun pre => ?_⟩
          · obtain ⟨s, ss, h1, h2⟩ := ih1 pre seg o h
            exact ⟨.other :: s, ss, by rw [splitComma, h1]; simp, by rw [preludeLoop, h2, afterSel] <;> simp⟩
          · obtain ⟨s, ss, h1, _⟩ := ih1 [] [.sel {}] none (by simp [endsSel, SItem.isSel])
            rw [preludeLoop, ih2, splitComma, h1]
            · simp [segment]
            · simp

theorem segment_alternates : (items : List (PItem α)) → segment items = [] ∨ Alternates (segment items)
  | [] => Or.inl rfl
  | .sel c :: is => Or.inr (after c none is)
  | .op _ :: is => by rw [segment]; exact segment_alternates is; simp
  | .comma :: is => by rw [segment]; exact segment_alternates is; simp
  | .other :: is => by rw [segment]; exact segment_alternates is; simp
where
  after (c : Compound α) (o : Option Comb) : (items : List (PItem α)) → Alternates (.sel c :: afterSel o items)
  | [] => trivial
  | .op o' :: is => after c (o.or (some o')) is
  | .sel c' :: is => after c' none is
  | .comma :: is => after c o is
  | .other :: is => after c o is

end Parce.Css
